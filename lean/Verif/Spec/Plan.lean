import Verif.Model.Plan

/-!
# Specification of a plan

Given only the history of calls: which resource is live under a UID string.
-/

namespace Netscrape.Spec.Plan
open Netscrape.Plan (Op Resource)

/-- The resource last added under the string `s` and not deleted since. The history is oldest
first; only the latest `Add` or `Delete` of `s` counts. -/
def live (hist : List Op) (s : String) : Option Resource :=
  match hist.reverse.find? (fun op => match op with
    | .add r => r.uid.str = s
    | .delete u => u.str = s
    | _ => false) with
  | some (.add r) => some r
  | _ => none

end Netscrape.Spec.Plan
