import Verif.Model.NilPlan
import Verif.Spec.Answers
import Verif.Spec.NilUid

/-!
# Plans and link caches with nil arguments
-/

namespace Netscrape.Spec

namespace Plan
open Netscrape.Plan (Op NOp NOut)

/-- The call, unless something is nil. -/
def plain : NOp → Option Op
  | .add r => r.map .add
  | .get u => u.map .get
  | .getAll o => some (.getAll o)
  | .delete u => u.map .delete

/-- Right outcomes: a call with nil panics; any other returns what is right had nobody ever made a call with nil. -/
def RightN (hist : List NOp) (op : NOp) (o : NOut) : Prop :=
  match plain op with
  | none => o = .panic
  | some op => ∃ out, o = .ret out ∧ Right (hist.filterMap plain) op out

/-- The call panics or reports an error. -/
def Fails : NOut → Prop
  | .panic => True
  | .ret (.got r) => ∀ x, r ≠ .ok x
  | .ret _ => False

end Plan

namespace Cache
open Netscrape.Cache (Link Op COp COut NOp NOut)

/-- The links before the first that is nil. -/
def beforeNil (xs : List (Option Link)) : List Link := (xs.takeWhile Option.isSome).filterMap id

/-- What the call amounts to: `BulkPut` puts the links before the first that is nil. -/
def plain : NOp → Option COp
  | .put x up => x.map fun x => .write (.put x up)
  | .bulkPut xs up => some (.write (.bulkPut (beforeNil xs) up))
  | .other op => some op

/-- A link is nil. -/
def HasNil : NOp → Prop
  | .put x _ => x = none
  | .bulkPut xs _ => none ∈ xs
  | .other _ => False

/-- Right outcomes: a call with a nil link panics; any other returns what is right, given what the calls before amount to. -/
def RightN (hist : List NOp) (op : NOp) (o : NOut) : Prop :=
  (HasNil op → o = .panic) ∧
  (¬ HasNil op → ∃ op' out, plain op = some op' ∧ o = .ret out ∧ Right (hist.filterMap plain) op' out)

/-- The call panics; none returns an error. -/
def Fails : NOut → Prop
  | .panic => True
  | .ret _ => False

end Cache

end Netscrape.Spec
