import Verif.Model.CacheConc
import Verif.Model.PlanConc
import Verif.Model.StoreConc
import Verif.Spec.Cache
import Verif.Spec.Linearizable
import Verif.Spec.Plan
import Verif.Spec.Store

/-!
# What a call may answer, given the calls before it

For the plan, the link cache and the store: the answers that are right for a call after a sequential
history of calls, in terms of the specifications of `Spec/Plan.lean`, `Spec/Cache.lean` and
`Spec/Store.lean`.
-/

namespace Netscrape.Spec

/-- Each call of the sequential run got a right answer. -/
def AllRight {Op Out : Type} (right : List Op → Op → Out → Prop) (lin : List (Nat × Op × Out)) : Prop :=
  ∀ pre x post, lin = pre ++ x :: post → right (pre.map fun y => y.2.1) x.2.1 x.2.2

namespace Plan
open Netscrape.Plan (Op Out)

/-- Right answers of a plan. -/
def Right (hist : List Op) : Op → Out → Prop
  | .add _, o => o = .done
  | .delete _, o => o = .done
  | .get u, o => o = .got (match live hist u.str with
      | some r => .ok r
      | none => .err .resourceNotFound)
  | .getAll _, o => ∃ l, o = .all l ∧ l.Nodup ∧ ∀ r, r ∈ l ↔ live hist r.uid.str = some r

end Plan

namespace Cache
open Netscrape.Cache (Op COp COut)

/-- The calls that change the cache. -/
def writes (hist : List COp) : List Op :=
  hist.filterMap fun op => match op with
    | .write op => some op
    | _ => none

/-- Right answers of the link cache. -/
def Right (hist : List COp) : COp → COut → Prop
  | .write _, o => o = .done
  | .getFrom _ u, o => o = .links (heldFrom (writes hist) u).toList
  | .getTo _ u, o => o = .links (heldTo (writes hist) u).toList
  | .bulkGetFrom _ us, o => ∃ m, o = .bulk m ∧
      ∀ u, m.get? u = if u ∈ us then (heldFrom (writes hist) u).map (fun l => [l]) else none
  | .bulkGetTo _ us, o => ∃ m, o = .bulk m ∧
      ∀ u, m.get? u = if u ∈ us then (heldTo (writes hist) u).map (fun l => [l]) else none

end Cache

namespace Store
open Netscrape.Store (Op COp COut)

/-- The call as an operation that changes the store, if it is one. -/
def asWrite : COp → Option Op
  | .add o e opts => some (.add o e opts)
  | .get _ => none
  | .delete u => some (.delete u)
  | .link fresh a f t opts => some (.link fresh a f t opts)
  | .unlink f t => some (.unlink f t)
  | .bulkAdd es opts => some (.bulkAdd es opts)
  | .bulkGet _ => none
  | .bulkDelete us => some (.bulkDelete us)
  | .bulkLink f us opts => some (.bulkLink f us opts)
  | .bulkUnlink f us => some (.bulkUnlink f us)

/-- The calls that change the store. -/
def writes (hist : List COp) : List Op := hist.filterMap asWrite

/-- The reference store after the history. -/
def after (directed : Bool) (hist : List COp) : AStore := AStore.run directed .empty (writes hist)

/-- Right answers of the store, as long as there have been fewer than `2^63` additions. What
`BulkGet` returns is property C35; here: an error iff some entity is absent. -/
def Right (directed : Bool) (hist : List COp) (op : COp) (o : COut) : Prop :=
  adds (writes (hist ++ [op])) ≤ 2 ^ 63 →
  match op with
  | .get u => match (after directed hist).ent u.str with
    | some e => ∃ n, o = .ent (.ok n) ∧ n.ent = e
    | none => o = .ent (.err .entityNotFound)
  | .bulkGet us => ∃ r, o = .ents r ∧
      ((∃ u ∈ us, (after directed hist).ent u.str = none) → r = .err .entityNotFound) ∧
      ((∀ u ∈ us, ∃ e, (after directed hist).ent u.str = some e) →
        ∃ ns, r = .ok ns ∧ ns.length = us.length)
  | op => ∀ w, asWrite op = some w → o = .unit ((after directed hist).step directed w).1

end Store

end Netscrape.Spec
