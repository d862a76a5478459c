import Verif.Lemmas.NilStore
import Verif.Props.NilUid

/-!
# C105: what a store answers is right also if some calls are made with nil

Any number of goroutines, any interleaving of micro-steps, UIDs that may be nil, entities that may have no UID. Calls with
nil may leave the graph locked (C98); C105 is about the calls that return or panic nevertheless.
-/

namespace Netscrape.Props
open Netscrape Netscrape.Conc Netscrape.Spec

/-- **C105**: the calls on a new store that have come to their end returned what they return in some sequential order,
consistent with real time, in which calls with nil change nothing, but for the entries of a bulk call before the nil. -/
theorem c105_store_linearizable {d : Bool} {s₀ : Graph.St} (h0 : Spec.Store.Start d s₀) {c : NSCfg}
    (hr : Reach Store.progN (fun _ => True) s₀ c) : ∃ lin, Explains lin c.hist ∧ AllRight (Spec.Store.RightN d) lin :=
  right_of_legal (Store.rightN h0) (linearizable (seq := Store.seqN) (fun op _ => Store.one_progN op) (fun _ _ _ => rfl) hr)

/-- **C105**: there are no races, from any state, whatever panicked before. -/
theorem c105_store_no_race (s : Graph.St) (c : NSCfg) (l : Graph.Loc) (hr : Reach Store.progN (fun _ => True) s c) :
    ¬ Race c l :=
  no_race (fun op _ => (Store.one_progN op).disc) hr trivial

/-! ## Non-vacuity -/

/-- For each call that has come to its end: which entity, if any, did it get, and which error did it return? -/
def outcomeS : Ev Store.NOp Store.COut → Option (Nat × Res Store.Err (Option String))
  | .res i _ (.unit (.ok _)) => some (i, .ok none)
  | .res i _ (.unit (.err e)) => some (i, .err e)
  | .res i _ (.ent (.ok n)) => some (i, .ok (some n.ent.uid.str))
  | .res i _ (.ent (.err e)) => some (i, .err e)
  | .res i _ (.ents (.ok _)) => some (i, .ok none)
  | .res i _ (.ents (.err e)) => some (i, .err e)
  | .res i _ _ => some (i, .panic)
  | .inv _ _ _ => none

/-- After `a` has been added 1 links `q` with nil while 0 waits to unlink `a` from nil; 0 panics; then `Get(a)`
and `Get(nil)`. -/
def exNilStore : List (Act Store.NOp) := exOneEnt ++
  [.call 1 (.link ⟨7, "e"⟩ 3 (some ⟨4, "q"⟩) none []), .tau 1, .call 0 (.unlink (some ⟨4, "a"⟩) none)] ++ taus 1 7 ++
  [.ret 1] ++ taus 0 5 ++ [.ret 0, .call 0 (.get (some ⟨5, "a"⟩))] ++ taus 0 5 ++ [.ret 0, .call 1 (.get none)] ++
  taus 1 4 ++ [.ret 1]

example : ((exec Store.progN (.init exStore) exNilStore).map fun c => c.hist.filterMap outcomeS) =
    some [(0, .ok none), (1, .err .entityNotFound), (2, .panic), (3, .ok (some "a")), (4, .panic)] := by decide

/-- `BulkGet` looks at the UIDs in their order; `BulkAdd` has added `b` when it meets the entity without UID. -/
example :
    ((Store.progN (.bulkGet [some ⟨4, "q"⟩, none])).eval exStore).2 = .ents (.err .entityNotFound) ∧
    ((Store.progN (.bulkGet [none, some ⟨4, "q"⟩])).eval exStore).2 = .ents .panic ∧
    Option.map (fun e => e.uid) ((Spec.Store.afterN true .empty
      [.bulkAdd [(Order.id, .ent (Graph.exEnt 2 "b")), (Order.id, .nil none)] []]).ent "b") = some ⟨2, "b"⟩ := by
  decide +kernel

/-- A nil UID is being deleted while another goroutine waits to add. -/
example : ((exec Store.progN (.init exStore) ([.call 0 (.delete none)] ++ taus 0 3 ++
    [.call 1 (.add Order.id (.nil (some "x")) [])])).map fun c =>
      (c.mus .store, c.mus .graph, (step Store.progN c (.tau 0)).isSome, (step Store.progN c (.tau 1)).isSome)) =
    some (⟨0, .held⟩, ⟨1, .free⟩, true, false) := by decide

end Netscrape.Props
