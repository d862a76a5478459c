import Verif.Lemmas.NilRace
import Verif.Props.NilUid

/-!
# C98: calls that panic, and races
-/

namespace Netscrape.Props
open Netscrape Netscrape.Conc Netscrape.Graph Netscrape.Spec

/-- **C98, what holds**: also among calls with nil UIDs and entities without UID, and whatever panicked before, every
race on the graph's maps is on the gonum graph and has a `SubGraph` call on one of its sides. -/
theorem c98_graph_races_partial {s : St} {c : Cfg Unit Graph.Loc St Graph.NOp Graph.NOut}
    (hr : Conc.Reach (Graph.progN ()) (fun _ => True) s c) {l : Graph.Loc} (hl : l ≠ .heap) {t t' : Nat}
    {k k' : Call Unit Graph.Loc St Graph.NOp Graph.NOut} {w : Bool} (hne : t ≠ t') (hk : c.calls t = some k)
    (hk' : c.calls t' = some k') (ha : access k = some (l, true)) (ha' : access k' = some (l, w)) :
    l = .builder ∧ (k.op.isSub ∨ k'.op.isSub) := by
  obtain ⟨O, hcount, -⟩ := (leakInvW (m := ()) (fun op _ => Graph.leaves_progN () op) hr).count
  constructor
  · cases l with
    | builder => rfl
    | heap => exact absurd rfl hl
    | nodes =>
      have hg := guardedCall (ops := fun _ => True) (fun op _ _ => guarded_lookup op) hr
      exact (no_race_guarded hcount (l := Graph.Loc.nodes) (prot := lookup) rfl hne hk hk' (hg t k hk trivial)
        (hg t' k' hk' trivial) ha ha').elim
  · apply Classical.byContradiction
    intro h
    have hg := guardedCall (ops := fun op => ¬ op.isSub) (fun op _ h => guarded_progN op h) hr
    exact no_race_guarded hcount (prot := Graph.shared) hl hne hk hk' (hg t k hk (fun x => h (.inl x)))
      (hg t' k' hk' (fun x => h (.inr x))) ha ha'

/-- **C98, what holds**: so without `SubGraph` there are none. -/
theorem c98_graph_no_race_partial {s : St} {c : Cfg Unit Graph.Loc St Graph.NOp Graph.NOut}
    (hr : Conc.Reach (Graph.progN ()) (fun op => ¬ op.isSub) s c) {l : Graph.Loc} (hl : l ≠ .heap) : ¬ Race c l := by
  rintro ⟨t, t', k, k', w, hne, hk, hk', ha, ha'⟩
  obtain ⟨O, hcount, -⟩ := (leakInvW (m := ()) (fun op _ => Graph.leaves_progN () op) hr).count
  have hg := guardedCall (ops := fun _ => True) (fun op h _ => guarded_progN op h) hr
  exact no_race_guarded hcount (prot := Graph.shared) hl hne hk hk' (hg t k hk trivial) (hg t' k' hk' trivial) ha ha'

/-- `RemoveNode(nil)` has panicked and keeps a read lock; `Unlink(a, nil)` and `Node(a)` are about to read the same
map, `AddNode` waits. -/
def exNilReads : List (Act Graph.NOp) := [.call 0 (.removeNode none), .tau 0, .ret 0,
  .call 0 (.unlink (some uA) none), .tau 0, .call 1 (.node (some uA)), .tau 1, .call 2 (.addNode (exNode 3 "d") []), .tau 2]

example : ((exec (Graph.progN ()) (.init (exSt true)) exNilReads).map fun c => (c.calls 0).map access) =
    some (some (some (.nodes, false))) ∧
    ((exec (Graph.progN ()) (.init (exSt true)) exNilReads).map fun c => (c.calls 1).map access) =
    some (some (some (.nodes, false))) ∧
    ((exec (Graph.progN ()) (.init (exSt true)) exNilReads).map fun c =>
      (c.mus (), (Conc.step (Graph.progN ()) c (.tau 2)).isNone)) = some (⟨3, .announced⟩, true) := by decide

end Netscrape.Props
