import Verif.Lemmas.FailClean
import Verif.Props.NilUid

/-!
# C102, C103: calls that fail change nothing

Any number of goroutines, any interleaving of micro-steps, UIDs that may be nil.
-/

namespace Netscrape.Props
open Netscrape Netscrape.Conc Netscrape.Spec

/-! ## C102 -/

/-- **C102**: once a step of `Add`, `Get`, `Delete`, `Link`, `Unlink` or `BulkGet` has changed a node, an edge or an
attribute set that was there before, this call neither returns an error nor panics, whatever other goroutines do before,
between and after, with whatever calls. -/
theorem c102_store_clean : FailsClean Store.progN (fun op => ¬ ManyWrites op) Untouched StoreFails :=
  failsClean Graph.untouched_refl Store.clean_progN

/-- **C102**, a call made alone: if it fails, nothing has changed. -/
theorem c102_store_alone (op : Store.NOp) (h : ¬ ManyWrites op) (s : Graph.St)
    (hf : StoreFails ((Store.progN op).eval s).2) : Untouched s ((Store.progN op).eval s).1 :=
  ((Store.clean_progN op h).eval Graph.untouched_refl Graph.untouched_trans s).resolve_right fun h => h hf

/-- The results of the calls. -/
def resultS : Ev Store.NOp Store.COut → Option (Nat × Store.COut)
  | .res i _ out => some (i, out)
  | .inv .. => none

/-- How many nodes the gonum graph has, and how many the map from UIDs to nodes. -/
def sizes {Op Out : Type} {μ : Type} (c : Cfg μ Graph.Loc Graph.St Op Out) : Nat × Nat :=
  (c.data.g.b.nodes.size, c.data.g.nodes.size)

/-- Non-vacuity: goroutine 1's `Add` finds the entity that goroutine 0 has just added; its `Add` fails, goroutine 0's
step that changed the graph (the 15th) belongs to a call that does not fail. -/
def exSameAdds : List (Act Store.NOp) :=
  [.call 0 (.add Order.id (.ent (Graph.exEnt 1 "a")) []), .call 1 (.add Order.id (.ent (Graph.exEnt 2 "a")) [])] ++ taus 0 14

example : ((exec Store.progN (.init exStore) exSameAdds).map fun c => (sizes c, (step Store.progN c (.tau 0)).map sizes)) =
    some ((0, 0), some (1, 0)) := by decide +kernel

example : ((exec Store.progN (.init exStore) (exSameAdds ++ taus 0 4 ++ taus 1 17 ++ [.ret 1, .ret 0])).map fun c =>
    (sizes c, c.hist.filterMap resultS)) =
    some ((1, 1), [(1, .unit (.err .alreadyExists)), (0, .unit (.ok ()))]) := by decide +kernel

-- a call that fails alone
example : StoreFails ((Store.progN (.get none)).eval exStore).2 ∧
    StoreFails ((Store.progN (.get (some ⟨4, "a"⟩))).eval exStore).2 :=
  ⟨nofun, nofun⟩

/-- `BulkAdd`, for comparison: it fails after it has added an entity (see C36). -/
def exBulk : Store.NOp := .bulkAdd [(Order.id, .ent (Graph.exEnt 1 "a")), (Order.id, .ent (Graph.exEnt 2 "a"))] []

example : ((Store.progN exBulk).eval exStore).1.g.nodes.size = 1 ∧
    ((Store.progN exBulk).eval exStore).2 = .unit (.err .alreadyExists) := by decide +kernel

/-! ## C103 -/

/-- **C103**: the same for all calls of the graph. -/
def GraphCleanStatement : Prop := FailsClean (Graph.progN ()) (fun _ => True) Untouched GraphFails

/-- `AddNode` of a node without UID, up to the step that gives it to the gonum graph. -/
def exAddNil : List (Act Graph.NOp) := [.call 0 (.addNil (Graph.exNode 3 ""))] ++ taus 0 3

/-- The number and the goroutine of a call that has panicked. -/
def panicker : Ev Graph.NOp Graph.NOut → Option (Nat × Nat)
  | .res i t .panic => some (i, t)
  | _ => none

/-- **C103 is violated**: `AddNode` of a node whose entity has no UID panics after it has given the node to the gonum
graph, where it stays: `Nodes` lists it from then on, `Node` never finds it. -/
theorem c103_graph_violated : ¬ GraphCleanStatement := by
  intro hst
  have hrun : ((exec (Graph.progN ()) (.init (Graph.exInit true)) exAddNil).map fun c =>
      (sizes c, (c.calls 0).map Call.id, (step (Graph.progN ()) c (.tau 0)).map sizes)) =
      some ((0, 0), some 0, some (1, 0)) := by decide +kernel
  have hend : ((exec (Graph.progN ()) (.init (Graph.exInit true)) exAddNil).bind fun c =>
      (step (Graph.progN ()) c (.tau 0)).bind fun c => (exec (Graph.progN ()) c [.tau 0, .ret 0]).map fun c =>
        c.hist.filterMap panicker) = some [(0, 0)] := by decide +kernel
  obtain ⟨c, hc, h0⟩ := Option.map_eq_some_iff.mp hrun
  simp only [Prod.mk.injEq] at h0
  obtain ⟨hs, hk, hs'⟩ := h0
  obtain ⟨k, hk, hid⟩ := Option.map_eq_some_iff.mp hk
  obtain ⟨c', hc', hs'⟩ := Option.map_eq_some_iff.mp hs'
  simp only [hc, hc', Option.bind_some] at hend
  obtain ⟨c'', hc'', hh⟩ := Option.map_eq_some_iff.mp hend
  have hreach : Reach (Graph.progN ()) (fun _ => True) (Graph.exInit true) c :=
    reach_exec _ .init (fun _ _ _ _ _ => trivial) hc
  have hmem : Ev.res k.id 0 .panic ∈ c''.hist := by
    rw [hid]
    have h1 : (0, 0) ∈ c''.hist.filterMap panicker := by rw [hh]; exact List.mem_cons_self
    obtain ⟨e, he, h2⟩ := List.mem_filterMap.mp h1
    unfold panicker at h2
    split at h2
    · simp only [Option.some.injEq, Prod.mk.injEq] at h2
      obtain ⟨rfl, rfl⟩ := h2
      exact he
    · cases h2
  refine hst _ c c' c'' 0 k [.tau 0, .ret 0] 0 .panic hreach hk trivial hc' ?_ hc'' hmem trivial
  intro hu
  have : sizes c' = sizes c := by simp only [sizes, hu.1]
  rw [hs, hs'] at this
  exact absurd this (by decide)

/-- **C103, what holds**: only `AddNode` of a node without UID breaks it. What is missing: that call. -/
theorem c103_graph_clean_partial : FailsClean (Graph.progN ()) (fun op => ∀ n, op ≠ .addNil n) Untouched GraphFails :=
  failsClean Graph.untouched_refl (Graph.clean_progN ())

/-- **C103, what holds**, a call made alone: if it fails, nothing has changed. -/
theorem c103_graph_alone_partial (op : Graph.NOp) (h : ∀ n, op ≠ .addNil n) (s : Graph.St)
    (hf : GraphFails ((Graph.progN () op).eval s).2) : Untouched s ((Graph.progN () op).eval s).1 :=
  ((Graph.clean_progN () op h).eval Graph.untouched_refl Graph.untouched_trans s).resolve_right fun h => h hf

/-- **C103, what holds** for all calls: a step of a call that goes on to fail adds at most one node to the gonum graph,
whose ID was not in use. -/
theorem c103_graph_most_partial :
    FailsClean (Graph.progN ()) (fun _ => True) (fun s s' => Untouched s s' ∨ ∃ n, OneMore n s s') GraphFails :=
  failsClean (fun s => .inl (Graph.untouched_refl s)) fun op _ => Graph.clean_all () op

/-- **C103, what holds** for `AddNode` of a node without UID, made alone: it panics; nothing has changed if the node's ID is
in use, and otherwise the gonum graph has got that node. -/
theorem c103_graph_noUID_partial (n : Graph.Node) (s : Graph.St) :
    ((Graph.progN () (.addNil n)).eval s).2 = .panic ∧
    (s.g.b.nodes.get? n.id ≠ none → ((Graph.progN () (.addNil n)).eval s).1 = s) ∧
    (s.g.b.nodes.get? n.id = none → OneMore n s ((Graph.progN () (.addNil n)).eval s).1) := by
  have hev : (Graph.progN () (.addNil n)).eval s = (match s.g.b.addNode n with
      | none => s
      | some b => ⟨s.heap, { s.g with b := b }⟩, .panic) := by
    show ((Graph.addNilP () n).bind fun r => .ret (Graph.NOut.of .unit r)).eval s = _
    rw [eval_bind]
    unfold Graph.addNilP
    rw [eval_excl]
    simp only [Prog.eval, Gonum.Builder.node?, Gonum.Builder.addNode]
    cases h : s.g.b.nodes.get? n.id <;> simp only [Prog.eval, h] <;> rfl
  rw [hev]
  refine ⟨rfl, fun h => ?_, fun h => ?_⟩
  · unfold Gonum.Builder.addNode
    cases h' : s.g.b.nodes.get? n.id with
    | none => exact absurd h' h
    | some x => rfl
  · have : s.g.b.addNode n = some { s.g.b with nodes := s.g.b.nodes.set n.id n, ids := s.g.b.ids.use n.id } := by
      unfold Gonum.Builder.addNode
      rw [h]
    rw [this]
    exact Graph.oneMore this

-- both cases: the second call uses the same ID
example : (Graph.exInit true).g.b.nodes.get? (Graph.exNode 3 "").id = none ∧
    ((Graph.progN () (.addNil (Graph.exNode 3 ""))).eval (Graph.exInit true)).1.g.b.nodes.get? (Graph.exNode 3 "").id ≠ none := by
  decide +kernel

/-- Non-vacuity: linking a node with itself panics and leaves the graph as it was; the fourth step of the `AddNode` before
it had changed the graph. -/
def exLinkSelf : List (Act Graph.NOp) :=
  [.call 0 (.addNode (Graph.exNode 1 "a") [])] ++ taus 0 3

example : ((exec (Graph.progN ()) (.init (Graph.exInit true)) exLinkSelf).map fun c =>
    (sizes c, (step (Graph.progN ()) c (.tau 0)).map sizes)) = some ((0, 0), some (1, 0)) := by decide +kernel

example : ((exec (Graph.progN ()) (.init (Graph.exInit true)) (exLinkSelf ++ taus 0 3 ++ [.ret 0] ++
    [.call 0 (.link ⟨7, "e"⟩ 3 (some ⟨4, "a"⟩) (some ⟨5, "a"⟩) [])] ++ taus 0 14 ++ [.ret 0])).map fun c =>
      (sizes c, c.hist.filterMap panickedG)) = some ((1, 1), [(0, false), (1, true)]) := by decide +kernel

end Netscrape.Props
