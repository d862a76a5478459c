import Verif.Lemmas.DotIdsAbsent
import Verif.Lemmas.Progress
import Verif.Props.GraphPtr

/-!
# C107: DOTIDs set while a graph is in use
-/

namespace Netscrape.Props
open Netscrape Netscrape.Conc Netscrape.GraphPtr Netscrape.Spec Netscrape.Spec.DotIds

/-- **C107**: the methods of a graph do not race with `SetDOTID` of its nodes and edges. -/
def SetDOTIDStatement : Prop :=
  ∀ (s : St) (c : DotIds.DCfg) (l : DotIds.Loc), Conc.Reach DotIds.prog (fun _ => True) s c → ∀ t t' k k' w, t ≠ t' →
    c.calls t = some k → c.calls t' = some k' → access k = some (l, true) → access k' = some (l, w) →
    Sets k.op l → Sets k'.op l ∨ Gets k'.op l

/-- **C107 is violated**: `RemoveNode` calls `ID` of the node, which copies the node with its DOTID, while `SetDOTID`
writes it. -/
theorem c107_violated : ¬ SetDOTIDStatement := by
  intro hst
  have hrun : (exec DotIds.prog (.init (run (ptrInit true) ptrOps))
      [.call 0 (.removeNode ⟨1, "a"⟩), .tau 0, .tau 0, .tau 0, .tau 0, .tau 0, .call 1 (.setNodeDOT 0 "x")]).map (fun c =>
        ((c.calls 0).map access, (c.calls 1).map access)) =
      some (some (some (.node 0, false)), some (some (.node 0, true))) := by decide +kernel
  have hops : ∀ c, exec DotIds.prog (.init (run (ptrInit true) ptrOps))
      [.call 0 (.removeNode ⟨1, "a"⟩), .tau 0, .tau 0, .tau 0, .tau 0, .tau 0, .call 1 (.setNodeDOT 0 "x")] = some c →
      (c.calls 0).map Call.op = some (.removeNode ⟨1, "a"⟩) ∧ (c.calls 1).map Call.op = some (.setNodeDOT 0 "x") := by
    intro c hc
    cases hc
    exact ⟨rfl, rfl⟩
  obtain ⟨c, hc, he⟩ := Option.map_eq_some_iff.mp hrun
  obtain ⟨ho0, ho1⟩ := hops c hc
  simp only [Prod.mk.injEq] at he
  obtain ⟨k0, hk0, ha0⟩ := Option.map_eq_some_iff.mp he.1
  obtain ⟨k1, hk1, ha1⟩ := Option.map_eq_some_iff.mp he.2
  rw [hk0] at ho0
  rw [hk1] at ho1
  simp only [Option.map_some, Option.some.injEq] at ho0 ho1
  have := hst _ c (.node 0) (reach_exec _ .init (fun _ _ _ _ _ => trivial) hc) 1 0 k1 k0 false (by decide) hk1 hk0 ha1 ha0
    (by rw [ho1]; rfl)
  rw [ho0] at this
  rcases this with h | h <;> exact h

/-- **C107, what holds**: every race is on the DOTID of a node or an edge, its writer is the `SetDOTID` of that very
object, and the call on the other side is not `Node`, `Nodes` or `NewNode`. The maps of the graph are never raced on. -/
theorem c107_races_partial {s : St} {c : DotIds.DCfg} (hr : Conc.Reach DotIds.prog (fun _ => True) s c) {l : DotIds.Loc}
    (hl : l ≠ .alloc) {t t' : Nat} {k k' : Call Unit DotIds.Loc St DotIds.Op DotIds.Out} {w : Bool} (hne : t ≠ t')
    (hk : c.calls t = some k) (hk' : c.calls t' = some k') (ha : access k = some (l, true))
    (ha' : access k' = some (l, w)) : Sets k.op l ∧ (w = true → Sets k'.op l) ∧ ¬ Harmless k'.op := by
  have hmaps : DotIds.maps l → False := fun hm =>
    no_race (fun op (_ : True) => DotIds.disc_prog op) hr hm ⟨t, t', k, k', w, hne, hk, hk', ha, ha'⟩
  have hkeep := (minds_reach (fun op (_ : True) n => DotIds.keeps_acc op n) trivial hr).2
  obtain ⟨-, n, -, h1⟩ := hkeep t k hk
  obtain ⟨-, n', -, h2⟩ := hkeep t' k' hk'
  have main : ∀ p, l = .node p ∨ l = .edge p → Sets k.op l ∧ (w = true → Sets k'.op l) ∧ ¬ Harmless k'.op := fun p hp =>
    ⟨(h1.access ha p hp).1 rfl, (h2.access ha' p hp).1, (h2.access ha' p hp).2⟩
  cases l with
  | nodes => exact absurd (.inl rfl) hmaps
  | builder => exact absurd (.inr rfl) hmaps
  | alloc => exact absurd rfl hl
  | node p => exact main p (.inl rfl)
  | edge p => exact main p (.inr rfl)

/-- Non-vacuity: `Edge` on an undirected graph is about to copy the DOTID of the edge for its reverse while `SetDOTID`
of the edge is about to write it. -/
example : (exec DotIds.prog (.init (run (ptrInit false) ptrOps))
    [.call 0 (.edge ⟨2, "b"⟩ ⟨1, "a"⟩), .tau 0, .tau 0, .tau 0, .tau 0, .tau 0, .tau 0, .tau 0,
     .call 1 (.setEdgeDOT 0 "x")]).map (fun c => ((c.calls 0).map access, (c.calls 1).map access)) =
    some (some (some (.edge 0, false)), some (some (.edge 0, true))) := by decide +kernel

/-- **C107, what holds**: while no DOTID is set there are no races at all. -/
theorem c107_no_race_partial {s : St} {c : DotIds.DCfg}
    (hr : Conc.Reach DotIds.prog (fun op => ∀ l, ¬ Sets op l) s c) {l : DotIds.Loc} (hl : l ≠ .alloc) : ¬ Race c l := by
  rintro ⟨t, t', k, k', w, hne, hk, hk', ha, ha'⟩
  have hal := ((minds_reach (P := DotIds.acc) (allowed := fun op => ∀ l, ¬ Sets op l)
    (fun op _ n => DotIds.keeps_acc op n) trivial hr).2 t k hk).1
  have hr' : Conc.Reach DotIds.prog (fun _ => True) s c := by
    clear hk hk' ha ha' hal
    induction hr with
    | init => exact .init
    | step c c' a _ _ hst ih => exact .step c c' a ih (fun _ _ _ => trivial) hst
  exact hal l (c107_races_partial hr' hl hne hk hk' ha ha').1

/-- Non-vacuity: `Edge` and `From` are about to ask the same node for its ID. -/
example : (exec DotIds.prog (.init (run (ptrInit true) ptrOps))
    [.call 0 (.edge ⟨1, "a"⟩ ⟨2, "b"⟩), .tau 0, .tau 0, .tau 0, .call 1 (.from' Order.id ⟨1, "a"⟩), .tau 1, .tau 1]).map
      (fun c => ((c.calls 0).map access, (c.calls 1).map access)) =
    some (some (some (.node 0, false)), some (some (.node 0, false))) := by decide +kernel

/-- **C107, what holds**: as long as nobody adds node `p` to a graph that does not have it, only `SetDOTID` and `DOTID`
of `p` itself access its DOTID. So it is safe to set it before the node is added, whatever others do to the graph. -/
theorem c107_new_partial {s : St} {p : NPtr} (hs : Absent p s) {c : DotIds.DCfg}
    (hr : Conc.Reach DotIds.prog (NotAdding p) s c) {t : Nat} {k : Call Unit DotIds.Loc St DotIds.Op DotIds.Out} {w : Bool}
    (hk : c.calls t = some k) (ha : access k = some (.node p, w)) : Sets k.op (.node p) ∨ Gets k.op (.node p) := by
  obtain ⟨-, n, -, h⟩ := (minds_reach (fun op ho n => DotIds.keeps_absent op ho n) hs hr).2 t k hk
  exact h.access ha rfl

/-- Node 2 is not in the graph of the examples. -/
theorem absent_two (d : Bool) : Absent 2 (run (ptrInit d) ptrOps) := by
  have named : ∀ e ∈ (run (ptrInit d) ptrOps).g.nodes.entries, e.2 ≠ 2 := by cases d <;> decide +kernel
  have numbered : ∀ e ∈ (run (ptrInit d) ptrOps).g.b.nodes.entries, e.2 ≠ 2 := by cases d <;> decide +kernel
  have ends : ∀ e ∈ (run (ptrInit d) ptrOps).mem.edges, e.src ≠ 2 ∧ e.dst ≠ 2 := by cases d <;> decide +kernel
  refine DotIds.absent_of (fun k h => ?_) (fun i h => ?_) (fun e he => ?_) (wf_reach (ptr_reach d)).ptrs.edges
  · exact named _ ((GoMap.get?_eq_some _ _ _).mp h) rfl
  · exact numbered _ ((GoMap.get?_eq_some _ _ _).mp h) rfl
  · have hm : (run (ptrInit d) ptrOps).mem.edge e = (run (ptrInit d) ptrOps).mem.edges[e]'he := by
      unfold Mem.edge
      exact (List.getElem_eq_getD _).symm
    rw [hm]
    exact ends _ (List.getElem_mem he)

/-- Non-vacuity: the DOTID of node 2 is about to be set while `Link` is about to ask node 1 for its ID. -/
example : Absent 2 (run (ptrInit true) ptrOps) ∧ NotAdding 2 (.setNodeDOT 2 "x") ∧
    NotAdding 2 (.link ⟨8, "f"⟩ 0 ⟨2, "b"⟩ ⟨1, "a"⟩ []) ∧
    (exec DotIds.prog (.init (run (ptrInit true) ptrOps))
      [.call 0 (.link ⟨8, "f"⟩ 0 ⟨2, "b"⟩ ⟨1, "a"⟩ []), .tau 0, .tau 0, .tau 0, .tau 0, .call 1 (.setNodeDOT 2 "x")]).map
        (fun c => ((c.calls 0).map access, (c.calls 1).map access)) =
      some (some (some (.node 1, false)), some (some (.node 2, true))) :=
  ⟨absent_two true, trivial, trivial, by decide +kernel⟩

/-- **C107**: made alone, the calls do what the model of C83 to C85 says, so those claims hold for them. -/
theorem c107_alone_partial {op : DotIds.Op} {op' : GraphPtr.Op} (h : DotIds.seqOp op = some op') (s : St) :
    (DotIds.prog op).eval s = ((GraphPtr.step s op').1, DotIds.seqOut (GraphPtr.step s op').2) := DotIds.eval_prog h s

/-- Non-vacuity: `Edge` makes the reverse of the edge. -/
example : DotIds.seqOp (.edge ⟨2, "b"⟩ ⟨1, "a"⟩) = some (.edge ⟨2, "b"⟩ ⟨1, "a"⟩) ∧
    ((DotIds.prog (.edge ⟨2, "b"⟩ ⟨1, "a"⟩)).eval (run (ptrInit false) ptrOps)).2 = .edge (.ok 1) :=
  ⟨rfl, by decide +kernel⟩

/-- **C107**: likewise the calls that only look something up. -/
theorem c107_lookups_partial (s : St) :
    (∀ u, (DotIds.prog (.node u)).eval s = (s, .node (GraphPtr.node s.g u))) ∧
    (∀ o, (DotIds.prog (.nodes o)).eval s = (s, .nodes (nodesList s.g o))) ∧
    (∀ o, (DotIds.prog (.edges o)).eval s = (s, .edges (edgesList s.mem s.g o))) ∧
    (∀ o u, (DotIds.prog (.from' o u)).eval s = (s, .nodes (fromList s.mem s.g o u))) := by
  refine ⟨fun u => ?_, fun o => rfl, fun o => ?_, fun o u => ?_⟩
  · simp only [DotIds.prog, DotIds.nodeP, Prog.shared, DotIds.eval_bind, Prog.eval, GraphPtr.node]
    cases s.g.nodes.get? u.str <;> rfl
  · simp only [DotIds.prog, DotIds.edgesP, DotIds.eval_bind, Prog.eval, DotIds.eval_ids, edgesList]
  · simp only [DotIds.prog, DotIds.fromP, DotIds.eval_bind, Prog.eval, fromList, DotIds.idOf]
    cases s.g.nodes.get? u.str <;> rfl

/-- Non-vacuity: nothing is empty. -/
example : GraphPtr.node (run (ptrInit false) ptrOps).g ⟨1, "a"⟩ = .ok 0 ∧
    nodesList (run (ptrInit false) ptrOps).g Order.id = [1, 0] ∧
    edgesList (run (ptrInit false) ptrOps).mem (run (ptrInit false) ptrOps).g EdgeOrder.id = [0] ∧
    fromList (run (ptrInit false) ptrOps).mem (run (ptrInit false) ptrOps).g Order.id ⟨2, "b"⟩ = [0] := by decide +kernel

end Netscrape.Props
