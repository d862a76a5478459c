import Verif.Props.StoreHandle
import Verif.Lemmas.HandleIds

/-!
# C92: IDs and panics, while a store and its graph are used
-/

namespace Netscrape.Props
open Netscrape.Conc Netscrape.Spec.Handle

/-- The history of `c92_remove_violated`: `RemoveNode` of the graph has looked up `a` when the store deletes it and
gives its ID to `b`; then it removes that ID, which is given to `c` next. -/
def exRemoveRun : List (Act Store.Handle.Op) :=
  [.call 0 (.inl (.add Order.id (exE 1 "a" "x") []))] ++ taus 0 18 ++ [.ret 0,
    .call 1 (.inr (.removeNode ⟨3, "a"⟩))] ++ taus 1 3 ++ [
    .call 0 (.inl (.delete ⟨3, "a"⟩))] ++ taus 0 11 ++ [.ret 0,
    .call 0 (.inl (.add Order.id (exE 5 "b" "x") []))] ++ taus 0 18 ++ [.ret 0] ++ taus 1 5 ++ [.ret 1,
    .call 0 (.inl (.add Order.id (exE 7 "c" "x") []))] ++ taus 0 18 ++ [.ret 0,
    .call 0 (.inl (.link ⟨10, "e"⟩ 11 ⟨6, "b"⟩ ⟨8, "c"⟩ []))] ++ taus 0 17 ++ [.ret 0]

/-- **C92 is violated** even if nobody adds nodes to the graph: `RemoveNode` of the graph, overtaken by calls on the
store, removes the ID of another entity. When it is used again, `Link` panics. -/
theorem c92_remove_violated : ¬ ∀ (d : Bool) (s : Graph.St) (c : HCfg), Spec.Store.Start d s →
    Reach Store.Handle.prog (fun op => NoDot op ∧ ¬ SelfLink op ∧ ∀ n opts, op ≠ .inr (.addNode n opts)) s c →
    c.hist.length < 2 ^ 62 → ∀ i t, Ev.res i t (.inl (.unit .panic)) ∉ c.hist := by
  intro hst
  have hrun : (exec Store.Handle.prog (.init exStore) exRemoveRun).map (fun c =>
        (decide (c.hist.length < 2 ^ 62), decide (outOf 5 (lefts c.hist) = some (Store.COut.unit .panic)))) =
      some (true, true) := by decide +kernel
  obtain ⟨c, hc, he⟩ := Option.map_eq_some_iff.mp hrun
  simp only [Prod.mk.injEq, decide_eq_true_eq] at he
  obtain ⟨hlen, hout⟩ := he
  obtain ⟨t, ht⟩ := outOf_mem hout
  obtain ⟨e, hm, he⟩ := List.mem_filterMap.mp ht
  have hin : Ev.res 5 t (Sum.inl (Store.COut.unit .panic)) ∈ c.hist := by
    split at he <;> cases he
    exact hm
  refine hst false exStore c (.default _ _) (reach_exec _ .init ?_ hc) hlen 5 t hin
  intro a ha t op e
  subst e
  simp [taus, exRemoveRun] at ha
  rcases ha with ⟨-, rfl⟩ | ⟨-, rfl⟩ | ⟨-, rfl⟩ | ⟨-, rfl⟩ | ⟨-, rfl⟩ | ⟨-, rfl⟩ <;>
    exact ⟨trivial, by simp [SelfLink], fun n opts h => by cases h⟩

/-- The history of `c92_subGraph_violated`: two calls of `Link` on the graph have looked up `a` when the store deletes
it, gives its ID to `c` and adds `a` again. The first puts the old `a` back under the ID, the store links `c` to the
new `a`, the second puts the old `a` back once more: now gonum's graph has an edge between the old `a` and the new. -/
def exStaleRun : List (Act Store.Handle.Op) :=
  [.call 0 (.inl (.add Order.id (exE 1 "a" "x") []))] ++ taus 0 18 ++ [.ret 0,
    .call 0 (.inl (.add Order.id (exE 5 "b" "x") []))] ++ taus 0 18 ++ [.ret 0,
    .call 1 (.inr (.link ⟨10, "e"⟩ 11 ⟨2, "a"⟩ ⟨6, "b"⟩ []))] ++ taus 1 9 ++ [
    .call 2 (.inr (.link ⟨12, "e"⟩ 13 ⟨2, "a"⟩ ⟨6, "b"⟩ []))] ++ taus 2 9 ++ [
    .call 0 (.inl (.delete ⟨2, "a"⟩))] ++ taus 0 11 ++ [.ret 0,
    .call 0 (.inl (.add Order.id (exE 7 "c" "x") []))] ++ taus 0 18 ++ [.ret 0,
    .call 0 (.inl (.add Order.id (exE 1 "a" "x") []))] ++ taus 0 18 ++ [.ret 0] ++ taus 1 5 ++ [.ret 1,
    .call 0 (.inl (.link ⟨14, "e"⟩ 15 ⟨8, "c"⟩ ⟨2, "a"⟩ []))] ++ taus 0 17 ++ [.ret 0] ++ taus 2 5 ++ [.ret 2,
    .call 0 (.inr (.subGraph exOra ⟨2, "a"⟩ 3 []))] ++ taus 0 14 ++ [.ret 0]

/-- The result of call `i` is a panic of `SubGraph`. -/
def subPanics (i : Nat) (l : List (Ev Graph.COp Graph.COut)) : Bool :=
  l.any fun e => match e with
    | .res j _ (.graph .panic) => j == i
    | _ => false

theorem subPanics_mem {i : Nat} {l : List (Ev Store.Handle.Op Store.Handle.Out)} (h : subPanics i (rights l) = true) :
    ∃ t, Ev.res i t (Sum.inr (Graph.COut.graph .panic)) ∈ l := by
  obtain ⟨e, hm, he⟩ := List.any_eq_true.mp h
  obtain ⟨e', hm', he'⟩ := List.mem_filterMap.mp hm
  split at he' <;> cases he'
  · cases he
  · split at he
    · next heq => cases heq; rw [beq_iff_eq] at he; subst he; exact ⟨_, hm'⟩
    · cases he

/-- The calls of a run. -/
def callsOf {Op : Type} (run : List (Act Op)) : List Op :=
  run.filterMap fun a => match a with
    | .call _ op => some op
    | _ => none

theorem callsOf_ok {Op : Type} {run : List (Act Op)} {P : Op → Prop} (h : ∀ op ∈ callsOf run, P op) :
    ∀ a ∈ run, ∀ t op, a = .call t op → P op := by
  rintro a ha t op rfl
  exact h op (List.mem_filterMap.mpr ⟨_, ha, rfl⟩)

theorem exStaleRun_ok : ∀ a ∈ exStaleRun, ∀ t op, a = .call t op → NodesByStore op ∧ ¬ SelfLink op := by
  refine callsOf_ok ?_
  have e : callsOf exStaleRun =
      [.inl (.add Order.id (exE 1 "a" "x") []), .inl (.add Order.id (exE 5 "b" "x") []),
       .inr (.link ⟨10, "e"⟩ 11 ⟨2, "a"⟩ ⟨6, "b"⟩ []), .inr (.link ⟨12, "e"⟩ 13 ⟨2, "a"⟩ ⟨6, "b"⟩ []),
       .inl (.delete ⟨2, "a"⟩), .inl (.add Order.id (exE 7 "c" "x") []), .inl (.add Order.id (exE 1 "a" "x") []),
       .inl (.link ⟨14, "e"⟩ 15 ⟨8, "c"⟩ ⟨2, "a"⟩ []), .inr (.subGraph exOra ⟨2, "a"⟩ 3 [])] := rfl
  rw [e]
  have h : ∀ {a b : String}, a ≠ b → ¬ a = b := id
  simp only [List.forall_mem_cons]
  exact ⟨⟨trivial, id⟩, ⟨trivial, id⟩, ⟨trivial, h (by decide)⟩, ⟨trivial, h (by decide)⟩, ⟨trivial, id⟩, ⟨trivial, id⟩,
    ⟨trivial, id⟩, ⟨trivial, h (by decide)⟩, ⟨trivial, id⟩, fun _ h => by cases h⟩

/-- **C92 is violated** by `SubGraph`, even if nodes are added and removed through the store alone: `Link` of the
graph, overtaken by calls on the store, puts back nodes that the store has deleted. In the end the graph has an edge
between two nodes with one UID, and `SubGraph` panics. -/
theorem c92_subGraph_violated : ¬ ∀ (d : Bool) (s : Graph.St) (c : HCfg), Spec.Store.Start d s →
    Reach Store.Handle.prog (fun op => NodesByStore op ∧ ¬ SelfLink op) s c →
    c.hist.length < 2 ^ 62 → ∀ i t, Ev.res i t (.inr (.graph .panic)) ∉ c.hist := by
  intro hst
  have hrun : (exec Store.Handle.prog (.init exStore) exStaleRun).map (fun c =>
        (decide (c.hist.length < 2 ^ 62), subPanics 8 (rights c.hist))) =
      some (true, true) := by decide +kernel
  obtain ⟨c, hc, he⟩ := Option.map_eq_some_iff.mp hrun
  simp only [Prod.mk.injEq, decide_eq_true_eq] at he
  obtain ⟨hlen, hout⟩ := he
  obtain ⟨t, ht⟩ := subPanics_mem hout
  refine hst false exStore c (.default _ _) (reach_exec _ .init exStaleRun_ok hc) hlen 8 t ht

/-- **C92, what holds**: if nodes are added and removed through the store alone, whatever else is called on the
graph meanwhile, then only calls that take a new ID can panic (linking an entity to itself aside). -/
theorem c92_panic_partial {d : Bool} {s : Graph.St} {c : HCfg} (h0 : Spec.Store.Start d s)
    (hr : Reach Store.Handle.prog (fun op => NodesByStore op ∧ ¬ SelfLink op) s c) {i t : Nat} {out : Store.Handle.Out}
    (hin : Ev.res i t out ∈ c.hist) (hop : ∀ op, Ev.inv i t op ∈ c.hist → ¬ Takes op) : ¬ Panics out := by
  obtain ⟨G, h⟩ := Store.handle_ids h0 hr
  obtain ⟨op, h1, h2⟩ := h.hist i t out hin
  exact fun hp => hop op h1 (h2 hp).1

/-- **C92, what holds**: and those do not either, unless the graph has used the largest ID there is. -/
theorem c92_full_partial {d : Bool} {s : Graph.St} {c : HCfg} (h0 : Spec.Store.Start d s)
    (hr : Reach Store.Handle.prog (fun op => NodesByStore op ∧ ¬ SelfLink op) s c) (hfree : (c.mus .graph).wr ≠ .held)
    (hmax : c.data.g.b.ids.max < Gonum.maxID) {i t : Nat} {out : Store.Handle.Out}
    (hin : Ev.res i t out ∈ c.hist) : ¬ Panics out := by
  obtain ⟨G, h⟩ := Store.handle_ids h0 hr
  obtain ⟨op, _, h2⟩ := h.hist i t out hin
  intro hp
  have := (h2 hp).2
  rw [← h.same hfree] at this
  omega

/-- **C92, what holds**: nor do two entities ever share an ID. -/
theorem c92_ids_partial {d : Bool} {s : Graph.St} {c : HCfg} (h0 : Spec.Store.Start d s)
    (hr : Reach Store.Handle.prog (fun op => NodesByStore op ∧ ¬ SelfLink op) s c) (hfree : (c.mus .graph).wr ≠ .held)
    {u v : String} {n m : Graph.Node} (hu : c.data.g.nodes.get? u = some n) (hv : c.data.g.nodes.get? v = some m)
    (hid : n.id = m.id) : u = v := by
  obtain ⟨G, h⟩ := Store.handle_ids h0 hr
  have e : c.data.g = G := h.same hfree
  rw [e] at hu hv
  exact h.inv.apart _ _ _ _ hu hv hid

/-- A run with `NewNode` and `Unlink` of the graph in between calls on the store. -/
def exMixedRun : List (Act Store.Handle.Op) :=
  [.call 0 (.inl (.add Order.id (exE 1 "a" "x") []))] ++ taus 0 11 ++ [
    .call 1 (.inr (.newNode Order.id (exE 9 "z" "t") []))] ++ taus 1 4 ++ taus 0 7 ++ [.ret 0] ++ taus 1 5 ++ [.ret 1,
    .call 0 (.inl (.add Order.id (exE 5 "b" "x") []))] ++ taus 0 18 ++ [.ret 0,
    .call 0 (.inl (.link ⟨10, "e"⟩ 11 ⟨2, "a"⟩ ⟨6, "b"⟩ []))] ++ taus 0 17 ++ [.ret 0,
    .call 1 (.inr (.unlink ⟨2, "a"⟩ ⟨6, "b"⟩))] ++ taus 1 3

/-- Non-vacuity: entities with different IDs, a link that did not panic, IDs left, and `Unlink` in the middle. -/
example : (exec Store.Handle.prog (.init exStore) exMixedRun).map (fun c =>
      (decide (outOf 3 (lefts c.hist) = some (Store.COut.unit (.ok ()))), (c.data.g.nodes.get? "a").map (·.id),
        (c.data.g.nodes.get? "b").map (·.id), (c.mus .graph).wr, decide (c.data.g.b.ids.max < Gonum.maxID),
        (c.calls 1).isSome)) =
    some (true, some 0, some 1, .free, true, true) := by decide +kernel

example : ∀ a ∈ exMixedRun, ∀ t op, a = .call t op → NodesByStore op ∧ ¬ SelfLink op := by
  intro a ha t op e
  subst e
  simp [taus, exMixedRun] at ha
  rcases ha with ⟨-, rfl⟩ | ⟨-, rfl⟩ | ⟨-, rfl⟩ | ⟨-, rfl⟩ | ⟨-, rfl⟩ <;> exact ⟨trivial, by simp [SelfLink]⟩

end Netscrape.Props
