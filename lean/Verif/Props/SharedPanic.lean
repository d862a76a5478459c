import Verif.Props.StoreShared
import Verif.Props.HandlePanic
import Verif.Lemmas.SharedIds

/-!
# C95: IDs and panics, when one of the stores does the adding and deleting
-/

namespace Netscrape.Props
open Netscrape.Conc Netscrape.Spec.Handle Netscrape.Spec.Shared

/-- **C95, what holds**: if one of the stores does all the adding and deleting, whatever else is called on the stores
and on the graph meanwhile, then only calls that take a new ID can panic (linking an entity to itself aside, and
`SubGraph`, see `c92_subGraph_violated`). -/
theorem c95_panic_partial {w : Nat} {d : Bool} {s : Graph.St} {c : SCfg} (h0 : Spec.Store.Start d s)
    (hr : Reach Store.Shared.prog (fun x => NodesBy w x ∧ ¬ SelfLink x.2) s c) {i t : Nat} {out : Store.Handle.Out}
    (hin : Ev.res i t out ∈ c.hist) (hop : ∀ x, Ev.inv i t x ∈ c.hist → ¬ Takes x.2) : ¬ Panics out := by
  obtain ⟨G, h⟩ := Store.Shared.shared_ids h0 hr
  obtain ⟨op, h1, h2⟩ := h.hist i t out hin
  exact fun hp => hop op h1 (h2 hp).1

/-- **C95, what holds**: and those do not either, unless the graph has used the largest ID there is. -/
theorem c95_full_partial {w : Nat} {d : Bool} {s : Graph.St} {c : SCfg} (h0 : Spec.Store.Start d s)
    (hr : Reach Store.Shared.prog (fun x => NodesBy w x ∧ ¬ SelfLink x.2) s c) (hfree : (c.mus .graph).wr ≠ .held)
    (hmax : c.data.g.b.ids.max < Gonum.maxID) {i t : Nat} {out : Store.Handle.Out}
    (hin : Ev.res i t out ∈ c.hist) : ¬ Panics out := by
  obtain ⟨G, h⟩ := Store.Shared.shared_ids h0 hr
  obtain ⟨op, _, h2⟩ := h.hist i t out hin
  intro hp
  have := (h2 hp).2
  rw [← h.same hfree] at this
  omega

/-- **C95, what holds**: nor do two entities ever share an ID. -/
theorem c95_ids_partial {w : Nat} {d : Bool} {s : Graph.St} {c : SCfg} (h0 : Spec.Store.Start d s)
    (hr : Reach Store.Shared.prog (fun x => NodesBy w x ∧ ¬ SelfLink x.2) s c) (hfree : (c.mus .graph).wr ≠ .held)
    {u v : String} {n m : Graph.Node} (hu : c.data.g.nodes.get? u = some n) (hv : c.data.g.nodes.get? v = some m)
    (hid : n.id = m.id) : u = v := by
  obtain ⟨G, h⟩ := Store.Shared.shared_ids h0 hr
  have e : c.data.g = G := h.same hfree
  rw [e] at hu hv
  exact h.inv.apart _ _ _ _ hu hv hid

/-- Store 0 adds `a`, `b` and `c`, the last one while store 1 links `a` and `b`. Store 2 is in the middle of unlinking
them. -/
def exThreeRun : List (Act Store.Shared.Op) :=
  [.call 0 (0, .inl (.add Order.id (exE 1 "a" "x") []))] ++ taus 0 18 ++ [.ret 0,
    .call 0 (0, .inl (.add Order.id (exE 5 "b" "x") []))] ++ taus 0 18 ++ [.ret 0,
    .call 0 (0, .inl (.add Order.id (exE 7 "c" "x") []))] ++ taus 0 11 ++ [
    .call 1 (1, .inl (.link ⟨10, "e"⟩ 11 ⟨2, "a"⟩ ⟨6, "b"⟩ []))] ++ taus 1 17 ++ [.ret 1] ++ taus 0 7 ++ [.ret 0,
    .call 2 (2, .inl (.unlink ⟨2, "a"⟩ ⟨6, "b"⟩))] ++ taus 2 5

/-- Non-vacuity: entities with different IDs, a link that did not panic, IDs left, and `Unlink` in the middle. -/
example : (exec Store.Shared.prog (.init exStore) exThreeRun).map (fun c =>
      ((outOf 3 c.hist).map panicked, ["a", "b", "c"].map fun k => (c.data.g.nodes.get? k).map (·.id),
        (c.mus .graph).wr, decide (c.data.g.b.ids.max < Gonum.maxID), (c.calls 2).isSome)) =
    some (some false, [some 0, some 1, some 2], .free, true, true) := by decide +kernel

example : ∀ a ∈ exThreeRun, ∀ t op, a = .call t op → NodesBy 0 op ∧ ¬ SelfLink op.2 := by
  refine callsOf_ok ?_
  have e : callsOf exThreeRun =
      [(0, .inl (.add Order.id (exE 1 "a" "x") [])), (0, .inl (.add Order.id (exE 5 "b" "x") [])),
       (0, .inl (.add Order.id (exE 7 "c" "x") [])), (1, .inl (.link ⟨10, "e"⟩ 11 ⟨2, "a"⟩ ⟨6, "b"⟩ [])),
       (2, .inl (.unlink ⟨2, "a"⟩ ⟨6, "b"⟩))] := rfl
  rw [e]
  have h : ∀ {a b : String}, a ≠ b → ¬ a = b := id
  simp only [List.forall_mem_cons]
  exact ⟨⟨fun _ => rfl, id⟩, ⟨fun _ => rfl, id⟩, ⟨fun _ => rfl, id⟩, ⟨False.elim, h (by decide)⟩, ⟨False.elim, id⟩,
    fun _ h => by cases h⟩

end Netscrape.Props
