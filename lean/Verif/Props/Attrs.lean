import Verif.Lemmas.Attrs

/-!
# C01–C03: attribute sets
-/

namespace Netscrape.Props
open Netscrape Attrs

/-- **C01.** A fresh attribute set, then any history `ws` of `Set` calls (on it and on any other
attribute set): `Get` returns the last value set for the key, or `""`, and `Keys`, in whatever
order the runtime iterates, lists exactly the keys that were set, each once. -/
theorem c01_attrs_map (h : Heap) (ws : List Write) (o : Order (String × String)) :
    let a := (new h).1
    let h' := run (new h).2 ws
    let hist := ws.map fun w => (w.ref, w.key, w.val)
    (∀ k, get h' a k = (Spec.lastSet hist a k).getD "") ∧
    (keys h' o a).Nodup ∧
    (∀ k, k ∈ keys h' o a ↔ ∃ w ∈ ws, w.ref = a ∧ w.key = k) := by
  intro a h' hist
  have hv : (new h).2.Valid a := Heap.valid_alloc_new _ _
  have hread : ∀ k, (h'.read a).get? k = Spec.lastSet hist a k := by
    intro k
    have := get?_run (new h).2 ws a k hv
    rw [show ((new h).2.read a) = GoMap.empty from Heap.read_alloc_new _ _] at this
    simpa using this
  refine ⟨fun k => by simp [Attrs.get, hread], keys_nodup _ _ _, fun k => ?_⟩
  rw [mem_keys]
  simp only [hread]
  have key : ∀ l : List Write,
      (∃ v, Spec.lastSet (l.map fun w => (w.ref, w.key, w.val)) a k = some v) ↔
        ∃ w ∈ l, w.ref = a ∧ w.key = k := by
    intro l
    induction l with
    | nil => simp [Spec.lastSet]
    | cons w l ih =>
      simp only [List.map_cons, Spec.lastSet, List.mem_cons, exists_eq_or_imp]
      rw [← ih]
      cases Spec.lastSet (l.map fun w => (w.ref, w.key, w.val)) a k with
      | some v => simp
      | none => by_cases hc : w.ref = a ∧ w.key = k <;> simp [hc]
  exact key ws

/-- Non-vacuity of C01: a history with an overwrite and a write to another object. -/
example : let h := (new Heap.empty).2
    let a := (new h).1
    let h' := run (new h).2 [⟨a, "x", "1"⟩, ⟨0, "x", "9"⟩, ⟨a, "y", "2"⟩, ⟨a, "x", "3"⟩]
    get h' a "x" = "3" ∧ get h' a "y" = "2" ∧ get h' a "z" = "" ∧ get h' 0 "x" = "9" := by
  decide

/-- **C02** (copies). `NewCopyFrom a` allocates a new attribute set `c`, distinct from every
existing one, that reads exactly like `a`, and changes no existing one; afterwards no history of
writes that avoids `c` changes `c`, and no history of writes that avoids an attribute set `r`
(such as the source `a`) changes `r`: in particular writes to `c` are never seen through `a`. -/
theorem c02_copy_independent (h : Heap) (o : Order (String × String)) (a : Ref) :
    let c := (newCopyFrom h o a).1
    let h' := (newCopyFrom h o a).2
    (∀ r, h.Valid r → r ≠ c) ∧ h'.Valid c ∧
    (∀ k, get h' c k = get h a k) ∧
    (∀ o1 o2 k, k ∈ keys h' o1 c ↔ k ∈ keys h o2 a) ∧
    (∀ r, h.Valid r → h'.read r = h.read r) ∧
    (∀ ws : List Write, (∀ w ∈ ws, w.ref ≠ c) → ∀ k, get (run h' ws) c k = get h a k) ∧
    (∀ (ws : List Write) (r : Ref), h.Valid r → (∀ w ∈ ws, w.ref ≠ r) →
      (run h' ws).read r = h.read r) := by
  intro c h'
  have hc : h'.read c = copyLoop h o a := Heap.read_alloc_new _ _
  have hold : ∀ r, h.Valid r → h'.read r = h.read r := fun r hr => Heap.read_alloc_old _ _ _ hr
  refine ⟨?_, Heap.valid_alloc_new _ _, ?_, ?_, hold, ?_, ?_⟩
  · rintro r hr rfl; exact Heap.alloc_fresh _ _ hr
  · intro k; simp [Attrs.get, hc, get?_copyLoop]
  · intro o1 o2 k; simp [mem_keys, hc, get?_copyLoop]
  · intro ws hws k
    simp [Attrs.get, read_run_ne h' ws c hws, hc, get?_copyLoop]
  · intro ws r hr hws
    rw [read_run_ne h' ws r hws, hold r hr]

/-- **C02** (from a map). `NewFromMap m` allocates a new attribute set with `m`'s contents, with the
same independence. (Go copies the map entry by entry, so `m` itself is never shared.) -/
theorem c02_fromMap_independent (h : Heap) (o : Order (String × String))
    (m : GoMap String String) :
    let c := (newFromMap h o m).1
    let h' := (newFromMap h o m).2
    (∀ r, h.Valid r → r ≠ c) ∧ h'.Valid c ∧
    (∀ k, (h'.read c).get? k = m.get? k) ∧
    (∀ r, h.Valid r → h'.read r = h.read r) ∧
    (∀ ws : List Write, (∀ w ∈ ws, w.ref ≠ c) → ∀ k, ((run h' ws).read c).get? k = m.get? k) ∧
    (∀ (ws : List Write) (r : Ref), h.Valid r → (∀ w ∈ ws, w.ref ≠ r) →
      (run h' ws).read r = h.read r) := by
  intro c h'
  have hc : ∀ k, (h'.read c).get? k = m.get? k := by
    intro k
    rw [show h'.read c = _ from Heap.read_alloc_new _ _]
    exact get?_foldl_set_perm m _ (o.perm _) k
  have hold : ∀ r, h.Valid r → h'.read r = h.read r := fun r hr => Heap.read_alloc_old _ _ _ hr
  refine ⟨?_, Heap.valid_alloc_new _ _, hc, hold, ?_, ?_⟩
  · rintro r hr rfl; exact Heap.alloc_fresh _ _ hr
  · intro ws hws k
    rw [read_run_ne h' ws c hws, hc]
  · intro ws r hr hws
    rw [read_run_ne h' ws r hws, hold r hr]

/-- Non-vacuity of C02: the copy of a two-entry set keeps its values while the source is changed. -/
example : let h0 := (new Heap.empty).2
    let h := run h0 [⟨0, "x", "1"⟩, ⟨0, "y", "2"⟩]
    let c := (newCopyFrom h Order.rev 0).1
    let h' := run (newCopyFrom h Order.rev 0).2 [⟨0, "x", "changed"⟩]
    h.Valid 0 ∧ c = 1 ∧ get h' c "x" = "1" ∧ get h' c "y" = "2" ∧ get h' 0 "x" = "changed" := by
  decide

/-- **C03** (round trip). `ToMap (NewFromMap m)` has exactly `m`'s entries: the same lookups, hence
the same entries up to order. -/
theorem c03_toMap_fromMap (h : Heap) (o1 o2 : Order (String × String))
    (m : GoMap String String) :
    let a := (newFromMap h o1 m).1
    let h' := (newFromMap h o1 m).2
    (∀ k, (toMap h' o2 a).get? k = m.get? k) ∧ (toMap h' o2 a).entries.Perm m.entries := by
  intro a h'
  have : ∀ k, (toMap h' o2 a).get? k = m.get? k := fun k => by
    rw [toMap, get?_copyLoop]
    exact (c02_fromMap_independent h o1 m).2.2.1 k
  exact ⟨this, GoMap.entries_perm_of_get? this⟩

/-- **C03** (DOT attributes). The attribute list has one pair per key, in some order, each with the
value `Get` returns. -/
theorem c03_dotAttrs (h : Heap) (o : Order (String × String)) (a : Ref) :
    ((dotAttrs h o a).map Prod.fst).Nodup ∧
    (∀ k v, (k, v) ∈ dotAttrs h o a ↔ (h.read a).get? k = some v) ∧
    (∀ k v, (k, v) ∈ dotAttrs h o a → get h a k = v) := by
  have hm : (dotAttrs h o a).map Prod.fst = keys h o a := by
    simp [dotAttrs, Function.comp_def]
  have h2 : ∀ k v, (k, v) ∈ dotAttrs h o a ↔ (h.read a).get? k = some v := by
    intro k v
    simp only [dotAttrs, List.mem_map, Prod.mk.injEq, mem_keys]
    constructor
    · rintro ⟨k', ⟨w, hw⟩, rfl, rfl⟩
      simp [Attrs.get, hw]
    · intro hv
      exact ⟨k, ⟨v, hv⟩, rfl, by simp [Attrs.get, hv]⟩
  refine ⟨hm ▸ keys_nodup _ _ _, h2, ?_⟩
  intro k v hkv
  simp [Attrs.get, (h2 k v).mp hkv]

/-- Non-vacuity of C03. -/
example : let m : GoMap String String := (GoMap.empty.set "a" "1").set "b" "2"
    dotAttrs (newFromMap Heap.empty Order.rev m).2 Order.id 0 = [("b", "2"), ("a", "1")] ∨
    dotAttrs (newFromMap Heap.empty Order.rev m).2 Order.id 0 = [("a", "1"), ("b", "2")] := by
  decide

end Netscrape.Props
