import Verif.Model.Attrs
import Verif.Spec.Attrs

namespace Netscrape

/-- Setting the pairs of a duplicate-free list in any order gives the list's lookups. -/
theorem get?_foldl_set {K V : Type} [DecidableEq K] (l : List (K × V)) (m : GoMap K V) (k : K) :
    (l.foldl (fun acc e => acc.set e.1 e.2) m).get? k =
      ((l.reverse.lookup k).or (m.get? k)) := by
  induction l generalizing m with
  | nil => simp
  | cons e l ih =>
    rw [List.foldl_cons, ih, List.reverse_cons, List.lookup_append, GoMap.get?_set]
    obtain ⟨k', v⟩ := e
    by_cases h : k = k'
    · subst h
      cases l.reverse.lookup k <;> simp
    · have hb : (k == k') = false := by simpa using h
      cases l.reverse.lookup k <;> simp [h, List.lookup, hb]

theorem get?_foldl_set_perm {K V : Type} [DecidableEq K] (m : GoMap K V) (l : List (K × V))
    (hl : l.Perm m.entries) (k : K) :
    (l.foldl (fun acc e => acc.set e.1 e.2) (GoMap.empty : GoMap K V)).get? k = m.get? k := by
  rw [get?_foldl_set, GoMap.get?_empty, Option.or_none]
  have hp : l.reverse.Perm m.entries := (List.reverse_perm l).trans hl
  have hnd : (l.reverse.map Prod.fst).Nodup := (hp.map Prod.fst).nodup_iff.mpr m.nodup
  have e1 := GoMap.get?_eq_some (⟨l.reverse, hnd⟩ : GoMap K V) k
  have e2 := GoMap.get?_eq_some m k
  apply Option.ext
  intro v
  rw [e2, ← hp.mem_iff]
  exact e1 v

namespace Attrs

theorem get?_copyLoop (h : Heap) (o : Order (String × String)) (a : Ref) (k : String) :
    (copyLoop h o a).get? k = (h.read a).get? k := by
  have : copyLoop h o a =
      (o.run (h.read a).entries).foldl (fun acc e => acc.set e.1 e.2) GoMap.empty := by
    unfold copyLoop keys
    rw [List.foldl_map]
    have hcongr : ∀ (l : List (String × String)) (init : GoMap String String),
        (∀ e ∈ l, (h.read a).get? e.1 = some e.2) →
        l.foldl (fun acc e => acc.set e.1 (get h a e.1)) init =
          l.foldl (fun acc e => acc.set e.1 e.2) init := by
      intro l
      induction l with
      | nil => intros; rfl
      | cons e l ih =>
        intro init hl
        have he := hl e (by simp)
        simp only [List.foldl_cons]
        rw [ih _ (fun e' he' => hl e' (by simp [he']))]
        simp [get, he]
    exact hcongr _ _ (fun e he => by
      rw [GoMap.get?_eq_some]; simpa using he)
  rw [this]
  exact get?_foldl_set_perm _ _ (o.perm _) k

theorem valid_run (h : Heap) (ws : List Write) (r : Ref) : (run h ws).Valid r ↔ h.Valid r := by
  induction ws generalizing h with
  | nil => rfl
  | cons w ws ih =>
    show (run (set h w.ref w.key w.val) ws).Valid r ↔ _
    rw [ih, set, Heap.valid_write]

/-- Writes to other attribute sets do not change this one. -/
theorem read_run_ne (h : Heap) (ws : List Write) (r : Ref) (hw : ∀ w ∈ ws, w.ref ≠ r) :
    (run h ws).read r = h.read r := by
  induction ws generalizing h with
  | nil => rfl
  | cons w ws ih =>
    show (run (set h w.ref w.key w.val) ws).read r = _
    rw [ih _ (fun w' h' => hw w' (by simp [h'])), set]
    exact Heap.read_write_ne _ _ _ _ (Ne.symm (hw w (by simp)))

theorem get?_run (h : Heap) (ws : List Write) (r : Ref) (k : String) (hr : h.Valid r) :
    ((run h ws).read r).get? k =
      (Spec.lastSet (ws.map fun w => (w.ref, w.key, w.val)) r k).or ((h.read r).get? k) := by
  induction ws generalizing h with
  | nil => simp [run, Spec.lastSet]
  | cons w ws ih =>
    show ((run (set h w.ref w.key w.val) ws).read r).get? k = _
    rw [ih (set h w.ref w.key w.val) ((Heap.valid_write _ _ _ _).mpr hr)]
    simp only [List.map_cons, Spec.lastSet]
    cases Spec.lastSet (ws.map fun w => (w.ref, w.key, w.val)) r k with
    | some v => simp
    | none =>
      simp only [Option.none_or]
      by_cases hwr : w.ref = r
      · subst hwr
        rw [set, Heap.read_write_self _ _ _ hr, GoMap.get?_set]
        by_cases hk : k = w.key
        · simp [hk]
        · simp [hk, Ne.symm hk]
      · rw [set, Heap.read_write_ne _ _ _ _ (Ne.symm hwr)]
        simp [hwr]

theorem mem_keys (h : Heap) (o : Order (String × String)) (a : Ref) (k : String) :
    k ∈ keys h o a ↔ ∃ v, (h.read a).get? k = some v := by
  have : k ∈ keys h o a ↔ k ∈ (h.read a).keys := by
    unfold keys GoMap.keys
    exact ((o.perm _).map Prod.fst).mem_iff
  rw [this, GoMap.mem_keys]

theorem keys_nodup (h : Heap) (o : Order (String × String)) (a : Ref) : (keys h o a).Nodup :=
  ((o.perm _).map Prod.fst).nodup_iff.mpr (h.read a).nodup

end Attrs
end Netscrape
