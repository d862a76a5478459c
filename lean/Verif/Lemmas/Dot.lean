import Verif.Spec.Dot
import Verif.Lemmas.Graph
import Verif.Lemmas.Attrs

/-!
# Lemmas about DOT documents
-/

namespace Netscrape.Graph
open Netscrape.Spec.Graph
open Netscrape.Gonum (Builder Inv)

/-! ## Pointwise -/

theorem pointwise_map {α β γ : Type} {R : β → γ → Prop} {f : α → β} {g : α → γ} :
    ∀ {l : List α}, (∀ x ∈ l, R (f x) (g x)) → Pointwise R (l.map f) (l.map g)
  | [], _ => .nil
  | x :: _, h => .cons (h x List.mem_cons_self) (pointwise_map fun y hy => h y (List.mem_cons_of_mem _ hy))

theorem pointwise_filterMap {α β γ : Type} {R : β → γ → Prop} {f : α → Option β} {g : α → γ} :
    ∀ {l : List α}, (∀ x ∈ l, ∃ y, f x = some y ∧ R y (g x)) → Pointwise R (l.filterMap f) (l.map g)
  | [], _ => .nil
  | x :: l, h => by
    obtain ⟨y, h1, h2⟩ := h x List.mem_cons_self
    rw [List.filterMap_cons_some h1, List.map_cons]
    exact .cons h2 (pointwise_filterMap fun y hy => h y (List.mem_cons_of_mem _ hy))

theorem pointwise_mem_left {α β : Type} {R : α → β → Prop} {l : List α} {l' : List β} (h : Pointwise R l l')
    {x : α} (hx : x ∈ l) : ∃ y ∈ l', R x y := by
  induction h with
  | nil => cases hx
  | cons h1 _ ih =>
    rcases List.mem_cons.mp hx with rfl | h
    · exact ⟨_, List.mem_cons_self, h1⟩
    · obtain ⟨y, h2, h3⟩ := ih h
      exact ⟨y, List.mem_cons_of_mem _ h2, h3⟩

theorem pointwise_mem_right {α β : Type} {R : α → β → Prop} {l : List α} {l' : List β} (h : Pointwise R l l')
    {y : β} (hy : y ∈ l') : ∃ x ∈ l, R x y := by
  induction h with
  | nil => cases hy
  | cons h1 _ ih =>
    rcases List.mem_cons.mp hy with rfl | h
    · exact ⟨_, List.mem_cons_self, h1⟩
    · obtain ⟨y, h2, h3⟩ := ih h
      exact ⟨y, List.mem_cons_of_mem _ h2, h3⟩

theorem pointwise_eq_map {α β γ : Type} {R : α → β → Prop} {l : List α} {l' : List β} {f : α → γ} {g : β → γ}
    (h : Pointwise R l l') (hr : ∀ a b, R a b → g b = f a) : l'.map g = l.map f := by
  induction h with
  | nil => rfl
  | cons h1 _ ih => rw [List.map_cons, List.map_cons, hr _ _ h1, ih]

/-! ## Sorting -/

theorem insertByID_perm (n : Node) : ∀ l, (insertByID n l).Perm (n :: l)
  | [] => .refl _
  | m :: r => by
    unfold insertByID
    split
    · exact .refl _
    · exact ((insertByID_perm n r).cons m).trans (.swap n m r)

theorem sortByID_perm : ∀ l, (sortByID l).Perm l
  | [] => .refl _
  | n :: l => (insertByID_perm n _).trans ((sortByID_perm l).cons n)

theorem insertByID_sorted (n : Node) : ∀ {l : List Node}, l.Pairwise (fun a b => a.id ≤ b.id) →
    (insertByID n l).Pairwise (fun a b => a.id ≤ b.id)
  | [], _ => List.pairwise_singleton _ _
  | m :: r, h => by
    unfold insertByID
    obtain ⟨h1, h2⟩ := List.pairwise_cons.mp h
    split
    case isTrue hc =>
      refine List.pairwise_cons.mpr ⟨fun a ha => ?_, h⟩
      rcases List.mem_cons.mp ha with rfl | ha
      · exact hc
      · exact Int.le_trans hc (h1 a ha)
    case isFalse hc =>
      refine List.pairwise_cons.mpr ⟨fun a ha => ?_, insertByID_sorted n h2⟩
      rcases List.mem_cons.mp ((insertByID_perm n r).mem_iff.mp ha) with rfl | ha
      · omega
      · exact h1 a ha

theorem sortByID_sorted : ∀ l, (sortByID l).Pairwise (fun a b => a.id ≤ b.id)
  | [] => .nil
  | n :: l => insertByID_sorted n (sortByID_sorted l)

theorem mem_sortByID {l : List Node} {n : Node} : n ∈ sortByID l ↔ n ∈ l := (sortByID_perm l).mem_iff

theorem sortByID_strict {l : List Node} (h : (l.map Node.id).Nodup) :
    (sortByID l).Pairwise (fun a b => a.id < b.id) := by
  have h1 : ((sortByID l).map Node.id).Nodup := ((sortByID_perm l).map Node.id).nodup_iff.mpr h
  have h2 := sortByID_sorted l
  rw [List.Nodup, List.pairwise_map] at h1
  exact (h1.and h2).imp fun h => by omega

/-- Strictly sorted lists with the same elements are equal. -/
theorem strict_eq : ∀ {l l' : List Node}, l.Pairwise (fun a b => a.id < b.id) →
    l'.Pairwise (fun a b => a.id < b.id) → (∀ n, n ∈ l ↔ n ∈ l') → l = l'
  | [], [], _, _, _ => rfl
  | [], b :: _, _, _, h => absurd ((h b).mpr List.mem_cons_self) (List.not_mem_nil)
  | a :: _, [], _, _, h => absurd ((h a).mp List.mem_cons_self) (List.not_mem_nil)
  | a :: l, b :: l', h1, h2, h => by
    obtain ⟨h3, h4⟩ := List.pairwise_cons.mp h1
    obtain ⟨h5, h6⟩ := List.pairwise_cons.mp h2
    have hab : a = b := by
      rcases List.mem_cons.mp ((h a).mp List.mem_cons_self) with h7 | h7
      · exact h7
      · rcases List.mem_cons.mp ((h b).mpr List.mem_cons_self) with h8 | h8
        · exact h8.symm
        · have := h5 a h7; have := h3 b h8; omega
    subst hab
    rw [strict_eq h4 h6 fun n => ?_]
    constructor
    · intro hn
      rcases List.mem_cons.mp ((h n).mp (List.mem_cons_of_mem _ hn)) with rfl | h7
      · have := h3 n hn; omega
      · exact h7
    · intro hn
      rcases List.mem_cons.mp ((h n).mpr (List.mem_cons_of_mem _ hn)) with rfl | h7
      · have := h5 n hn; omega
      · exact h7

/-! ## The edge loop -/

theorem mem_unseen {d : Bool} : ∀ {l : List (Node × Node)} {seen : List (Int × Int)} {x : Node × Node},
    x ∈ unseen d l seen → x ∈ l ∧ (x.1.id, x.2.id) ∉ seen
  | [], _, _, h => nomatch h
  | (n, t) :: r, seen, x, h => by
    unfold unseen at h
    split at h
    case isTrue => exact ⟨List.mem_cons_of_mem _ (mem_unseen h).1, (mem_unseen h).2⟩
    case isFalse hc =>
      rcases List.mem_cons.mp h with rfl | h
      · exact ⟨List.mem_cons_self, hc⟩
      · refine ⟨List.mem_cons_of_mem _ (mem_unseen h).1, fun h2 => (mem_unseen h).2 ?_⟩
        cases d
        · exact List.mem_cons_of_mem _ (List.mem_cons_of_mem _ h2)
        · exact List.mem_cons_of_mem _ h2

theorem unseen_covers {d : Bool} : ∀ {l : List (Node × Node)} {seen : List (Int × Int)} {x : Node × Node},
    x ∈ l → (x.1.id, x.2.id) ∈ seen ∨ ∃ y ∈ unseen d l seen,
      (y.1.id = x.1.id ∧ y.2.id = x.2.id) ∨ (d = false ∧ y.1.id = x.2.id ∧ y.2.id = x.1.id)
  | (n, t) :: r, seen, x, h => by
    unfold unseen
    rcases List.mem_cons.mp h with rfl | h
    · split
      case isTrue hc => exact .inl hc
      case isFalse hc => exact .inr ⟨_, List.mem_cons_self, .inl ⟨rfl, rfl⟩⟩
    · split
      case isTrue hc => exact unseen_covers h
      case isFalse hc =>
        rcases unseen_covers (d := d) (seen := if d then (n.id, t.id) :: seen
          else (n.id, t.id) :: (t.id, n.id) :: seen) h with h1 | ⟨y, h1, h2⟩
        · have h3 : (x.1.id, x.2.id) = (n.id, t.id) ∨ (d = false ∧ (x.1.id, x.2.id) = (t.id, n.id)) ∨
              (x.1.id, x.2.id) ∈ seen := by
            cases d
            · simpa using h1
            · simpa using h1
          rcases h3 with h3 | ⟨h3, h4⟩ | h3
          · simp only [Prod.mk.injEq] at h3
            exact .inr ⟨_, List.mem_cons_self, .inl ⟨h3.1.symm, h3.2.symm⟩⟩
          · simp only [Prod.mk.injEq] at h4
            exact .inr ⟨_, List.mem_cons_self, .inr ⟨h3, h4.2.symm, h4.1.symm⟩⟩
          · exact .inl h3
        · exact .inr ⟨y, List.mem_cons_of_mem _ h1, h2⟩

theorem unseen_pairwise {d : Bool} : ∀ {l : List (Node × Node)} {seen : List (Int × Int)},
    (unseen d l seen).Pairwise fun x y => ¬ ((x.1.id = y.1.id ∧ x.2.id = y.2.id) ∨
      (d = false ∧ x.1.id = y.2.id ∧ x.2.id = y.1.id))
  | [], _ => .nil
  | (n, t) :: r, seen => by
    unfold unseen
    split
    · exact unseen_pairwise
    · refine List.pairwise_cons.mpr ⟨fun y hy => ?_, unseen_pairwise⟩
      have h := (mem_unseen hy).2
      rintro (⟨h1, h2⟩ | ⟨h0, h1, h2⟩)
      · apply h
        simp only at h1 h2
        rw [← h1, ← h2]
        cases d <;> simp
      · subst h0
        apply h
        simp only at h1 h2
        rw [← h1, ← h2]
        simp

/-! ## The document of a gonum graph -/

/-- The nodes `dot.Marshal` lists. -/
def dotNodes (b : Builder) (o : DotOrder) : List Node := sortByID (b.allNodes o.nodes)

/-- The pairs of nodes for which it writes edges. -/
def dotPairs (b : Builder) (o : DotOrder) : List (Node × Node) :=
  unseen b.isDirected ((dotNodes b o).flatMap fun n =>
    (sortByID (b.fromNodes (o.row n.id) n.id)).map fun t => (n, t)) []

theorem mem_dotNodes {b : Builder} (h : Inv b) (o : DotOrder) (n : Node) :
    n ∈ dotNodes b o ↔ b.nodes.get? n.id = some n := by
  rw [dotNodes, mem_sortByID, Gonum.mem_allNodes]
  constructor
  · rintro ⟨k, hk⟩
    have := h.nodeID k n hk
    rw [this]; exact hk
  · exact fun h => ⟨_, h⟩

theorem dotNodes_strict {b : Builder} (h : Inv b) (o : DotOrder) :
    (dotNodes b o).Pairwise (fun a b => a.id < b.id) :=
  sortByID_strict (Gonum.nodup_allNodes_ids h o.nodes)

theorem mem_dotPairs {b : Builder} (h : Inv b) {o : DotOrder} {x : Node × Node} (hx : x ∈ dotPairs b o) :
    b.nodes.get? x.1.id = some x.1 ∧ b.nodes.get? x.2.id = some x.2 ∧
    ∃ e, b.weightedEdge x.1.id x.2.id = some e := by
  obtain ⟨h1, _⟩ := mem_unseen hx
  obtain ⟨n, h2, h3⟩ := List.mem_flatMap.mp h1
  obtain ⟨t, h4, rfl⟩ := List.mem_map.mp h3
  rw [mem_sortByID, Gonum.mem_fromNodes h] at h4
  exact ⟨(mem_dotNodes h o n).mp h2, h4.1, Option.isSome_iff_exists.mp h4.2⟩

theorem dotPairs_covers {b : Builder} (h : Inv b) (o : DotOrder) {u v : Int} {e : Edge}
    (he : b.weightedEdge u v = some e) : ∃ y ∈ dotPairs b o,
      (y.1.id = u ∧ y.2.id = v) ∨ (b.isDirected = false ∧ y.1.id = v ∧ y.2.id = u) := by
  obtain ⟨_, _, hok⟩ := Gonum.weightedEdge_ends h he
  obtain ⟨n, hn⟩ := hok.left
  obtain ⟨t, ht⟩ := hok.right
  have h1 := h.nodeID _ _ hn
  have h2 := h.nodeID _ _ ht
  subst h1 h2
  have hm : (n, t) ∈ (dotNodes b o).flatMap fun n =>
      (sortByID (b.fromNodes (o.row n.id) n.id)).map fun t => (n, t) :=
    List.mem_flatMap.mpr ⟨n, (mem_dotNodes h o n).mpr hn, List.mem_map.mpr ⟨t, mem_sortByID.mpr
      ((Gonum.mem_fromNodes h (o.row n.id) n.id t).mpr ⟨ht, by rw [he]; rfl⟩), rfl⟩⟩
  rcases unseen_covers (d := b.isDirected) (seen := []) hm with h3 | h3
  · cases h3
  · exact h3

theorem dot_eq (h : Heap) (o : DotOrder) (g : WG) (x : DotOptions) :
    dot h o g x = ⟨g.b.isDirected, "", [], [], [],
      (dotNodes g.b o).map fun n => (n.dotid, Attrs.dotAttrs h (o.nodeAttrs n.id) n.attrs),
      (dotPairs g.b o).map fun (n, t) => ((n.dotid, t.dotid),
        match g.b.weightedEdge n.id t.id with
        | some e => Attrs.dotAttrs h (o.edgeAttrs n.id t.id) e.attrs
        | none => [])⟩ := rfl

theorem dotAttrs_shows (h : Heap) (o : Order (String × String)) (a : Ref) :
    ShowsAttrs h a (Attrs.dotAttrs h o a) := by
  constructor
  · simpa [Attrs.dotAttrs, Function.comp_def] using Attrs.keys_nodup h o a
  · intro k v
    simp only [Attrs.dotAttrs, List.mem_map, Prod.mk.injEq]
    constructor
    · rintro ⟨k', h1, rfl, rfl⟩
      obtain ⟨v, hv⟩ := (Attrs.mem_keys h o a k').mp h1
      rw [Attrs.get, hv]; rfl
    · intro hv
      exact ⟨k, (Attrs.mem_keys h o a k).mpr ⟨v, hv⟩, rfl, by rw [Attrs.get, hv]; rfl⟩

theorem dotAttrs_perm (h : Heap) (o o' : Order (String × String)) (a : Ref) :
    (Attrs.dotAttrs h o a).Perm (Attrs.dotAttrs h o' a) :=
  (((o.perm _).trans (o'.perm _).symm).map Prod.fst).map _

end Netscrape.Graph
