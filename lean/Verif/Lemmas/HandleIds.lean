import Verif.Lemmas.SectionsTwo
import Verif.Lemmas.StoreHandle
import Verif.Lemmas.Gonum
import Verif.Spec.StoreHandle
import Verif.Spec.Store

/-!
# A store keeps the IDs of its entities apart while its graph is used

As long as nobody adds nodes to the graph or removes nodes from it but the store, no two entities share an ID,
whatever else is done to the graph meanwhile.
-/

namespace Netscrape.Store
open Netscrape.Conc
open Netscrape.Graph (Ent Node Edge WG St Opt mkNode mkEdge newNodeP addNodeP nodeP removeNodeP linkP linkApplyP edgeP unlinkP
  setNode)

/-- Different UIDs have different IDs, which are in use in the gonum graph. -/
structure Apart (g : WG) : Prop where
  gonum : Gonum.Inv g.b
  keyOf : ∀ k n, g.nodes.get? k = some n → n.key = k
  used : ∀ k n, g.nodes.get? k = some n → ∃ m, g.b.nodes.get? n.id = some m
  apart : ∀ k k' n n', g.nodes.get? k = some n → g.nodes.get? k' = some n' → n.id = n'.id → k = k'

/-- What everybody guarantees: the largest ID ever used does not get smaller. -/
def Grows (g g' : WG) : Prop := g.b.ids.max ≤ g'.b.ids.max

/-- What those guarantee who are not in the store to write: nodes stay as they are. -/
def Leaves (g g' : WG) : Prop := g'.nodes = g.nodes ∧ Grows g g'

theorem Grows.refl (g : WG) : Grows g g := Int.le_refl _

theorem Grows.trans (g g' g'' : WG) (h : Grows g g') (h' : Grows g' g'') : Grows g g'' := Int.le_trans h h'

theorem Leaves.refl (g : WG) : Leaves g g := ⟨rfl, .refl g⟩

theorem Leaves.trans (g g' g'' : WG) (h : Leaves g g') (h' : Leaves g' g'') : Leaves g g'' :=
  ⟨h'.1.trans h.1, .trans _ _ _ h.2 h'.2⟩

/-- Adding `n` keeps IDs apart. -/
def Fresh (n : Node) (g : WG) : Prop :=
  g.nodes.get? n.key = some n ∨ ∀ k m, g.nodes.get? k = some m → m.id ≠ n.id

/-- The program keeps IDs apart. `A` tells whether the store's mutex is the one inside which nodes are added and
removed. -/
abbrev Sound (A : Mtx → Prop) {ρ : Type} (Q : ρ → Hold → Mode WG → Prop) (p : SProg ρ) (o : Hold) (md : Mode WG) : Prop :=
  Ver2 A (· = Mtx.graph) St.g Apart Leaves Grows Q p o md

variable {A : Mtx → Prop}

/-- The program is out of the graph again, and `P` holds. -/
def Back {ρ : Type} (o : Hold) (P : ρ → WG → Prop) (r : ρ) (o' : Hold) (md : Mode WG) : Prop :=
  o' = o ∧ ∃ g, md = .out g ∧ P r g

theorem guar_of_leaves {o : Hold} {g g' : WG} (h : Leaves g g') : Guar Leaves Grows o g g' := ⟨fun _ => h, h.2⟩

theorem guar_refl (o : Hold) (g : WG) : Guar Leaves Grows o g g := guar_of_leaves (.refl g)

/-- What `NewNode` returns. -/
def MadeBy (o : Hold) (r : Res Graph.Err Node) (g : WG) : Prop :=
  match r with
  | .ok n => o.Inside → Fresh n g
  | .err _ => True
  | .panic => Gonum.maxID ≤ g.b.ids.max

theorem newNodeID_none {b : Gonum.Builder} {x : Order (Int × Unit)} (h : b.newNodeID x = none) :
    Gonum.maxID ≤ b.ids.max := by
  unfold Gonum.Builder.newNodeID at h
  split at h
  · cases h
  · unfold Gonum.Ids.newID at h
    split at h
    · cases h
    · split at h
      · cases h
      · rename_i h'
        simp only [ne_eq, Decidable.not_not] at h'
        rw [h']; exact Int.le_refl _

theorem sound_newNode {o : Hold} (ho : o ≠ .ann) (x : Order (Int × Unit)) (e : Ent) (opts : List Opt) (g : WG) :
    Sound A (Back o (MadeBy o)) (newNodeP .graph x e opts) o (.out g) := by
  refine .inr ⟨rfl, ho, g, rfl, fun g1 _ hI s hs => ?_⟩
  have hs : s.g = g1 := hs
  dsimp only
  cases hid : s.g.b.newNodeID x with
  | none => exact .inr ⟨rfl, g1, g1, rfl, hI, guar_refl _ _, rfl, g1, rfl, by rw [hs] at hid; exact newNodeID_none hid⟩
  | some id =>
    refine .inr ⟨rfl, g1, g1, rfl, hI, guar_refl _ _, fun s' _ => ⟨fun _ => rfl, .inr ⟨rfl, ho, g1, rfl, fun g2 hR hI2 s2 hs2 => ?_⟩⟩⟩
    have hs2 : s2.g = g2 := hs2
    dsimp only
    rw [hs2]
    cases hn : g2.nodes.get? (mkNode s'.heap id e opts).1.key with
    | none =>
      refine .inr ⟨rfl, g2, g2, rfl, hI2, guar_refl _ _, rfl, g2, rfl, fun hi => .inr fun k m hm he => ?_⟩
      rw [(hR.1 hi).1] at hm
      obtain ⟨m', hm'⟩ := hI.used k m hm
      rw [hs] at hid
      have he : m.id = id := he
      rw [he, Gonum.newNodeID_fresh _ hI.gonum _ _ hid] at hm'
      cases hm'
    | some n =>
      refine .inr ⟨rfl, g2, g2, rfl, hI2, guar_refl _ _, rfl, g2, rfl, fun _ => .inl ?_⟩
      rw [hI2.keyOf _ _ hn]; exact hn

/-- `n` is put under its UID, and its ID is in use. -/
theorem Apart.set {g : WG} (h : Apart g) {n : Node} (hf : Fresh n g) {b : Gonum.Builder} (hb : Gonum.Inv b)
    (hkeep : ∀ i m, g.b.nodes.get? i = some m → ∃ m', b.nodes.get? i = some m')
    (hn : ∃ m, b.nodes.get? n.id = some m) : Apart { g with b := b, nodes := g.nodes.set n.key n } := by
  have hne : ∀ k m, g.nodes.get? k = some m → m.id = n.id → k = n.key := by
    intro k m hm he
    rcases hf with hf | hf
    · exact h.apart _ _ _ _ hm hf he
    · exact absurd he (hf k m hm)
  refine ⟨hb, ?_, ?_, ?_⟩
  · intro k m hm
    simp only [GoMap.get?_set] at hm
    split at hm
    · rename_i e; cases hm; exact e.symm
    · exact h.keyOf k m hm
  · intro k m hm
    simp only [GoMap.get?_set] at hm
    split at hm
    · cases hm; exact hn
    · obtain ⟨m', hm'⟩ := h.used k m hm
      exact hkeep _ _ hm'
  · intro k k' m m' hm hm' he
    simp only [GoMap.get?_set] at hm hm'
    split at hm
    · rename_i e
      cases hm
      split at hm'
      · rename_i e'; rw [e, e']
      · rw [e]; exact (hne _ _ hm' he.symm).symm
    · split at hm'
      · rename_i e'
        cases hm'
        rw [e']; exact hne _ _ hm he
      · exact h.apart _ _ _ _ hm hm' he

theorem sound_addNode (n : Node) (opts : List Opt) {g : WG} (hf : Fresh n g) :
    Sound A (Back .wr (fun r g => r = Res.panic → Gonum.maxID ≤ g.b.ids.max)) (addNodeP .graph n opts) .wr (.out g) := by
  refine .inr ⟨rfl, Hold.noConfusion, g, rfl, fun g1 hR hI s hs => ?_⟩
  have hs : s.g = g1 := hs
  have hf : Fresh n g1 := by
    unfold Fresh at hf ⊢
    rw [(hR.1 trivial).1]
    exact hf
  subst hs
  dsimp only
  cases hb : s.g.b.node? n.id with
  | some x =>
    intro s1 hs1
    have hs1 : s1.g = s.g := hs1
    dsimp only
    rw [hs1]
    cases hn : s.g.nodes.get? n.key with
    | some y =>
      dsimp only
      by_cases hu : (Graph.applyAll opts).upsert = false
      · rw [if_pos hu]
        exact .inr ⟨rfl, _, _, rfl, hI, guar_refl _ _, rfl, _, rfl, fun h => by cases h⟩
      · rw [if_neg hu]
        intro s2 hs2
        refine ⟨fun h => absurd trivial h, fun s3 hs3 => ⟨fun h => absurd trivial h, ?_⟩⟩
        have hs2 : s2.g = s.g := hs2
        have hs3 : s3.g = (setNode n s2).g := hs3
        have e : (setNode n s3).g = { s.g with nodes := (s.g.nodes.set n.key n).set n.key n } := by
          unfold setNode at hs3 ⊢; rw [hs3, hs2]
        have h1 : Apart { s.g with nodes := s.g.nodes.set n.key n } :=
          hI.set hf hI.gonum (fun i m h => ⟨m, h⟩) ⟨x, hb⟩
        refine .inr ⟨rfl, s.g, (setNode n s3).g, rfl, ?_, ?_, rfl, (setNode n s3).g, rfl, fun h => by cases h⟩
        · rw [e]
          exact h1.set (.inl (by simp only [GoMap.get?_set, if_pos])) hI.gonum (fun i m h => ⟨m, h⟩) ⟨x, hb⟩
        · rw [e]; exact ⟨fun h => absurd rfl h, Grows.refl s.g⟩
    | none =>
      intro s2 hs2
      have hs2 : s2.g = s.g := hs2
      have e : (setNode n s2).g = { s.g with nodes := s.g.nodes.set n.key n } := by
        unfold setNode; rw [hs2]
      refine ⟨fun h => absurd trivial h, .inr ⟨rfl, s.g, (setNode n s2).g, rfl, ?_, ?_, rfl, (setNode n s2).g, rfl, fun h => by cases h⟩⟩
      · rw [e]; exact hI.set hf hI.gonum (fun i m h => ⟨m, h⟩) ⟨x, hb⟩
      · rw [e]; exact ⟨fun h => absurd rfl h, Grows.refl s.g⟩
  | none =>
    intro s1 hs1
    have hs1 : s1.g = s.g := hs1
    refine ⟨fun h => absurd trivial h, ?_⟩
    dsimp only
    rw [hs1]
    cases ha : s.g.b.addNode n with
    | none =>
      unfold Gonum.Builder.addNode at ha
      unfold Gonum.Builder.node? at hb
      rw [hb] at ha
      cases ha
    | some b =>
      dsimp only
      intro s2 hs2
      have hs2 : s2.g = { s.g with b := b } := hs2
      have e : (setNode n s2).g = { s.g with b := b, nodes := s.g.nodes.set n.key n } := by
        unfold setNode; rw [hs2]
      refine ⟨fun h => absurd trivial h, .inr ⟨rfl, s.g, (setNode n s2).g, rfl, ?_, ?_, rfl, (setNode n s2).g, rfl, fun h => by cases h⟩⟩
      · rw [e]
        refine hI.set hf (Gonum.addNode_inv hI.gonum ha) ?_ ?_
        · intro i m hm
          rw [(Gonum.addNode_eq ha).1, GoMap.get?_set]
          split
          · exact ⟨_, rfl⟩
          · exact ⟨m, hm⟩
        · rw [(Gonum.addNode_eq ha).1, GoMap.get?_set]
          exact ⟨n, if_pos rfl⟩
      · rw [e]
        refine ⟨fun h => absurd rfl h, ?_⟩
        unfold Gonum.Builder.addNode at ha
        split at ha
        · cases ha
        · cases ha
          show s.g.b.ids.max ≤ (s.g.b.ids.use n.id).max
          unfold Gonum.Ids.use
          dsimp only
          split <;> omega

theorem sound_removeNode (u : Uid) (g : WG) :
    Sound A (Back .wr (fun r _ => r ≠ Res.panic)) (removeNodeP .graph u) .wr (.out g) := by
  refine .inr ⟨rfl, .inl ⟨g, rfl, fun g1 _ hI1 s hs => ?_⟩⟩
  have hs : s.g = g1 := hs
  dsimp only
  rw [hs]
  cases hn : g1.nodes.get? u.str with
  | none => exact .inr ⟨rfl, .inl ⟨g1, rfl, rfl, g1, rfl, fun h => by cases h⟩⟩
  | some n =>
    refine .inr ⟨rfl, .inl ⟨g1, rfl, .inr ⟨rfl, Hold.noConfusion, g1, rfl, fun g2 hR hI s2 hs2 => ?_⟩⟩⟩
    have hs2 : s2.g = g2 := hs2
    have hnodes := (hR.1 trivial).1
    refine ⟨fun h => absurd trivial h, fun s3 hs3 => ⟨fun h => absurd trivial h, ?_⟩⟩
    have hs3 : s3.g = { s2.g with b := s2.g.b.removeNode n.id } := hs3
    refine .inr ⟨rfl, g2, { g2 with b := g2.b.removeNode n.id, nodes := g2.nodes.del u.str }, ?_, ?_, ?_, rfl, _, rfl, fun h => by cases h⟩
    · show Mode.wr g2 _ = Mode.wr g2 _
      dsimp only
      rw [hs3, hs2]
    · refine ⟨Gonum.removeNode_inv hI.gonum n.id, ?_, ?_, ?_⟩
      · intro k m hm
        simp only [GoMap.get?_del] at hm
        split at hm
        · cases hm
        · exact hI.keyOf k m hm
      · intro k m hm
        simp only [GoMap.get?_del] at hm
        split at hm
        · cases hm
        · rename_i hk
          rw [Gonum.removeNode_nodes]
          split
          · rename_i he
            rw [hnodes] at hm
            exact absurd (hI1.apart _ _ _ _ hm hn he) hk
          · exact hI.used k m hm
      · intro k k' m m' hm hm' he
        simp only [GoMap.get?_del] at hm hm'
        split at hm
        · cases hm
        · split at hm'
          · cases hm'
          · exact hI.apart _ _ _ _ hm hm' he
    · refine ⟨fun h => absurd rfl h, ?_⟩
      show g2.b.ids.max ≤ (g2.b.removeNode n.id).ids.max
      unfold Gonum.Builder.removeNode
      split
      · exact Int.le_refl _
      · exact Int.le_refl _

theorem sound_node {o : Hold} (u : Uid) (g : WG) :
    Sound A (Back o (fun r _ => r ≠ Res.panic)) (nodeP .graph u) o (.out g) := by
  refine .inr ⟨rfl, .inl ⟨g, rfl, fun g1 _ hI s hs => ?_⟩⟩
  dsimp only
  cases s.g.nodes.get? u.str with
  | none => exact .inr ⟨rfl, .inl ⟨g1, rfl, rfl, g1, rfl, fun h => by cases h⟩⟩
  | some n => exact .inr ⟨rfl, .inl ⟨g1, rfl, rfl, g1, rfl, fun h => by cases h⟩⟩

theorem sound_unlink {o : Hold} (ho : o ≠ .ann) (f t : Uid) (g : WG) :
    Sound A (Back o (fun r _ => r ≠ Res.panic)) (unlinkP .graph f t) o (.out g) := by
  refine .inr ⟨rfl, .inl ⟨g, rfl, fun g1 _ hI s hs => ?_⟩⟩
  dsimp only
  cases s.g.nodes.get? f.str with
  | none => exact .inr ⟨rfl, .inl ⟨g1, rfl, rfl, g1, rfl, fun h => by cases h⟩⟩
  | some x =>
    intro s1 hs1
    dsimp only
    cases s1.g.nodes.get? t.str with
    | none => exact .inr ⟨rfl, .inl ⟨g1, rfl, rfl, g1, rfl, fun h => by cases h⟩⟩
    | some y =>
      refine .inr ⟨rfl, .inl ⟨g1, rfl, .inr ⟨rfl, ho, g1, rfl, fun g2 _ hI2 s2 hs2 => ⟨fun h => absurd trivial h,
        .inr ⟨rfl, g2, _, rfl, ?_, ?_, rfl, _, rfl, fun h => by cases h⟩⟩⟩⟩⟩
      · have hs2 : s2.g = g2 := hs2
        dsimp only
        rw [hs2]
        exact ⟨Gonum.removeEdge_inv hI2.gonum _ _, hI2.keyOf,
          fun k n h => by rw [Gonum.removeEdge_nodes]; exact hI2.used k n h, hI2.apart⟩
      · have hs2 : s2.g = g2 := hs2
        dsimp only
        rw [hs2]
        refine guar_of_leaves ⟨rfl, ?_⟩
        show g2.b.ids.max ≤ (g2.b.removeEdge x.id y.id).ids.max
        unfold Gonum.Builder.removeEdge
        split <;> exact Int.le_refl _

theorem touch_max (b : Gonum.Builder) (n : Node) : b.ids.max ≤ (b.touch n).ids.max := by
  unfold Gonum.Builder.touch Gonum.Builder.addNode
  cases b.nodes.get? n.id with
  | none =>
    show b.ids.max ≤ (b.ids.use n.id).max
    unfold Gonum.Ids.use
    dsimp only
    split <;> omega
  | some m => exact Int.le_refl _

theorem sound_linkApply {o : Hold} (ho : o ≠ .ann) (fresh : Uid) (a : Nat) {x y : Node} (hne : x.id ≠ y.id)
    (opts : List Opt) (g : WG) :
    Sound A (Back o (fun r _ => r ≠ Res.panic)) (linkApplyP .graph fresh a x y opts) o (.out g) := by
  refine .inr ⟨rfl, ho, g, rfl, fun g2 _ hI2 s hs => ⟨fun _ => rfl, fun s1 hs1 => ⟨fun h => absurd trivial h, ?_⟩⟩⟩
  have hs1 : s1.g = s.g := hs1
  have hs : s.g = g2 := hs
  dsimp only
  obtain ⟨b, hb⟩ : ∃ b, s1.g.b.setWeightedEdge (mkEdge s.heap fresh a x y opts).1 = some b :=
    Option.isSome_iff_exists.mp (by
      have he : (mkEdge s.heap fresh a x y opts).1.src.id ≠ (mkEdge s.heap fresh a x y opts).1.dst.id := by
        unfold mkEdge; exact hne
      unfold Gonum.Builder.setWeightedEdge
      rw [if_neg he]; rfl)
  rw [hb]
  refine .inr ⟨rfl, g2, { g2 with b := b }, ?_, ?_, ?_, rfl, _, rfl, fun h => by cases h⟩
  · show Mode.wr g2 _ = Mode.wr g2 _
    dsimp only
    rw [hs1, hs]
  · rw [hs1, hs] at hb
    refine ⟨Gonum.setWeightedEdge_inv hI2.gonum hb, hI2.keyOf, ?_, hI2.apart⟩
    intro k n hn
    obtain ⟨m, hm⟩ := hI2.used k n hn
    show ∃ m, b.nodes.get? n.id = some m
    rw [(Gonum.setWeightedEdge_eq hb).2.1, GoMap.get?_set]
    split
    · exact ⟨_, rfl⟩
    · rw [GoMap.get?_set]
      split
      · exact ⟨_, rfl⟩
      · exact ⟨m, hm⟩
  · refine guar_of_leaves ⟨rfl, ?_⟩
    rw [hs1, hs] at hb
    unfold Gonum.Builder.setWeightedEdge at hb
    split at hb
    · cases hb
    · cases hb
      exact Int.le_trans (touch_max _ _) (touch_max _ _)

theorem sound_link {o : Hold} (ho : o ≠ .ann) (fresh : Uid) (a : Nat) {f t : Uid} (hne : f.str ≠ t.str) (opts : List Opt)
    (g : WG) : Sound A (Back o (fun r _ => r ≠ Res.panic)) (linkP .graph fresh a f t opts) o (.out g) := by
  refine .inr ⟨rfl, .inl ⟨g, rfl, fun g1 _ hI => .inr ⟨rfl, .inr ⟨0, g1, rfl, fun s hs => ?_⟩⟩⟩⟩
  dsimp only
  cases s.g.nodes.get? f.str with
  | none => exact .inr ⟨rfl, .inr ⟨0, g1, rfl, .inr ⟨rfl, .inl ⟨g1, rfl, rfl, g1, rfl, fun h => by cases h⟩⟩⟩⟩
  | some _ =>
    intro s' _
    dsimp only
    cases s'.g.nodes.get? t.str with
    | none => exact .inr ⟨rfl, .inr ⟨0, g1, rfl, .inr ⟨rfl, .inl ⟨g1, rfl, rfl, g1, rfl, fun h => by cases h⟩⟩⟩⟩
    | some _ =>
      intro s2 _
      dsimp only
      cases s2.g.b.weightedEdge _ _ with
      | some e => exact .inr ⟨rfl, .inr ⟨0, g1, rfl, .inr ⟨rfl, .inl ⟨g1, rfl, rfl, g1, rfl, fun h => by cases h⟩⟩⟩⟩
      | none =>
        refine .inr ⟨rfl, .inr ⟨0, g1, rfl, fun s3 hs3 => ?_⟩⟩
        have hs3 : s3.g = g1 := hs3
        dsimp only
        rw [hs3]
        cases hx : g1.nodes.get? f.str with
        | none => exact .inr ⟨rfl, .inl ⟨g1, rfl, rfl, g1, rfl, fun h => by cases h⟩⟩
        | some x =>
          intro s4 hs4
          have hs4 : s4.g = g1 := hs4
          dsimp only
          rw [hs4]
          cases hy : g1.nodes.get? t.str with
          | none => exact .inr ⟨rfl, .inl ⟨g1, rfl, rfl, g1, rfl, fun h => by cases h⟩⟩
          | some y =>
            exact .inr ⟨rfl, .inl ⟨g1, rfl, sound_linkApply ho fresh a
              (fun e => hne (hI.apart _ _ _ _ hx hy e)) opts g1⟩⟩

/-! Reads. -/

theorem sound_edge {o : Hold} (u v : Uid) (g : WG) :
    Sound A (Back o (fun r _ => r ≠ Res.panic)) (edgeP .graph u v) o (.out g) := by
  refine .inr ⟨rfl, .inl ⟨g, rfl, fun g1 _ hI s hs => ?_⟩⟩
  dsimp only
  cases s.g.nodes.get? u.str with
  | none => exact .inr ⟨rfl, .inl ⟨g1, rfl, rfl, g1, rfl, fun h => by cases h⟩⟩
  | some _ =>
    intro s' _
    dsimp only
    cases s'.g.nodes.get? v.str with
    | none => exact .inr ⟨rfl, .inl ⟨g1, rfl, rfl, g1, rfl, fun h => by cases h⟩⟩
    | some _ =>
      intro s2 _
      dsimp only
      cases s2.g.b.weightedEdge _ _ with
      | some e => exact .inr ⟨rfl, .inl ⟨g1, rfl, rfl, g1, rfl, fun h => by cases h⟩⟩
      | none => exact .inr ⟨rfl, .inl ⟨g1, rfl, rfl, g1, rfl, fun h => by cases h⟩⟩

theorem sound_nodes {o : Hold} (x : Order (Int × Node)) (g : WG) :
    Sound A (Back o (fun _ _ => True)) (Graph.nodesP .graph x) o (.out g) :=
  .inr ⟨rfl, .inl ⟨g, rfl, fun g1 _ _ _ _ => .inr ⟨rfl, .inl ⟨g1, rfl, rfl, g1, rfl, trivial⟩⟩⟩⟩

theorem sound_edges {o : Hold} (x : Gonum.EdgeOrder) (g : WG) :
    Sound A (Back o (fun _ _ => True)) (Graph.edgesP .graph x) o (.out g) :=
  .inr ⟨rfl, .inl ⟨g, rfl, fun g1 _ _ _ _ => .inr ⟨rfl, .inl ⟨g1, rfl, rfl, g1, rfl, trivial⟩⟩⟩⟩

theorem sound_from {o : Hold} (x : Order (Int × Edge)) (u : Uid) (g : WG) :
    Sound A (Back o (fun _ _ => True)) (Graph.fromP .graph x u) o (.out g) := by
  refine .inr ⟨rfl, .inl ⟨g, rfl, fun g1 _ hI s hs => ?_⟩⟩
  dsimp only
  cases s.g.nodes.get? u.str with
  | none => exact .inr ⟨rfl, .inl ⟨g1, rfl, rfl, g1, rfl, trivial⟩⟩
  | some _ => exact fun _ _ => .inr ⟨rfl, .inl ⟨g1, rfl, rfl, g1, rfl, trivial⟩⟩

theorem sound_linkPeers {o : Hold} (ora : Graph.SubOracle) (sgNodes : GoMap Int Node) (id : Int) (x : Node)
    {g : WG} : ∀ (ps : List Node) (sg : WG) (k : WG → SProg (Res Graph.Err WG)),
    (∀ sg', Sound A (Back o (fun _ _ => True)) (k sg') o (.out g)) →
    Sound A (Back o (fun _ _ => True)) (Graph.linkPeersP ora sgNodes id x ps sg k) o (.out g) := by
  intro ps
  induction ps with
  | nil => intro sg k hk; exact hk sg
  | cons p ps ih =>
    intro sg k hk
    unfold Graph.linkPeersP
    cases sgNodes.get? p.id with
    | none => exact ih sg k hk
    | some to =>
      intro s _ s' _
      refine ⟨fun _ => rfl, ?_⟩
      dsimp only
      cases (Graph.linkAll ora x.uid to.uid (s.g.b.weightedEdges (ora.edges id p.id)) sg s'.heap).1 with
      | ok sg' => exact ih sg' k hk
      | err e => exact ⟨rfl, g, rfl, trivial⟩
      | panic => exact ⟨rfl, g, rfl, trivial⟩

theorem sound_linkNodes {o : Hold} (ora : Graph.SubOracle) (sgNodes : GoMap Int Node) {g : WG} :
    ∀ (l : List (Int × Node)) (sg : WG),
    Sound A (Back o (fun _ _ => True)) (Graph.linkNodesP ora sgNodes l sg) o (.out g) := by
  intro l
  induction l with
  | nil => intro sg; exact ⟨rfl, g, rfl, trivial⟩
  | cons p l ih =>
    intro sg s _
    exact sound_linkPeers ora sgNodes p.1 p.2 _ sg _ ih

theorem sound_subGraph {o : Hold} (ora : Graph.SubOracle) (u : Uid) (d : Int) (opts : List Opt) (g : WG) :
    Sound A (Back o (fun _ _ => True)) (Graph.subGraphP .graph ora u d opts) o (.out g) := by
  refine .inr ⟨rfl, .inl ⟨g, rfl, fun g1 _ hI s hs => ?_⟩⟩
  dsimp only
  cases s.g.nodes.get? u.str with
  | none => exact .inr ⟨rfl, .inl ⟨g1, rfl, rfl, g1, rfl, trivial⟩⟩
  | some root =>
    refine .inr ⟨rfl, .inl ⟨g1, rfl, .inr ⟨rfl, .inl ⟨g1, rfl, fun g2 _ hI2 s2 _ => .inr ⟨rfl, .inl ⟨g2, rfl, ?_⟩⟩⟩⟩⟩⟩
    generalize Gonum.Bfs.walk s2.g.b ora.bfs Graph.collect (fun _ x => x == d) root
      ⟨Graph.new true ora.graphUid opts, GoMap.empty, none⟩ = w
    cases w with
    | none => exact ⟨rfl, g2, rfl, trivial⟩
    | some w =>
      dsimp only
      cases w.acc.err with
      | some e => exact ⟨rfl, g2, rfl, trivial⟩
      | none => exact sound_linkNodes ora _ _ _

/-! The methods of the store. -/

/-- A call that panics found the IDs used up. -/
def Full {ε α : Type} (r : Res ε α) (g : WG) : Prop := r = .panic → Gonum.maxID ≤ g.b.ids.max

theorem sound_add (x : Order (Int × Unit)) (e : Ent) (opts : List SOpt) (g : WG) :
    Sound A (Back .wr Full) (addP x e opts) .wr (.out g) := by
  refine Ver2.bind ?_ (sound_newNode Hold.noConfusion x e _ g)
  rintro r _ _ ⟨rfl, g1, rfl, hr⟩
  cases r with
  | panic => exact ⟨rfl, g1, rfl, fun _ => hr⟩
  | err x => exact ⟨rfl, g1, rfl, fun h => by cases h⟩
  | ok n =>
    have hf : Fresh n g1 := hr trivial
    dsimp only
    split
    · refine Ver2.bind ?_ (sound_addNode n [] hf)
      rintro r _ _ ⟨rfl, g2, rfl, hr⟩
      cases r with
      | panic => exact ⟨rfl, g2, rfl, fun _ => hr rfl⟩
      | err x => cases x <;> exact ⟨rfl, g2, rfl, fun h => by cases h⟩
      | ok n => exact ⟨rfl, g2, rfl, fun h => by cases h⟩
    · refine Ver2.bind ?_ (sound_addNode n [.withUpsert] hf)
      rintro r _ _ ⟨rfl, g2, rfl, hr⟩
      cases r with
      | panic => exact ⟨rfl, g2, rfl, fun _ => hr rfl⟩
      | err x => exact ⟨rfl, g2, rfl, fun h => by cases h⟩
      | ok n => exact ⟨rfl, g2, rfl, fun h => by cases h⟩

theorem sound_get {o : Hold} (u : Uid) (g : WG) :
    Sound A (Back o (fun r _ => r ≠ Res.panic)) (getP u) o (.out g) := by
  refine Ver2.bind ?_ (sound_node u g)
  rintro r _ _ ⟨rfl, g1, rfl, hr⟩
  cases r with
  | panic => exact absurd rfl hr
  | err x => cases x <;> exact ⟨rfl, g1, rfl, fun h => by cases h⟩
  | ok n => exact ⟨rfl, g1, rfl, fun h => by cases h⟩

theorem sound_delete (u : Uid) (g : WG) :
    Sound A (Back .wr (fun r _ => r ≠ Res.panic)) (deleteP u) .wr (.out g) := by
  refine Ver2.bind ?_ (sound_removeNode u g)
  rintro r _ _ ⟨rfl, g1, rfl, hr⟩
  cases r with
  | panic => exact absurd rfl hr
  | err x => exact ⟨rfl, g1, rfl, fun h => by cases h⟩
  | ok n => exact ⟨rfl, g1, rfl, fun h => by cases h⟩

theorem sound_storeLink {o : Hold} (ho : o ≠ .ann) (fresh : Uid) (a : Nat) {f t : Uid} (hne : f.str ≠ t.str)
    (opts : List SOpt) (g : WG) :
    Sound A (Back o (fun r _ => r ≠ Res.panic)) (storeLinkP fresh a f t opts) o (.out g) := by
  refine Ver2.bind ?_ (sound_link ho fresh a hne _ g)
  rintro r _ _ ⟨rfl, g1, rfl, hr⟩
  cases r with
  | panic => exact absurd rfl hr
  | err x => cases x <;> exact ⟨rfl, g1, rfl, fun h => by cases h⟩
  | ok n => exact ⟨rfl, g1, rfl, fun h => by cases h⟩

theorem sound_storeUnlink {o : Hold} (ho : o ≠ .ann) (f t : Uid) (g : WG) :
    Sound A (Back o (fun r _ => r ≠ Res.panic)) (storeUnlinkP f t) o (.out g) := by
  refine Ver2.bind ?_ (sound_unlink ho f t g)
  rintro r _ _ ⟨rfl, g1, rfl, hr⟩
  cases r with
  | panic => exact absurd rfl hr
  | err x => exact ⟨rfl, g1, rfl, fun h => by cases h⟩
  | ok n => exact ⟨rfl, g1, rfl, fun h => by cases h⟩

theorem sound_loop {α : Type} {o : Hold} {P : Res Err Unit → WG → Prop} (hok : ∀ g, P (.ok ()) g)
    (f : α → SProg (Res Err Unit)) : ∀ (l : List α), (∀ x ∈ l, ∀ g, Sound A (Back o P) (f x) o (.out g)) →
    ∀ g, Sound A (Back o P) (loopP f l) o (.out g) := by
  intro l
  induction l with
  | nil => intro _ g; exact ⟨rfl, g, rfl, hok g⟩
  | cons x l ih =>
    intro hf g
    refine Ver2.bind ?_ (hf x (List.mem_cons_self ..) g)
    rintro r _ _ ⟨rfl, g1, rfl, hr⟩
    cases r with
    | panic => exact ⟨rfl, g1, rfl, hr⟩
    | err x => exact ⟨rfl, g1, rfl, hr⟩
    | ok n => exact ih (fun y hy => hf y (List.mem_cons_of_mem _ hy)) g1

theorem sound_bulkGet {o : Hold} (us : List Uid) : ∀ (ents : List (Option Node)) (g : WG),
    Sound A (Back o (fun r _ => r ≠ Res.panic)) (bulkGetP us ents) o (.out g) := by
  induction us with
  | nil => intro ents g; exact ⟨rfl, g, rfl, fun h => by cases h⟩
  | cons u us ih =>
    intro ents g
    refine Ver2.bind ?_ (sound_get u g)
    rintro r _ _ ⟨rfl, g1, rfl, hr⟩
    cases r with
    | panic => exact absurd rfl hr
    | err x => exact ⟨rfl, g1, rfl, fun h => by cases h⟩
    | ok n => exact ih _ g1

theorem sound_out {ρ : Type} {o : Hold} {P : ρ → WG → Prop} {Q : COut → WG → Prop} {f : ρ → COut} {p : SProg ρ} {g : WG}
    (hp : Sound A (Back o P) p o (.out g)) (hQ : ∀ r g, P r g → Q (f r) g) :
    Sound A (Back o Q) (out f p) o (.out g) := by
  refine Ver2.bind ?_ hp
  rintro r _ _ ⟨rfl, g2, rfl, hr⟩
  exact ⟨rfl, g2, rfl, hQ _ _ hr⟩

/-- Inside the store's mutex, to write. -/
theorem sound_excl (hA : A .store) {ρ : Type} {P : ρ → WG → Prop} {Q : COut → WG → Prop} {f : ρ → COut} {p : SProg ρ}
    (hp : ∀ g, Sound A (Back .wr P) p .wr (.out g)) (hQ : ∀ r g, P r g → Q (f r) g) (g : WG) :
    Sound A (Back (.rd 0) Q) (.excl .store (out f p)) (.rd 0) (.out g) := by
  refine .inl (.inl ⟨hA, rfl, g, rfl, fun g1 _ _ => ?_⟩)
  refine Ver2.bind (Q := Back .wr Q) ?_ (sound_out (hp g1) hQ)
  rintro r _ _ ⟨rfl, g2, rfl, hr⟩
  exact .inl (.inl ⟨hA, rfl, g2, rfl, rfl, g2, rfl, hr⟩)

/-- Inside the mutex of any store, not adding or removing nodes. -/
theorem sound_any {ρ : Type} {P : ρ → WG → Prop} {Q : COut → WG → Prop} {f : ρ → COut} {p : SProg ρ}
    (hp : ∀ o, o ≠ .ann → ∀ g, Sound A (Back o P) p o (.out g)) (hQ : ∀ r g, P r g → Q (f r) g) (g : WG) :
    Sound A (Back (.rd 0) Q) (.excl .store (out f p)) (.rd 0) (.out g) := by
  by_cases hA : A .store
  · exact sound_excl hA (hp .wr Hold.noConfusion) hQ g
  · refine .inl (.inr ⟨⟨hA, Mtx.noConfusion⟩, ?_⟩)
    refine Ver2.bind (Q := Back (.rd 0) Q) ?_ (sound_out (hp (.rd 0) Hold.noConfusion g) hQ)
    rintro r _ _ ⟨rfl, g2, rfl, hr⟩
    exact .inl (.inr ⟨⟨hA, Mtx.noConfusion⟩, rfl, g2, rfl, hr⟩)

/-- Inside the mutex of any store, to read. -/
theorem sound_shared {ρ : Type} {P : ρ → WG → Prop} {Q : COut → WG → Prop} {f : ρ → COut} {p : SProg ρ}
    (hp : ∀ o, o ≠ .ann → ∀ g, Sound A (Back o P) p o (.out g)) (hQ : ∀ r g, P r g → Q (f r) g) (g : WG) :
    Sound A (Back (.rd 0) Q) (.shared .store (out f p)) (.rd 0) (.out g) := by
  by_cases hA : A .store
  · refine .inl (.inl ⟨hA, rfl, g, rfl, fun g1 _ _ => ?_⟩)
    refine Ver2.bind (Q := Back (.rd 1) Q) ?_ (sound_out (hp (.rd 1) Hold.noConfusion g1) hQ)
    rintro r _ _ ⟨rfl, g2, rfl, hr⟩
    exact .inl (.inl ⟨hA, rfl, g2, rfl, rfl, g2, rfl, hr⟩)
  · refine .inl (.inr ⟨⟨hA, Mtx.noConfusion⟩, ?_⟩)
    refine Ver2.bind (Q := Back (.rd 0) Q) ?_ (sound_out (hp (.rd 0) Hold.noConfusion g) hQ)
    rintro r _ _ ⟨rfl, g2, rfl, hr⟩
    exact .inl (.inr ⟨⟨hA, Mtx.noConfusion⟩, rfl, g2, rfl, hr⟩)

open Netscrape.Spec.Handle in
/-- Store calls. -/
theorem sound_store (op : COp) (hA : Renews op → A .store) (hs : ¬ SelfLink (.inl op)) (g : WG) :
    Sound A (Back (.rd 0) (fun r g => Panics (.inl r) → Takes (.inl op) ∧ Gonum.maxID ≤ g.b.ids.max)) (prog op) (.rd 0) (.out g) := by
  have hu : ∀ (r : Res Err Unit) (op' : COp) (g : WG), r ≠ .panic →
      Panics (.inl (.unit r)) → Takes (.inl op') ∧ Gonum.maxID ≤ g.b.ids.max := by
    intro r op' g h hp
    cases r with
    | panic => exact absurd rfl h
    | ok _ => exact hp.elim
    | err _ => exact hp.elim
  have hf : ∀ (r : Res Err Unit) (op' : COp) (g : WG), Takes (.inl op') → Full r g →
      Panics (.inl (.unit r)) → Takes (.inl op') ∧ Gonum.maxID ≤ g.b.ids.max := by
    intro r op' g ht h hp
    cases r with
    | panic => exact ⟨ht, h rfl⟩
    | ok _ => exact hp.elim
    | err _ => exact hp.elim
  cases op with
  | add x e opts => exact sound_excl (hA trivial) (sound_add x e opts) (fun r g h => hf r _ g (by exact trivial) h) g
  | get u =>
    refine sound_shared (fun _ _ => sound_get u) (fun r g h hp => ?_) g
    cases r with
    | panic => exact absurd rfl h
    | ok _ => exact hp.elim
    | err _ => exact hp.elim
  | delete u => exact sound_excl (hA trivial) (sound_delete u) (fun r g => hu r _ g) g
  | link fresh a f t opts => exact sound_any (fun _ ho => sound_storeLink ho fresh a hs opts) (fun r g => hu r _ g) g
  | unlink f t => exact sound_any (fun _ ho => sound_storeUnlink ho f t) (fun r g => hu r _ g) g
  | bulkAdd es opts =>
    exact sound_excl (hA trivial) (sound_loop (fun _ h => by cases h) _ _ (fun x _ => sound_add x.1 x.2 opts)) (fun r g h => hf r _ g (by exact trivial) h) g
  | bulkGet us =>
    refine sound_shared (fun _ _ => sound_bulkGet us _) (fun r g h hp => ?_) g
    cases r with
    | panic => exact absurd rfl h
    | ok _ => exact hp.elim
    | err _ => exact hp.elim
  | bulkDelete us =>
    exact sound_excl (hA trivial) (sound_loop (fun _ h => by cases h) _ _ (fun x _ => sound_delete x)) (fun r g => hu r _ g) g
  | bulkLink f us opts =>
    exact sound_any (fun _ ho => sound_loop (fun _ h => by cases h) _ _
      (fun x hx => sound_storeLink ho x.1 x.2.1 (fun e => hs ⟨x, hx, e⟩) opts)) (fun r g => hu r _ g) g
  | bulkUnlink f us =>
    exact sound_any (fun _ ho => sound_loop (fun _ h => by cases h) _ _ (fun x _ => sound_storeUnlink ho f x)) (fun r g => hu r _ g) g

open Netscrape.Spec.Handle in
/-- Graph calls. -/
theorem sound_graph (op : Graph.COp) (ha : NodesByStore (.inr op)) (hs : ¬ SelfLink (.inr op)) (g : WG) :
    Sound A (Ends (fun r g => Panics (.inr r) → Takes (.inr op) ∧ Gonum.maxID ≤ g.b.ids.max)) (Graph.prog .graph op) (.rd 0)
      (.out g) := by
  have tag : ∀ {ρ : Type} {P : ρ → WG → Prop} {f : ρ → Graph.COut} {p : SProg ρ} {Q : Graph.COut → WG → Prop},
      Sound A (Back (.rd 0) P) p (.rd 0) (.out g) → (∀ r g, P r g → Q (f r) g) →
      Sound A (Ends Q) (p.bind fun r => .ret (f r)) (.rd 0) (.out g) := by
    intro ρ P f p Q hp hQ
    refine Ver2.bind ?_ hp
    rintro r _ _ ⟨rfl, g1, rfl, hr⟩
    exact ⟨rfl, g1, rfl, hQ _ _ hr⟩
  cases op with
  | newNode x e opts =>
    refine tag (sound_newNode Hold.noConfusion x e opts g) (fun r g h hp => ?_)
    cases r with
    | panic => exact ⟨trivial, h⟩
    | ok _ => exact hp.elim
    | err _ => exact hp.elim
  | addNode n opts => exact ha.elim
  | addForeign => exact ⟨rfl, g, rfl, fun h => h.elim⟩
  | node u =>
    refine tag (sound_node u g) (fun r g h hp => ?_)
    cases r with
    | panic => exact absurd rfl h
    | ok _ => exact hp.elim
    | err _ => exact hp.elim
  | nodes x => exact tag (sound_nodes x g) (fun _ _ _ h => h.elim)
  | removeNode u => exact ha.elim
  | link fresh a f t opts =>
    refine tag (sound_link Hold.noConfusion fresh a hs opts g) (fun r g h hp => ?_)
    cases r with
    | panic => exact absurd rfl h
    | ok _ => exact hp.elim
    | err _ => exact hp.elim
  | edge u v =>
    refine tag (sound_edge u v g) (fun r g h hp => ?_)
    cases r with
    | panic => exact absurd rfl h
    | ok _ => exact hp.elim
    | err _ => exact hp.elim
  | edges x => exact tag (sound_edges x g) (fun _ _ _ h => h.elim)
  | from' x u => exact tag (sound_from x u g) (fun _ _ _ h => h.elim)
  | unlink f t =>
    refine tag (sound_unlink Hold.noConfusion f t g) (fun r g h hp => ?_)
    cases r with
    | panic => exact absurd rfl h
    | ok _ => exact hp.elim
    | err _ => exact hp.elim
  | subGraph ora u d opts => exact tag (sound_subGraph ora u d opts g) (fun _ _ _ h => h.elim)
  | dot =>
    refine .inr ⟨rfl, .inl ⟨g, rfl, fun g1 _ _ _ _ => .inr ⟨rfl, .inr ⟨0, g1, rfl, rfl, g1, rfl, fun h => h.elim⟩⟩⟩⟩

theorem apart_start {d : Bool} {s : St} (h : Spec.Store.Start d s) : Apart s.g := by
  have hnew : ∀ d fresh opts, Apart (Graph.new d fresh opts) := fun d fresh opts => by
    have hget : ∀ k n, (Graph.new d fresh opts).nodes.get? k = some n → False := fun k n h => by
      unfold Graph.new at h; cases h
    refine ⟨?_, fun k n h => (hget k n h).elim, fun k n h => (hget k n h).elim,
      fun k _ n _ h => (hget k n h).elim⟩
    unfold Graph.new
    cases d
    · exact Gonum.inv_newUndirected
    · exact Gonum.inv_newDirected
  cases h with
  | default h fresh => exact hnew _ _ _
  | given d h fresh gfresh gopts => exact hnew _ _ _

/-- The use of the graph's mutex. -/
theorem handle_disc_graph (op : Handle.Op) : Disc Mtx.graph (fun _ => False) False False (Handle.prog op) (.rd 0) := by
  cases op with
  | inl o => exact Disc.tag ((disc_prog o).mono (fun _ h => h.elim) False.elim False.elim)
  | inr o =>
    by_cases hsub : Graph.isSubGraph o
    · cases o with
      | subGraph ora u d opts =>
        exact Disc.tag (Disc.tag ((flat_subGraph ora u d opts).mono (fun _ h => h.elim) False.elim False.elim))
      | _ => exact hsub.elim
    · exact Disc.tag ((graph_disc o hsub).mono (fun _ h => h.elim) False.elim False.elim)

open Netscrape.Spec.Handle in
/-- Nodes are added and removed by the store alone: no two entities share an ID, and calls panic only for want of
IDs. -/
theorem handle_ids {d : Bool} {s : St} (h0 : Spec.Store.Start d s) {c : Cfg Mtx Graph.Loc St Handle.Op Handle.Out}
    (hr : Reach Handle.prog (fun op => NodesByStore op ∧ ¬ SelfLink op) s c) :
    ∃ G, SecInv2 Mtx.store Mtx.graph St.g Apart Leaves Grows
      (fun op r g => Panics r → Takes op ∧ Gonum.maxID ≤ g.b.ids.max) c G := by
  refine secInv2 (by decide) Leaves.refl Grows.refl Leaves.trans Grows.trans
    (fun _ _ _ _ h hg hp => ⟨(h hp).1, Int.le_trans (h hp).2 hg⟩)
    (prot := fun _ => False) (strict := False) (flat := False)
    (prot' := fun _ => False) (strict' := False) (flat' := False) ?_ ?_ ?_ (apart_start h0) hr
  · intro op h
    cases op with
    | inl o => exact Disc.tag ((one_prog o).disc.mono (fun _ h => h.elim) False.elim False.elim)
    | inr o => exact Disc.tag (((uses_graph o).disc (by decide)).mono (fun _ h => h.elim) False.elim id)
  · exact fun op _ => handle_disc_graph op
  · intro op h g _
    cases op with
    | inl o =>
      refine Ver2.bind ?_ (sound_store (A := (· = .store)) o (fun _ => rfl) h.2 g)
      rintro r _ _ ⟨rfl, g1, rfl, hr⟩
      exact ⟨rfl, g1, rfl, hr⟩
    | inr o =>
      refine Ver2.bind ?_ (sound_graph o h.1 h.2 g)
      rintro r _ _ ⟨rfl, g1, hat, hr⟩
      exact ⟨rfl, g1, hat, hr⟩

end Netscrape.Store
