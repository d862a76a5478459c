import Verif.Lemmas.Graph
import Verif.Lemmas.GraphDisc
import Verif.Lemmas.Sections

/-!
# The graph's methods keep lookup and enumeration consistent, if IDs are fixed

`P` is a pool of nodes in which equal UIDs and equal IDs go together. If `AddNode` is only given nodes
from the pool, each critical section keeps UIDs and IDs in one-to-one correspondence, with one exception:
`Link` writes the nodes it looked up before, which is harmless as long as nodes are not removed. `rem`
says whether they may be removed.
-/

namespace Netscrape.Graph
open Netscrape.Conc
open Netscrape.Gonum (Builder EdgeOrder)

/-- UIDs and IDs correspond, and the nodes are from the pool. -/
structure FixedInv (P : Node → Prop) (g : WG) : Prop where
  inv : WGInv g
  pool : ∀ k n, g.nodes.get? k = some n → P n

/-- What every section guarantees: no node disappears, unless they may be removed. -/
def Keeps (rem : Prop) (g g' : WG) : Prop :=
  ¬ rem → ∀ k n, g.nodes.get? k = some n → ∃ n', g'.nodes.get? k = some n'

theorem Keeps.refl (rem : Prop) (g : WG) : Keeps rem g g := fun _ _ n h => ⟨n, h⟩

theorem Keeps.trans (rem : Prop) (g g' g'' : WG) (h : Keeps rem g g') (h' : Keeps rem g' g'') :
    Keeps rem g g'' := by
  intro hr k n hn
  obtain ⟨n', hn'⟩ := h hr k n hn
  exact h' hr k n' hn'

/-- Storing an edge between nodes whose UIDs and IDs the graph has. -/
theorem setEdge_wgInv' {g : WG} (h : WGInv g) {b' : Builder} {e : Edge}
    (h1 : keyAt g.b e.src.id = some e.src.key) (h2 : keyAt g.b e.dst.id = some e.dst.key)
    (hs : g.b.setWeightedEdge e = some b') : WGInv { g with b := b' } := by
  have hka : ∀ j, keyAt b' j = keyAt g.b j := by
    intro j
    rw [keyAt_setWeightedEdge hs]
    split
    · rename_i hj; rw [hj, h2]
    · split
      · rename_i hj; rw [hj, h1]
      · rfl
  refine ⟨Gonum.setWeightedEdge_inv h.gonum hs, h.keyOf, ?_, ?_, ?_⟩
  · intro k n hk; rw [hka]; exact h.toID k n hk
  · intro i k hik; rw [hka] at hik; exact h.ofID i k hik
  · intro u v x hx
    simp only [hka]
    simp only at hx
    rw [Gonum.weightedEdge_set hs] at hx
    split at hx
    · rename_i huv
      cases hx
      rw [huv.1, huv.2]
      exact ⟨h1, h2⟩
    · split at hx
      · rename_i huv
        cases hx
        rw [huv.2.1, huv.2.2]
        exact ⟨h2, h1⟩
      · exact h.edgeKeys u v x hx

variable {P : Node → Prop} {rem : Prop}

theorem FixedInv.keyAt (hP : Pool P) {g : WG} (h : FixedInv P g) {n m : Node} (hm : P m)
    (hn : g.nodes.get? m.key = some n) : keyAt g.b m.id = some m.key := by
  rw [← (hP n m (h.pool _ _ hn) hm).mp (h.inv.keyOf _ _ hn)]
  exact h.inv.toID _ n hn

theorem FixedInv.addNode (hP : Pool P) {g : WG} (h : FixedInv P g) (n : Node)
    (hn : P n) (opts : List Opt) :
    FixedInv P (addNode g n opts).2 ∧ Keeps rem g (addNode g n opts).2 := by
  have hfit : Spec.Graph.Fits g n := by
    rw [fits_iff h.inv.keyOf]
    intro k m hm
    exact hP m n (h.pool k m hm) hn
  have hnodes : (Graph.addNode g n opts).2.nodes = g.nodes ∨
      ∀ k, (Graph.addNode g n opts).2.nodes.get? k = if k = n.key then some n else g.nodes.get? k := by
    unfold Graph.addNode
    split
    · split
      · split
        · exact .inl rfl
        · right; intro k; simp only [GoMap.get?_set]; split <;> rfl
      · right; intro k; simp only [GoMap.get?_set]
    · split
      · exact .inl rfl
      · right; intro k; simp only [GoMap.get?_set]
  refine ⟨⟨addNode_wgInv h.inv n opts hfit, ?_⟩, ?_⟩
  · intro k m hm
    rcases hnodes with e | e
    · rw [e] at hm; exact h.pool k m hm
    · rw [e] at hm
      split at hm
      · cases hm; exact hn
      · exact h.pool k m hm
  · intro _ k m hm
    rcases hnodes with e | e
    · rw [e]; exact ⟨m, hm⟩
    · rw [e]
      split
      · exact ⟨n, rfl⟩
      · exact ⟨m, hm⟩

theorem FixedInv.removeApply (hP : Pool P) {g : WG} (h : FixedInv P g)
    (u : Uid) (n : Node) (hn : P n) (hu : n.key = u.str) : FixedInv P (removeApply g u n) := by
  have hids : ∀ k m, (Graph.removeApply g u n).nodes.get? k = some m → P m := by
    intro k m hm
    simp only [Graph.removeApply, GoMap.get?_del] at hm
    split at hm
    · cases hm
    · exact h.pool k m hm
  cases hx : g.nodes.get? u.str with
  | some n' =>
    have e : Graph.removeApply g u n = Graph.removeApply g u n' := by
      unfold Graph.removeApply
      rw [(hP n n' hn (h.pool _ _ hx)).mp (hu.trans (h.inv.keyOf _ _ hx).symm)]
    exact ⟨e ▸ removeApply_wgInv h.inv u n' hx, hids⟩
  | none =>
    have hb : g.b.nodes.get? n.id = none := by
      cases hb : g.b.nodes.get? n.id with
      | none => rfl
      | some m =>
        obtain ⟨y, hy, hyi⟩ := h.inv.ofID n.id m.key (by simp [Graph.keyAt, hb])
        have hk : y.key = n.key := (hP y n (h.pool _ _ hy) hn).mpr hyi
        rw [← h.inv.keyOf _ _ hy, hk, hu, hx] at hy
        cases hy
    have e : Graph.removeApply g u n = g := by
      unfold Graph.removeApply
      rw [GoMap.del_of_none _ _ hx]
      have : g.b.removeNode n.id = g.b := by
        unfold Gonum.Builder.removeNode; simp [hb]
      rw [this]
    exact ⟨by rw [e]; exact h.inv, hids⟩

/-! ## The methods -/

/-- A method keeps the invariant and the guarantee. -/
abbrev GVer (P : Node → Prop) (rem : Prop) (op : COp) : Prop :=
  ∀ g, FixedInv P g → Ver () St.g (FixedInv P) (Keeps rem) (prog () op) (.out g)

theorem ver_newNode (o : Order (Int × Unit)) (e : Ent) (opts : List Opt) :
    GVer P rem (.newNode o e opts) := by
  intro g hg
  refine ⟨rfl, g, rfl, fun g1 _ hI s hs => ?_⟩
  dsimp only
  cases s.g.b.newNodeID o with
  | none => exact ⟨rfl, g1, g1, rfl, hI, .refl _ _, g1, rfl⟩
  | some id =>
    refine ⟨rfl, g1, g1, rfl, hI, .refl _ _, fun s' _ => ⟨fun _ => rfl, rfl, g1, rfl, fun g2 _ hI2 s2 _ => ?_⟩⟩
    dsimp only
    cases s2.g.nodes.get? (mkNode s'.heap id e opts).1.key with
    | none => exact ⟨rfl, g2, g2, rfl, hI2, .refl _ _, g2, rfl⟩
    | some n => exact ⟨rfl, g2, g2, rfl, hI2, .refl _ _, g2, rfl⟩

theorem ver_addNode (hP : Pool P) (n : Node) (opts : List Opt)
    (hn : P n) : GVer P rem (.addNode n opts) := by
  intro g hg
  refine ⟨rfl, g, rfl, fun g1 _ hI s hs => ?_⟩
  have hs : s.g = g1 := hs
  obtain ⟨hI', hK⟩ := hI.addNode (rem := rem) hP n hn opts
  subst hs
  unfold addNode at hI' hK
  dsimp only
  cases hb : s.g.b.node? n.id with
  | some x =>
    rw [hb] at hI' hK
    intro s1 hs1
    have hs1 : s1.g = s.g := hs1
    dsimp only
    rw [hs1]
    cases hn : s.g.nodes.get? n.key with
    | some y =>
      rw [hn] at hI' hK
      dsimp only at hI' hK ⊢
      by_cases hu : (applyAll opts).upsert = false
      · rw [if_pos hu]
        exact ⟨rfl, _, _, rfl, hI, .refl _ _, _, rfl⟩
      · rw [if_neg hu]
        simp only [hu] at hI' hK
        intro s2 hs2
        refine ⟨fun h => absurd trivial h, fun s3 hs3 => ⟨fun h => absurd trivial h, ?_⟩⟩
        have hs2 : s2.g = s.g := hs2
        have hs3 : s3.g = (setNode n s2).g := hs3
        have e : (setNode n s3).g = { s.g with nodes := (s.g.nodes.set n.key n).set n.key n } := by
          unfold setNode at hs3 ⊢; rw [hs3, hs2]
        refine ⟨rfl, s.g, (setNode n s3).g, rfl, ?_, ?_, (setNode n s3).g, rfl⟩
        · rw [e]; exact hI'
        · rw [e]; exact hK
    | none =>
      rw [hn] at hI' hK
      intro s2 hs2
      have hs2 : s2.g = s.g := hs2
      have e : (setNode n s2).g = { s.g with nodes := s.g.nodes.set n.key n } := by
        unfold setNode; rw [hs2]
      refine ⟨fun h => absurd trivial h, rfl, s.g, (setNode n s2).g, rfl, ?_, ?_, (setNode n s2).g, rfl⟩
      · rw [e]; exact hI'
      · rw [e]; exact hK
  | none =>
    rw [hb] at hI' hK
    intro s1 hs1
    have hs1 : s1.g = s.g := hs1
    refine ⟨fun h => absurd trivial h, ?_⟩
    dsimp only
    rw [hs1]
    cases ha : s.g.b.addNode n with
    | none =>
      rw [ha] at hI' hK
      dsimp only
      refine ⟨rfl, s.g, s1.g, rfl, ?_, ?_, s1.g, rfl⟩
      · rw [hs1]; exact hI
      · rw [hs1]; exact .refl _ _
    | some b =>
      rw [ha] at hI' hK
      dsimp only at hI' hK ⊢
      intro s2 hs2
      have hs2 : s2.g = { s.g with b := b } := hs2
      have e : (setNode n s2).g = { s.g with b := b, nodes := s.g.nodes.set n.key n } := by
        unfold setNode; rw [hs2]
      refine ⟨fun h => absurd trivial h, rfl, s.g, (setNode n s2).g, rfl, ?_, ?_, (setNode n s2).g, rfl⟩
      · rw [e]; exact hI'
      · rw [e]; exact hK

theorem ver_addForeign : GVer P rem .addForeign := fun g _ => ⟨g, rfl⟩

theorem ver_node (u : Uid) : GVer P rem (.node u) := by
  intro g hg
  refine ⟨rfl, .inl ⟨g, rfl, fun g1 _ hI s hs => ?_⟩⟩
  dsimp only
  cases s.g.nodes.get? u.str with
  | none => exact ⟨rfl, .inl ⟨g1, rfl, g1, rfl⟩⟩
  | some n => exact ⟨rfl, .inl ⟨g1, rfl, g1, rfl⟩⟩

theorem ver_nodes (o : Order (Int × Node)) : GVer P rem (.nodes o) :=
  fun g _ => ⟨rfl, .inl ⟨g, rfl, fun g1 _ _ _ _ => ⟨rfl, .inl ⟨g1, rfl, g1, rfl⟩⟩⟩⟩

theorem ver_edges (o : EdgeOrder) : GVer P rem (.edges o) :=
  fun g _ => ⟨rfl, .inl ⟨g, rfl, fun g1 _ _ _ _ => ⟨rfl, .inl ⟨g1, rfl, g1, rfl⟩⟩⟩⟩

theorem ver_from (o : Order (Int × Edge)) (u : Uid) : GVer P rem (.from' o u) := by
  intro g hg
  refine ⟨rfl, .inl ⟨g, rfl, fun g1 _ hI s hs => ?_⟩⟩
  dsimp only
  cases s.g.nodes.get? u.str with
  | none => exact ⟨rfl, .inl ⟨g1, rfl, g1, rfl⟩⟩
  | some n => exact fun s _ => ⟨rfl, .inl ⟨g1, rfl, g1, rfl⟩⟩

theorem ver_edge (u v : Uid) : GVer P rem (.edge u v) := by
  intro g hg
  refine ⟨rfl, .inl ⟨g, rfl, fun g1 _ hI s hs => ?_⟩⟩
  dsimp only
  cases s.g.nodes.get? u.str with
  | none => exact ⟨rfl, .inl ⟨g1, rfl, g1, rfl⟩⟩
  | some f =>
    intro s' _
    dsimp only
    cases s'.g.nodes.get? v.str with
    | none => exact ⟨rfl, .inl ⟨g1, rfl, g1, rfl⟩⟩
    | some t =>
      intro s2 _
      dsimp only
      cases s2.g.b.weightedEdge f.id t.id with
      | none => exact ⟨rfl, .inl ⟨g1, rfl, g1, rfl⟩⟩
      | some e => exact ⟨rfl, .inl ⟨g1, rfl, g1, rfl⟩⟩

theorem ver_removeNode (hP : Pool P) (hrem : rem) (u : Uid) :
    GVer P rem (.removeNode u) := by
  intro g hg
  refine ⟨rfl, .inl ⟨g, rfl, fun g1 _ hI s hs => ?_⟩⟩
  have hs : s.g = g1 := hs
  dsimp only
  cases hn : s.g.nodes.get? u.str with
  | none => exact ⟨rfl, .inl ⟨g1, rfl, g1, rfl⟩⟩
  | some n =>
    rw [hs] at hn
    refine ⟨rfl, .inl ⟨g1, rfl, rfl, g1, rfl, fun g2 _ hI2 s1 hs1 => ⟨fun h => absurd trivial h, fun s2 hs2 =>
      ⟨fun h => absurd trivial h, rfl, g2, _, rfl, ?_, fun h => absurd hrem h, _, rfl⟩⟩⟩⟩
    have hs1 : s1.g = g2 := hs1
    have hs2 : s2.g = { s1.g with b := s1.g.b.removeNode n.id } := hs2
    have := hI2.removeApply hP u n (hI.pool _ _ hn) (hI.inv.keyOf _ _ hn)
    unfold removeApply at this
    dsimp only
    rw [hs2, hs1]
    exact this

theorem ver_unlink (f t : Uid) : GVer P rem (.unlink f t) := by
  intro g hg
  refine ⟨rfl, .inl ⟨g, rfl, fun g1 _ hI s hs => ?_⟩⟩
  dsimp only
  cases hn : s.g.nodes.get? f.str with
  | none => exact ⟨rfl, .inl ⟨g1, rfl, g1, rfl⟩⟩
  | some x =>
    intro s1 hs1
    dsimp only
    cases hn' : s1.g.nodes.get? t.str with
    | none => exact ⟨rfl, .inl ⟨g1, rfl, g1, rfl⟩⟩
    | some y =>
      refine ⟨rfl, .inl ⟨g1, rfl, rfl, g1, rfl, fun g2 _ hI2 s2 hs2 => ⟨fun h => absurd trivial h,
        rfl, g2, _, rfl, ?_, ?_, _, rfl⟩⟩⟩
      · have hs2 : s2.g = g2 := hs2
        dsimp only
        rw [hs2]
        exact ⟨unlinkApply_wgInv hI2.inv x y, hI2.pool⟩
      · have hs2 : s2.g = g2 := hs2
        dsimp only
        rw [hs2]
        exact .refl rem _

theorem ver_link (hP : Pool P) (hrem : ¬ rem) (fresh : Uid) (a : Nat) (f t : Uid) (opts : List Opt) :
    GVer P rem (.link fresh a f t opts) := by
  have happly : ∀ (g1 : WG), FixedInv P g1 → ∀ x y, g1.nodes.get? f.str = some x →
      g1.nodes.get? t.str = some y → Ver () St.g (FixedInv P) (Keeps rem)
        ((linkApplyP () fresh a x y opts).bind fun r => .ret (COut.edge r)) (.out g1) := by
    intro g1 hI1 x y hx hy
    refine ⟨rfl, g1, rfl, fun g2 hK hI2 s hs => ⟨fun _ => rfl, fun s1 hs1 => ⟨fun h => absurd trivial h, ?_⟩⟩⟩
    have hs1 : s1.g = s.g := hs1
    have hs : s.g = g2 := hs
    have hend : ∀ z : St, z.g = (match s1.g.b.setWeightedEdge (mkEdge s.heap fresh a x y opts).1 with
        | none => s1
        | some b => ⟨s1.heap, { s1.g with b := b }⟩ : St).g → FixedInv P z.g ∧ Keeps rem g2 z.g := by
      intro z hz
      cases hb : s1.g.b.setWeightedEdge (mkEdge s.heap fresh a x y opts).1 with
      | none =>
        rw [hb] at hz
        have : z.g = g2 := hz.trans (hs1.trans hs)
        rw [this]; exact ⟨hI2, .refl _ _⟩
      | some b =>
        rw [hb] at hz
        have e : z.g = { g2 with b := b } := by rw [hz]; dsimp only; rw [hs1, hs]
        rw [hs1, hs] at hb
        rw [e]
        refine ⟨⟨setEdge_wgInv' hI2.inv ?_ ?_ hb, hI2.pool⟩, .refl rem g2⟩
        · obtain ⟨x', hx'⟩ := hK hrem _ _ hx
          exact hI2.keyAt (m := x) hP (hI1.pool _ _ hx) (by rw [hI1.inv.keyOf _ _ hx]; exact hx')
        · obtain ⟨y', hy'⟩ := hK hrem _ _ hy
          exact hI2.keyAt (m := y) hP (hI1.pool _ _ hy) (by rw [hI1.inv.keyOf _ _ hy]; exact hy')
    dsimp only
    cases hb : s1.g.b.setWeightedEdge (mkEdge s.heap fresh a x y opts).1 with
    | none =>
      obtain ⟨h1, h2⟩ := hend s1 (by rw [hb])
      exact ⟨rfl, g2, _, rfl, h1, h2, _, rfl⟩
    | some b =>
      obtain ⟨h1, h2⟩ := hend ⟨s1.heap, { s1.g with b := b }⟩ (by rw [hb])
      exact ⟨rfl, g2, _, rfl, h1, h2, _, rfl⟩
  intro g hg
  refine ⟨rfl, .inl ⟨g, rfl, fun g1 _ hI => ⟨rfl, .inr ⟨0, g1, rfl, fun s hs => ?_⟩⟩⟩⟩
  dsimp only
  cases s.g.nodes.get? f.str with
  | none => exact ⟨rfl, .inr ⟨0, g1, rfl, rfl, .inl ⟨g1, rfl, g1, rfl⟩⟩⟩
  | some _ =>
    intro s' _
    dsimp only
    cases s'.g.nodes.get? t.str with
    | none => exact ⟨rfl, .inr ⟨0, g1, rfl, rfl, .inl ⟨g1, rfl, g1, rfl⟩⟩⟩
    | some _ =>
      intro s2 _
      dsimp only
      cases s2.g.b.weightedEdge _ _ with
      | some e => exact ⟨rfl, .inr ⟨0, g1, rfl, rfl, .inl ⟨g1, rfl, g1, rfl⟩⟩⟩
      | none =>
        refine ⟨rfl, .inr ⟨0, g1, rfl, fun s3 hs3 => ?_⟩⟩
        have hs3 : s3.g = g1 := hs3
        dsimp only
        rw [hs3]
        cases hx : g1.nodes.get? f.str with
        | none => exact ⟨rfl, .inl ⟨g1, rfl, g1, rfl⟩⟩
        | some x =>
          intro s4 hs4
          have hs4 : s4.g = g1 := hs4
          dsimp only
          rw [hs4]
          cases hy : g1.nodes.get? t.str with
          | none => exact ⟨rfl, .inl ⟨g1, rfl, g1, rfl⟩⟩
          | some y => exact ⟨rfl, .inl ⟨g1, rfl, happly g1 hI x y hx hy⟩⟩

/-- The loops of `SubGraph` only read and allocate, outside any section. -/
theorem ver_linkPeers (ora : SubOracle) (sgNodes : GoMap Int Node) (id : Int) (x : Node)
    {Inv : WG → Prop} {R : WG → WG → Prop} {g : WG} : ∀ (ps : List Node) (sg : WG)
    (k : WG → GProg Unit (Res Err WG)),
    (∀ sg', Ver () St.g Inv R ((k sg').bind fun r => .ret (COut.graph r)) (.out g)) →
    Ver () St.g Inv R ((linkPeersP ora sgNodes id x ps sg k).bind fun r => .ret (COut.graph r)) (.out g) := by
  intro ps
  induction ps with
  | nil => intro sg k hk; exact hk sg
  | cons p ps ih =>
    intro sg k hk
    unfold linkPeersP
    cases sgNodes.get? p.id with
    | none => exact ih sg k hk
    | some to =>
      intro s _ s' _
      refine ⟨fun _ => rfl, ?_⟩
      dsimp only
      cases (linkAll ora x.uid to.uid (s.g.b.weightedEdges (ora.edges id p.id)) sg s'.heap).1 with
      | ok sg' => exact ih sg' k hk
      | err e => exact ⟨g, rfl⟩
      | panic => exact ⟨g, rfl⟩

theorem ver_linkNodes (ora : SubOracle) (sgNodes : GoMap Int Node) {Inv : WG → Prop} {R : WG → WG → Prop}
    {g : WG} : ∀ (l : List (Int × Node)) (sg : WG),
    Ver () St.g Inv R ((linkNodesP ora sgNodes l sg).bind fun r => .ret (COut.graph r)) (.out g) := by
  intro l
  induction l with
  | nil => intro sg; exact ⟨g, rfl⟩
  | cons p l ih =>
    intro sg s _
    exact ver_linkPeers ora sgNodes p.1 p.2 _ sg _ ih

theorem ver_subGraph (ora : SubOracle) (u : Uid) (d : Int) (opts : List Opt) :
    GVer P rem (.subGraph ora u d opts) := by
  intro g hg
  refine ⟨rfl, .inl ⟨g, rfl, fun g1 _ hI s hs => ?_⟩⟩
  dsimp only
  cases s.g.nodes.get? u.str with
  | none => exact ⟨rfl, .inl ⟨g1, rfl, g1, rfl⟩⟩
  | some root =>
    refine ⟨rfl, .inl ⟨g1, rfl, rfl, .inl ⟨g1, rfl, fun g2 _ hI2 s2 _ => ⟨rfl, .inl ⟨g2, rfl, ?_⟩⟩⟩⟩⟩
    generalize Gonum.Bfs.walk s2.g.b ora.bfs collect (fun _ x => x == d) root
      ⟨new true ora.graphUid opts, GoMap.empty, none⟩ = w
    cases w with
    | none => exact ⟨g2, rfl⟩
    | some w =>
      dsimp only
      cases w.acc.err with
      | some e => exact ⟨g2, rfl⟩
      | none => exact ver_linkNodes ora _ _ _

theorem gver (hP : Pool P) (op : COp) (h : Fixed P rem op) :
    GVer P rem op := by
  cases op with
  | newNode o e opts => exact ver_newNode o e opts
  | addNode n opts => exact ver_addNode hP n opts h
  | addForeign => exact ver_addForeign
  | node u => exact ver_node u
  | nodes o => exact ver_nodes o
  | removeNode u => exact ver_removeNode hP h u
  | link fresh a f t opts => exact ver_link hP h fresh a f t opts
  | edge u v => exact ver_edge u v
  | edges o => exact ver_edges o
  | from' o u => exact ver_from o u
  | unlink f t => exact ver_unlink f t
  | subGraph ora u d opts => exact ver_subGraph ora u d opts
  | dot => exact absurd h id

/-- Whenever nobody has the write lock, UIDs and IDs correspond. -/
theorem fixedInv (hP : Pool P) {s : St} (h0 : FixedInv P s.g)
    {c : Cfg Unit Loc St COp COut} (hr : Reach (prog ()) (Fixed P rem) s c)
    (hfree : (c.mus ()).wr ≠ .held) : FixedInv P c.data.g :=
  sections (π := St.g) (Keeps.refl rem) (Keeps.trans rem)
    (fun op h => disc_strict op (by cases op <;> first | exact id | exact fun _ => h))
    (fun op h => gver hP op h) h0 hr hfree

end Netscrape.Graph
