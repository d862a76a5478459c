import Verif.Lemmas.GraphSections

/-!
# Invariants that every critical section of the graph keeps, whatever happened in between
-/

namespace Netscrape.Graph
open Netscrape.Conc
open Netscrape.Gonum (Builder EdgeOrder)

/-- Each writing section keeps `Inv`, also when it acts on nodes that were looked up in an earlier state `g₀`. -/
structure Kept (Inv : WG → Prop) (allowed : COp → Prop) : Prop where
  add : ∀ g n opts, allowed (.addNode n opts) → Inv g → Inv (addNode g n opts).2
  remove : ∀ g₀ g u n, Inv g₀ → g₀.nodes.get? u = some n → Inv g → Inv { g with b := g.b.removeNode n.id, nodes := g.nodes.del u }
  unlink : ∀ g f t, Inv g → Inv { g with b := g.b.removeEdge f t }
  link : ∀ g₀ g u v x y b e, Inv g₀ → g₀.nodes.get? u = some x → g₀.nodes.get? v = some y → Inv g → e.src = x → e.dst = y →
    g.b.setWeightedEdge e = some b → Inv { g with b := b }

variable {Inv : WG → Prop} {allowed : COp → Prop}

abbrev Any2 (_ _ : WG) : Prop := True

abbrev MVer (Inv : WG → Prop) (op : COp) : Prop :=
  ∀ g, Inv g → Ver () St.g Inv Any2 (prog () op) (.out g)

theorem Kept.addNode (hk : Kept Inv allowed) (n : Node) (opts : List Opt) (ha : allowed (.addNode n opts)) :
    MVer Inv (.addNode n opts) := by
  intro g hg
  refine ⟨rfl, g, rfl, fun g1 _ hI s hs => ?_⟩
  have hs : s.g = g1 := hs
  have hI' := hk.add g1 n opts ha hI
  subst hs
  unfold Graph.addNode at hI'
  dsimp only
  cases hb : s.g.b.node? n.id with
  | some x =>
    rw [hb] at hI'
    intro s1 hs1
    have hs1 : s1.g = s.g := hs1
    dsimp only
    rw [hs1]
    cases hn : s.g.nodes.get? n.key with
    | some y =>
      rw [hn] at hI'
      dsimp only at hI' ⊢
      by_cases hu : (applyAll opts).upsert = false
      · rw [if_pos hu]
        exact ⟨rfl, _, _, rfl, hI, trivial, _, rfl⟩
      · rw [if_neg hu]
        simp only [hu] at hI'
        intro s2 hs2
        refine ⟨fun h => absurd trivial h, fun s3 hs3 => ⟨fun h => absurd trivial h, ?_⟩⟩
        have hs2 : s2.g = s.g := hs2
        have hs3 : s3.g = (setNode n s2).g := hs3
        have e : (setNode n s3).g = { s.g with nodes := (s.g.nodes.set n.key n).set n.key n } := by
          unfold setNode at hs3 ⊢; rw [hs3, hs2]
        refine ⟨rfl, s.g, (setNode n s3).g, rfl, ?_, trivial, (setNode n s3).g, rfl⟩
        rw [e]; exact hI'
    | none =>
      rw [hn] at hI'
      intro s2 hs2
      have hs2 : s2.g = s.g := hs2
      have e : (setNode n s2).g = { s.g with nodes := s.g.nodes.set n.key n } := by
        unfold setNode; rw [hs2]
      refine ⟨fun h => absurd trivial h, rfl, s.g, (setNode n s2).g, rfl, ?_, trivial, (setNode n s2).g, rfl⟩
      rw [e]; exact hI'
  | none =>
    rw [hb] at hI'
    intro s1 hs1
    have hs1 : s1.g = s.g := hs1
    refine ⟨fun h => absurd trivial h, ?_⟩
    dsimp only
    rw [hs1]
    cases ha : s.g.b.addNode n with
    | none =>
      rw [ha] at hI'
      dsimp only
      refine ⟨rfl, s.g, s1.g, rfl, ?_, trivial, s1.g, rfl⟩
      rw [hs1]; exact hI
    | some b =>
      rw [ha] at hI'
      dsimp only at hI' ⊢
      intro s2 hs2
      have hs2 : s2.g = { s.g with b := b } := hs2
      have e : (setNode n s2).g = { s.g with b := b, nodes := s.g.nodes.set n.key n } := by
        unfold setNode; rw [hs2]
      refine ⟨fun h => absurd trivial h, rfl, s.g, (setNode n s2).g, rfl, ?_, trivial, (setNode n s2).g, rfl⟩
      rw [e]; exact hI'

theorem Kept.removeNode (hk : Kept Inv allowed) (u : Uid) : MVer Inv (.removeNode u) := by
  intro g hg
  refine ⟨rfl, .inl ⟨g, rfl, fun g1 _ hI s hs => ?_⟩⟩
  have hs : s.g = g1 := hs
  dsimp only
  cases hn : s.g.nodes.get? u.str with
  | none => exact ⟨rfl, .inl ⟨g1, rfl, g1, rfl⟩⟩
  | some n =>
    rw [hs] at hn
    refine ⟨rfl, .inl ⟨g1, rfl, rfl, g1, rfl, fun g2 _ hI2 s1 hs1 => ⟨fun h => absurd trivial h, fun s2 hs2 =>
      ⟨fun h => absurd trivial h, rfl, g2, _, rfl, ?_, trivial, _, rfl⟩⟩⟩⟩
    have hs1 : s1.g = g2 := hs1
    have hs2 : s2.g = { s1.g with b := s1.g.b.removeNode n.id } := hs2
    dsimp only
    rw [hs2, hs1]
    exact hk.remove g1 g2 u.str n hI hn hI2

theorem Kept.unlinkV (hk : Kept Inv allowed) (f t : Uid) : MVer Inv (.unlink f t) := by
  intro g hg
  refine ⟨rfl, .inl ⟨g, rfl, fun g1 _ hI s hs => ?_⟩⟩
  dsimp only
  cases hn : s.g.nodes.get? f.str with
  | none => exact ⟨rfl, .inl ⟨g1, rfl, g1, rfl⟩⟩
  | some x =>
    intro s1 hs1
    dsimp only
    cases hn' : s1.g.nodes.get? t.str with
    | none => exact ⟨rfl, .inl ⟨g1, rfl, g1, rfl⟩⟩
    | some y =>
      refine ⟨rfl, .inl ⟨g1, rfl, rfl, g1, rfl, fun g2 _ hI2 s2 hs2 => ⟨fun h => absurd trivial h,
        rfl, g2, _, rfl, ?_, trivial, _, rfl⟩⟩⟩
      have hs2 : s2.g = g2 := hs2
      dsimp only
      rw [hs2]
      exact hk.unlink g2 x.id y.id hI2

theorem Kept.linkV (hk : Kept Inv allowed) (fresh : Uid) (a : Nat) (f t : Uid) (opts : List Opt) :
    MVer Inv (.link fresh a f t opts) := by
  have happly : ∀ (g1 : WG), Inv g1 → ∀ x y, g1.nodes.get? f.str = some x →
      g1.nodes.get? t.str = some y → Ver () St.g Inv Any2
        ((linkApplyP () fresh a x y opts).bind fun r => .ret (COut.edge r)) (.out g1) := by
    intro g1 hI1 x y hx hy
    refine ⟨rfl, g1, rfl, fun g2 _ hI2 s hs => ⟨fun _ => rfl, fun s1 hs1 => ⟨fun h => absurd trivial h, ?_⟩⟩⟩
    have hs1 : s1.g = s.g := hs1
    have hs : s.g = g2 := hs
    dsimp only
    cases hb : s1.g.b.setWeightedEdge (mkEdge s.heap fresh a x y opts).1 with
    | none =>
      refine ⟨rfl, g2, _, rfl, ?_, trivial, _, rfl⟩
      dsimp only
      rw [hs1, hs]
      exact hI2
    | some b =>
      refine ⟨rfl, g2, _, rfl, ?_, trivial, _, rfl⟩
      rw [hs1, hs] at hb
      dsimp only
      rw [hs1, hs]
      exact hk.link g1 g2 f.str t.str x y b _ hI1 hx hy hI2 rfl rfl hb
  intro g hg
  refine ⟨rfl, .inl ⟨g, rfl, fun g1 _ hI => ⟨rfl, .inr ⟨0, g1, rfl, fun s hs => ?_⟩⟩⟩⟩
  dsimp only
  cases s.g.nodes.get? f.str with
  | none => exact ⟨rfl, .inr ⟨0, g1, rfl, rfl, .inl ⟨g1, rfl, g1, rfl⟩⟩⟩
  | some _ =>
    intro s' _
    dsimp only
    cases s'.g.nodes.get? t.str with
    | none => exact ⟨rfl, .inr ⟨0, g1, rfl, rfl, .inl ⟨g1, rfl, g1, rfl⟩⟩⟩
    | some _ =>
      intro s2 _
      dsimp only
      cases s2.g.b.weightedEdge _ _ with
      | some e => exact ⟨rfl, .inr ⟨0, g1, rfl, rfl, .inl ⟨g1, rfl, g1, rfl⟩⟩⟩
      | none =>
        refine ⟨rfl, .inr ⟨0, g1, rfl, fun s3 hs3 => ?_⟩⟩
        have hs3 : s3.g = g1 := hs3
        dsimp only
        rw [hs3]
        cases hx : g1.nodes.get? f.str with
        | none => exact ⟨rfl, .inl ⟨g1, rfl, g1, rfl⟩⟩
        | some x =>
          intro s4 hs4
          have hs4 : s4.g = g1 := hs4
          dsimp only
          rw [hs4]
          cases hy : g1.nodes.get? t.str with
          | none => exact ⟨rfl, .inl ⟨g1, rfl, g1, rfl⟩⟩
          | some y => exact ⟨rfl, .inl ⟨g1, rfl, happly g1 hI x y hx hy⟩⟩

theorem Kept.ver (hk : Kept Inv allowed) (op : COp) (h : allowed op) (hd : ¬ isDot op) : MVer Inv op := by
  cases op with
  | newNode o e opts =>
    intro g hg
    refine ⟨rfl, g, rfl, fun g1 _ hI s hs => ?_⟩
    dsimp only
    cases s.g.b.newNodeID o with
    | none => exact ⟨rfl, g1, g1, rfl, hI, trivial, g1, rfl⟩
    | some id =>
      refine ⟨rfl, g1, g1, rfl, hI, trivial, fun s' _ => ⟨fun _ => rfl, rfl, g1, rfl, fun g2 _ hI2 s2 _ => ?_⟩⟩
      dsimp only
      cases s2.g.nodes.get? (mkNode s'.heap id e opts).1.key with
      | none => exact ⟨rfl, g2, g2, rfl, hI2, trivial, g2, rfl⟩
      | some n => exact ⟨rfl, g2, g2, rfl, hI2, trivial, g2, rfl⟩
  | addNode n opts => exact hk.addNode n opts h
  | addForeign => exact fun g _ => ⟨g, rfl⟩
  | node u =>
    intro g hg
    refine ⟨rfl, .inl ⟨g, rfl, fun g1 _ hI s hs => ?_⟩⟩
    dsimp only
    cases s.g.nodes.get? u.str with
    | none => exact ⟨rfl, .inl ⟨g1, rfl, g1, rfl⟩⟩
    | some n => exact ⟨rfl, .inl ⟨g1, rfl, g1, rfl⟩⟩
  | nodes o => exact fun g _ => ⟨rfl, .inl ⟨g, rfl, fun g1 _ _ _ _ => ⟨rfl, .inl ⟨g1, rfl, g1, rfl⟩⟩⟩⟩
  | removeNode u => exact hk.removeNode u
  | link fresh a f t opts => exact hk.linkV fresh a f t opts
  | edge u v =>
    intro g hg
    refine ⟨rfl, .inl ⟨g, rfl, fun g1 _ hI s hs => ?_⟩⟩
    dsimp only
    cases s.g.nodes.get? u.str with
    | none => exact ⟨rfl, .inl ⟨g1, rfl, g1, rfl⟩⟩
    | some f =>
      intro s' _
      dsimp only
      cases s'.g.nodes.get? v.str with
      | none => exact ⟨rfl, .inl ⟨g1, rfl, g1, rfl⟩⟩
      | some t =>
        intro s2 _
        dsimp only
        cases s2.g.b.weightedEdge f.id t.id with
        | none => exact ⟨rfl, .inl ⟨g1, rfl, g1, rfl⟩⟩
        | some e => exact ⟨rfl, .inl ⟨g1, rfl, g1, rfl⟩⟩
  | edges o => exact fun g _ => ⟨rfl, .inl ⟨g, rfl, fun g1 _ _ _ _ => ⟨rfl, .inl ⟨g1, rfl, g1, rfl⟩⟩⟩⟩
  | from' o u =>
    intro g hg
    refine ⟨rfl, .inl ⟨g, rfl, fun g1 _ hI s hs => ?_⟩⟩
    dsimp only
    cases s.g.nodes.get? u.str with
    | none => exact ⟨rfl, .inl ⟨g1, rfl, g1, rfl⟩⟩
    | some n => exact fun s _ => ⟨rfl, .inl ⟨g1, rfl, g1, rfl⟩⟩
  | unlink f t => exact hk.unlinkV f t
  | subGraph ora u d opts =>
    intro g hg
    refine ⟨rfl, .inl ⟨g, rfl, fun g1 _ hI s hs => ?_⟩⟩
    dsimp only
    cases s.g.nodes.get? u.str with
    | none => exact ⟨rfl, .inl ⟨g1, rfl, g1, rfl⟩⟩
    | some root =>
      refine ⟨rfl, .inl ⟨g1, rfl, rfl, .inl ⟨g1, rfl, fun g2 _ hI2 s2 _ => ⟨rfl, .inl ⟨g2, rfl, ?_⟩⟩⟩⟩⟩
      generalize Gonum.Bfs.walk s2.g.b ora.bfs collect (fun _ x => x == d) root
        ⟨new true ora.graphUid opts, GoMap.empty, none⟩ = w
      cases w with
      | none => exact ⟨g2, rfl⟩
      | some w =>
        dsimp only
        cases w.acc.err with
        | some e => exact ⟨g2, rfl⟩
        | none => exact ver_linkNodes ora _ _ _
  | dot => exact absurd trivial hd

/-- Whenever nobody has the write lock, the invariant holds. -/
theorem Kept.inv (hk : Kept Inv allowed) {ops : COp → Prop} (hops : ∀ op, ops op → allowed op ∧ ¬ isDot op) {s : St}
    (h0 : Inv s.g) {c : Cfg Unit Loc St COp COut}
    (hr : Reach (prog ()) ops s c) (hfree : (c.mus ()).wr ≠ .held) : Inv c.data.g :=
  sections (π := St.g) (R := Any2) (fun _ => trivial) (fun _ _ _ _ _ => trivial)
    (fun op h => disc_strict op (hops op h).2) (fun op h => hk.ver op (hops op h).1 (hops op h).2) h0 hr hfree

/-! ## The gonum graph -/

theorem kept_gonum : Kept (fun g => Gonum.Inv g.b) (fun _ => True) := by
  refine ⟨?_, ?_, ?_, ?_⟩
  · intro g n _ _ h
    unfold Graph.addNode
    split
    · split
      · split <;> exact h
      · exact h
    · split
      · exact h
      · rename_i ha; exact Gonum.addNode_inv h ha
  · intro _ g _ n _ _ h; exact Gonum.removeNode_inv h n.id
  · intro g f t h; exact Gonum.removeEdge_inv h f t
  · intro _ g _ _ _ _ b e _ _ _ h _ _ hs; exact Gonum.setWeightedEdge_inv h hs

/-! ## Nodes from a pool -/

/-- Every node that is found is enumerated (with its ID), and all nodes are from the pool. -/
structure Pooled (P : Node → Prop) (g : WG) : Prop where
  gonum : Gonum.Inv g.b
  keyOf : ∀ k n, g.nodes.get? k = some n → n.key = k
  pool : ∀ k n, g.nodes.get? k = some n → P n
  listed : ∀ k n, g.nodes.get? k = some n → ∃ m, g.b.nodes.get? n.id = some m
  bpool : ∀ i m, g.b.nodes.get? i = some m → P m

theorem pooled_new (P : Node → Prop) (d : Bool) (fresh : Uid) (opts : List Opt) : Pooled P (new d fresh opts) := by
  refine ⟨gonumInv_new d fresh opts, ?_, ?_, ?_, ?_⟩ <;> intro k n hk
  · simp [new, newWG] at hk
  · simp [new, newWG] at hk
  · simp [new, newWG] at hk
  · unfold new newWG at hk
    cases d <;> simp [Gonum.newUndirected, Gonum.newDirected] at hk

theorem kept_pooled {P : Node → Prop} (hP : Pool P) : Kept (Pooled P) (fun op => match op with | .addNode n _ => P n | _ => True) := by
  refine ⟨?_, ?_, ?_, ?_⟩
  · intro g n opts hn h
    have hn : P n := hn
    have setOK : ∀ (b : Builder) (ns : GoMap String Node), Gonum.Inv b →
        (∀ k, ns.get? k = if k = n.key then some n else g.nodes.get? k) →
        (∃ m, b.nodes.get? n.id = some m) → (∀ i m, g.b.nodes.get? i = some m → ∃ m, b.nodes.get? i = some m) →
        (∀ i m, b.nodes.get? i = some m → P m) → Pooled P { g with b := b, nodes := ns } := by
      intro b ns h1 h2 h3 h4 h5
      refine ⟨h1, ?_, ?_, ?_, h5⟩ <;> intro k m hm <;> (have hm : ns.get? k = some m := hm) <;> rw [h2] at hm <;> split at hm
      · next e => cases hm; exact e.symm
      · exact h.keyOf k m hm
      · cases hm; exact hn
      · exact h.pool k m hm
      · cases hm; exact h3
      · obtain ⟨m', hm'⟩ := h.listed k m hm
        exact h4 _ _ hm'
    unfold Graph.addNode Gonum.Builder.node?
    cases hb : g.b.nodes.get? n.id with
    | some m =>
      dsimp only
      cases hx : g.nodes.get? n.key with
      | some y =>
        dsimp only
        split
        · exact h
        · refine setOK g.b _ h.gonum (fun k => ?_) ⟨m, hb⟩ (fun i m h => ⟨m, h⟩) h.bpool
          simp only [GoMap.get?_set]; split <;> rfl
      | none =>
        refine setOK g.b _ h.gonum (fun k => ?_) ⟨m, hb⟩ (fun i m h => ⟨m, h⟩) h.bpool
        simp only [GoMap.get?_set]
    | none =>
      dsimp only
      cases ha : g.b.addNode n with
      | none => exact h
      | some b' =>
        have hbn := (Gonum.addNode_eq ha).1
        refine setOK b' _ (Gonum.addNode_inv h.gonum ha) (fun k => ?_) ?_ ?_ ?_
        · simp only [GoMap.get?_set]
        · exact ⟨n, by rw [hbn]; simp only [GoMap.get?_set, if_true]⟩
        · intro i m hm
          rw [hbn]
          simp only [GoMap.get?_set]
          split
          · exact ⟨n, rfl⟩
          · exact ⟨m, hm⟩
        · intro i m hm
          rw [hbn] at hm
          simp only [GoMap.get?_set] at hm
          split at hm
          · cases hm; exact hn
          · exact h.bpool i m hm
  · intro g₀ g u n h0 hn h
    have hnP := h0.pool u n hn
    have hnk := h0.keyOf u n hn
    have del : ∀ k m, (g.nodes.del u).get? k = some m → k ≠ u ∧ g.nodes.get? k = some m := by
      intro k m hm
      simp only [GoMap.get?_del] at hm
      split at hm
      · cases hm
      · next e => exact ⟨e, hm⟩
    refine ⟨Gonum.removeNode_inv h.gonum n.id, ?_, ?_, ?_, ?_⟩
    · intro k m hm; exact h.keyOf k m (del k m hm).2
    · intro k m hm; exact h.pool k m (del k m hm).2
    · intro k m hm
      obtain ⟨hne, hm⟩ := del k m hm
      obtain ⟨m', hm'⟩ := h.listed k m hm
      refine ⟨m', ?_⟩
      show (g.b.removeNode n.id).nodes.get? m.id = some m'
      rw [Gonum.removeNode_nodes, if_neg]
      · exact hm'
      · intro e
        apply hne
        have hk : m.key = n.key := (hP m n (h.pool k m hm) hnP).mpr e
        rw [← h.keyOf k m hm, hk, hnk]
    · intro i m hm
      have hm : (g.b.removeNode n.id).nodes.get? i = some m := hm
      rw [Gonum.removeNode_nodes] at hm
      split at hm
      · cases hm
      · exact h.bpool i m hm
  · intro g f t h
    refine ⟨Gonum.removeEdge_inv h.gonum f t, h.keyOf, h.pool, ?_, ?_⟩
    · intro k n hn
      show ∃ m, (g.b.removeEdge f t).nodes.get? n.id = some m
      rw [Gonum.removeEdge_nodes]
      exact h.listed k n hn
    · intro i m hm
      have hm : (g.b.removeEdge f t).nodes.get? i = some m := hm
      rw [Gonum.removeEdge_nodes] at hm
      exact h.bpool i m hm
  · intro g₀ g u v x y b e h0 hx hy h hsrc hdst hs
    have hnodes : ∀ i, b.nodes.get? i = if i = y.id then some y else if i = x.id then some x else g.b.nodes.get? i := by
      intro i
      unfold Builder.setWeightedEdge at hs
      split at hs
      · cases hs
      · simp only [Option.some.injEq] at hs
        rw [← hs]
        simp only [Gonum.touch_nodes, GoMap.get?_set, hsrc, hdst]
    refine ⟨Gonum.setWeightedEdge_inv h.gonum hs, h.keyOf, h.pool, ?_, ?_⟩
    · intro k n hn
      show ∃ m, b.nodes.get? n.id = some m
      rw [hnodes]
      split
      · exact ⟨y, rfl⟩
      · split
        · exact ⟨x, rfl⟩
        · exact h.listed k n hn
    · intro i m hm
      have hm : b.nodes.get? i = some m := hm
      rw [hnodes] at hm
      split at hm
      · cases hm; exact h0.pool v _ hy
      · split at hm
        · cases hm; exact h0.pool u _ hx
        · exact h.bpool i m hm

end Netscrape.Graph
