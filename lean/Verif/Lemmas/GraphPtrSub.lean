import Verif.Model.GraphPtrSub
import Verif.Lemmas.GraphPtrDot

/-!
# What objects a sub graph is made of
-/

namespace Netscrape.GraphPtr
open Netscrape.Spec.GraphPtr
open Netscrape.Graph (Opt Err applyAll mkEdge mkNode)

/-- Memory `m` has the nodes of `m₀` and its edges, and perhaps more edges. -/
structure MoreEdges (m₀ m : Mem) : Prop where
  nodes : m.nodes = m₀.nodes
  edges : ∃ l, m.edges = m₀.edges ++ l

theorem MoreEdges.refl (m : Mem) : MoreEdges m m := ⟨rfl, [], by simp⟩

theorem MoreEdges.trans {a b c : Mem} (h : MoreEdges a b) (h' : MoreEdges b c) : MoreEdges a c := by
  obtain ⟨h1, l, h2⟩ := h
  obtain ⟨h3, l', h4⟩ := h'
  exact ⟨h3.trans h1, l ++ l', by rw [h4, h2, List.append_assoc]⟩

theorem MoreEdges.grows {a b : Mem} (h : MoreEdges a b) : Grows a b := ⟨⟨[], by simp [h.nodes]⟩, h.edges⟩

theorem MoreEdges.node {a b : Mem} (h : MoreEdges a b) (p : NPtr) : b.node p = a.node p := by
  unfold Mem.node; rw [h.nodes]

theorem MoreEdges.id {a b : Mem} (h : MoreEdges a b) (p : NPtr) : b.id p = a.id p := by
  unfold Mem.id; rw [h.node]

theorem MoreEdges.key {a b : Mem} (h : MoreEdges a b) (p : NPtr) : b.key p = a.key p := by
  unfold Mem.key; rw [h.node]

/-- Nodes of a sub graph being built come from `S`; its edges are new objects between such nodes. -/
structure Part (S : NPtr → Prop) (m₀ m : Mem) (sg : WG) : Prop where
  more : MoreEdges m₀ m
  nodes : ∀ k p, sg.nodes.get? k = some p → S p ∧ m₀.key p = k
  bnodes : ∀ i p, sg.b.nodes.get? i = some p → S p
  edges : ∃ fr to, sg.b.edges = .directed fr to ∧ ∀ i j e, (fr.at i j = some e ∨ to.at i j = some e) →
    ¬ m₀.EdgeOk e ∧ m.EdgeOk e ∧ S (m.edge e).src ∧ S (m.edge e).dst

theorem part_new (S : NPtr → Prop) (m : Mem) (u : Uid) (opts : List Opt) : Part S m m (new true u opts) := by
  refine ⟨MoreEdges.refl m, fun k p h => ?_, fun i p h => ?_, GoMap.empty, GoMap.empty, rfl, ?_⟩
  · simp [new] at h
  · simp [new, newDirected] at h
  · intro i j e h
    simp [Adj.at, Adj.row] at h

theorem Part.addNode {S : NPtr → Prop} {m₀ m : Mem} {sg : WG} (h : Part S m₀ m sg) {p : NPtr} (hp : S p)
    (opts : List Opt) : Part S m₀ m (addNode m sg p opts).2 := by
  have hset : ∀ n : GoMap String NPtr, (∀ k q, n.get? k = some q → S q ∧ m₀.key q = k) →
      ∀ k q, (n.set (m.key p) p).get? k = some q → S q ∧ m₀.key q = k := by
    intro n hn k q hq
    rw [GoMap.get?_set] at hq
    by_cases hk : k = m.key p
    · rw [if_pos hk] at hq
      cases hq
      exact ⟨hp, by rw [hk, h.more.key]⟩
    · rw [if_neg hk] at hq; exact hn k q hq
  unfold GraphPtr.addNode
  cases hb : sg.b.nodes.get? (m.id p) with
  | some q =>
    simp only []
    cases sg.nodes.get? (m.key p) with
    | none => exact ⟨h.more, hset _ h.nodes, h.bnodes, h.edges⟩
    | some r =>
      simp only []
      split
      · exact h
      · exact ⟨h.more, hset _ (hset _ h.nodes), h.bnodes, h.edges⟩
  | none =>
    simp only [Builder.addNode, hb]
    refine ⟨h.more, hset _ h.nodes, fun i q hq => ?_, h.edges⟩
    simp only [GoMap.get?_set] at hq
    split at hq
    · cases hq; exact hp
    · exact h.bnodes i q hq

theorem edge_directed (m : Mem) (g : WG) {fr to : Adj} (hd : g.b.edges = .directed fr to) (u v : Uid) :
    (edge m g u v).2 = m ∧ ∀ e, (edge m g u v).1 = .ok e → ∃ i j, fr.at i j = some e := by
  unfold edge Builder.weightedEdge
  rw [hd]
  cases g.nodes.get? u.str with
  | none => exact ⟨rfl, fun _ h => nomatch h⟩
  | some f =>
    cases g.nodes.get? v.str with
    | none => exact ⟨rfl, fun _ h => nomatch h⟩
    | some t =>
      simp only []
      cases hat : fr.at (m.id f) (m.id t) with
      | none => exact ⟨rfl, fun _ h => nomatch h⟩
      | some e => exact ⟨rfl, fun e' h => ⟨_, _, hat.trans (congrArg some (Res.ok.inj h))⟩⟩

theorem at_put {a : Adj} {i j i' j' : Int} {e e' : EPtr} (h : (a.put i j e).at i' j' = some e') :
    e' = e ∨ a.at i' j' = some e' := by
  unfold Adj.put Adj.at Adj.row at h
  rw [GoMap.get?_set] at h
  by_cases hi : i' = i
  · rw [if_pos hi, Option.getD_some, GoMap.get?_set] at h
    by_cases hj : j' = j
    · rw [if_pos hj] at h; exact .inl (Option.some.inj h).symm
    · rw [if_neg hj] at h; rw [hi]; exact .inr h
  · rw [if_neg hi] at h; exact .inr h

theorem moreEdges_makeEdge (m : Mem) (fresh : Uid) (a : Nat) (f t : NPtr) (opts : List Opt) :
    MoreEdges m (makeEdge m fresh a f t opts).2 := ⟨rfl, _, rfl⟩

theorem Part.link {S : NPtr → Prop} {m₀ m : Mem} {sg : WG} (h : Part S m₀ m sg) (fresh : Uid) (a : Nat)
    (f t : Uid) (opts : List Opt) :
    Part S m₀ (link m sg fresh a f t opts).2.2 (link m sg fresh a f t opts).2.1 := by
  obtain ⟨fr, to, hd, hE⟩ := h.edges
  rcases link_cases m sg fresh a f t opts with ⟨r, -, -, -, hl⟩ | ⟨p, q, -, -, hp, hq, hl⟩
  · rw [hl, (edge_directed m sg hd f t).1]; exact h
  · have hm := moreEdges_makeEdge m fresh a p q opts
    have hnew := makeEdge_new m fresh a p q opts
    have hE' : ∀ i j e, (fr.at i j = some e ∨ to.at i j = some e) →
        ¬ m₀.EdgeOk e ∧ (makeEdge m fresh a p q opts).2.EdgeOk e ∧
        S ((makeEdge m fresh a p q opts).2.edge e).src ∧ S ((makeEdge m fresh a p q opts).2.edge e).dst := by
      intro i j e he
      obtain ⟨h1, h2, h3, h4⟩ := hE i j e he
      obtain ⟨k1, k2⟩ := hm.grows.edge h2
      rw [k2]
      exact ⟨h1, k1, h3, h4⟩
    rw [hl]
    cases hb : sg.b.setWeightedEdge (makeEdge m fresh a p q opts).2 (makeEdge m fresh a p q opts).1 with
    | none => exact ⟨h.more.trans hm, h.nodes, h.bnodes, fr, to, hd, hE'⟩
    | some b' =>
      obtain ⟨h1, h2⟩ := setWeightedEdge_eq hb
      have hsrc : ((makeEdge m fresh a p q opts).2.edge (makeEdge m fresh a p q opts).1).src = p := by
        rw [hnew.2.2.1]
      have hdst : ((makeEdge m fresh a p q opts).2.edge (makeEdge m fresh a p q opts).1).dst = q := by
        rw [hnew.2.2.1]
      have hne : ¬ m₀.EdgeOk (makeEdge m fresh a p q opts).1 := fun h0 =>
        hnew.2.1 (h.more.grows.edge h0).1
      have hfresh : ∀ e, e = (makeEdge m fresh a p q opts).1 →
          ¬ m₀.EdgeOk e ∧ (makeEdge m fresh a p q opts).2.EdgeOk e ∧
          S ((makeEdge m fresh a p q opts).2.edge e).src ∧ S ((makeEdge m fresh a p q opts).2.edge e).dst := by
        rintro e rfl
        exact ⟨hne, hnew.1, by rw [hsrc]; exact (h.nodes _ _ hp).1, by rw [hdst]; exact (h.nodes _ _ hq).1⟩
      refine ⟨h.more.trans hm, h.nodes, fun i r hi => ?_, ?_⟩
      · simp only [h2, GoMap.get?_set] at hi
        split at hi
        · cases hi; rw [hdst]; exact (h.nodes _ _ hq).1
        · split at hi
          · cases hi; rw [hsrc]; exact (h.nodes _ _ hp).1
          · exact h.bnodes i r hi
      · refine ⟨_, _, by rw [h1, hd]; rfl, fun i j e he => ?_⟩
        rcases he with he | he
        · rcases at_put he with he | he
          · exact hfresh e he
          · exact hE' i j e (.inl he)
        · rcases at_put he with he | he
          · exact hfresh e he
          · exact hE' i j e (.inr he)

theorem Part.setHeap {S : NPtr → Prop} {m₀ m : Mem} {sg : WG} (h : Part S m₀ m sg) (hp : Heap) :
    Part S m₀ { m with heap := hp } sg := ⟨⟨h.more.nodes, h.more.edges⟩, h.nodes, h.bnodes, h.edges⟩

theorem part_linkAll {S : NPtr → Prop} {m₀ : Mem} (ora : SubOracle) (x y : Uid) (es : List EPtr) :
    ∀ {m : Mem} {sg : WG}, Part S m₀ m sg → ∀ {sg' m'}, linkAll ora x y es sg m = (.ok sg', m') →
      Part S m₀ m' sg' := by
  induction es with
  | nil => intro m sg h sg' m' he; cases he; exact h
  | cons e es ih =>
    intro m sg h sg' m' he
    have hs := (h.setHeap (Attrs.newCopyFrom m.heap (ora.copy m.heap.cells.length) (m.edge e).attrs).2).link
      (ora.edgeUid m.heap.cells.length) 0 x y
      [.withAttrs (some (Attrs.newCopyFrom m.heap (ora.copy m.heap.cells.length) (m.edge e).attrs).1),
        .withWeight (m.edge e).weight]
    unfold linkAll at he
    simp only [] at he
    revert he hs
    generalize GraphPtr.link _ sg _ _ _ _ _ = r
    obtain ⟨r, sg1, m1⟩ := r
    intro hs he
    cases r with
    | ok _ => exact ih hs he
    | err _ => cases he
    | panic => cases he

theorem part_linkPeers {S : NPtr → Prop} {m₀ : Mem} (ora : SubOracle) (g : WG) (ns : GoMap Int NPtr)
    (id : Int) (x : NPtr) (ps : List NPtr) :
    ∀ {m : Mem} {sg : WG}, Part S m₀ m sg → ∀ {sg' m'}, linkPeers ora g ns id x ps sg m = (.ok sg', m') →
      Part S m₀ m' sg' := by
  induction ps with
  | nil => intro m sg h sg' m' he; cases he; exact h
  | cons p ps ih =>
    intro m sg h sg' m' he
    unfold linkPeers at he
    cases hto : ns.get? (m.id p) with
    | none => rw [hto] at he; exact ih h he
    | some to =>
      rw [hto] at he
      simp only [] at he
      cases hl : linkAll ora (m.node x).uid (m.node to).uid (g.b.weightedEdges m (ora.edges id (m.id p))) sg m with
      | mk r m1 =>
        rw [hl] at he
        cases r with
        | ok sg1 => exact ih (part_linkAll ora _ _ _ h hl) he
        | err _ => cases he
        | panic => cases he

theorem part_linkNodes {S : NPtr → Prop} {m₀ : Mem} (ora : SubOracle) (g : WG) (ns : GoMap Int NPtr)
    (l : List (Int × NPtr)) :
    ∀ {m : Mem} {sg : WG}, Part S m₀ m sg → ∀ {sg' m'}, linkNodes ora g ns l sg m = (.ok sg', m') →
      Part S m₀ m' sg' := by
  induction l with
  | nil => intro m sg h sg' m' he; cases he; exact h
  | cons x l ih =>
    obtain ⟨id, x⟩ := x
    intro m sg h sg' m' he
    unfold linkNodes at he
    cases hl : linkPeers ora g ns id x (g.b.fromNodes (ora.peers id) id) sg m with
    | mk r m1 =>
      rw [hl] at he
      cases r with
      | ok sg1 => exact ih (part_linkPeers ora g ns id x _ h hl) he
      | err _ => cases he
      | panic => cases he

/-- The walk visits the root and nodes of gonum's table only. -/
theorem bfs_inv {σ : Type} (I : σ → Prop) (S : NPtr → Prop) (m : Mem) (b : Builder)
    (hb : ∀ i p, b.nodes.get? i = some p → S p) (ord : Int → Order (Int × EPtr)) (visit : σ → NPtr → σ)
    (hv : ∀ s p, S p → I s → I (visit s p)) (stop : NPtr → Int → Bool) (fuel : Nat) :
    ∀ {w w' : Bfs σ}, I w.acc → Bfs.loop m b ord visit stop fuel w = some w' → I w'.acc := by
  have hmeet : ∀ (l : List NPtr), (∀ p ∈ l, S p) → ∀ w : Bfs σ, I w.acc →
      I (l.foldl (Bfs.meet m visit) w).acc := by
    intro l
    induction l with
    | nil => exact fun _ _ h => h
    | cons p l ih =>
      intro hl w hw
      refine ih (fun q hq => hl q (.tail _ hq)) _ ?_
      unfold Bfs.meet
      split
      · exact hw
      · exact hv _ _ (hl p (.head _)) hw
  induction fuel with
  | zero => intro w w' _ h; cases h
  | succ fuel ih =>
    intro w w' hw h
    unfold Bfs.loop at h
    cases hq : w.queue with
    | nil => rw [hq] at h; cases h; exact hw
    | cons t q =>
      rw [hq] at h
      simp only [] at h
      split at h
      · cases h; exact hw
      · refine ih ?_ h
        have := hmeet (b.fromNodes (ord (m.id t)) (m.id t)) (fun p hp => by
          unfold Builder.fromNodes at hp
          obtain ⟨ke, -, hk⟩ := List.mem_filterMap.mp hp
          exact hb _ _ hk) { w with queue := q } hw
        unfold Bfs.level
        split <;> exact this

theorem Part.mem_edges {S : NPtr → Prop} {m₀ m : Mem} {sg : WG} (h : Part S m₀ m sg) (o : EdgeOrder)
    {e : EPtr} (he : e ∈ edgesList m sg o) :
    ¬ m₀.EdgeOk e ∧ m.EdgeOk e ∧ S (m.edge e).src ∧ S (m.edge e).dst := by
  obtain ⟨fr, to, hd, hE⟩ := h.edges
  unfold edgesList Builder.weightedEdges at he
  rw [hd] at he
  obtain ⟨kn, -, hk⟩ := List.mem_flatMap.mp he
  obtain ⟨⟨j, e'⟩, hj, rfl⟩ := List.mem_map.mp hk
  have := (Order.perm _ _).mem_iff.mp hj
  exact hE _ _ _ (.inl ((GoMap.get?_eq_some _ _ _).mpr this))

/-- What a sub graph is made of. -/
theorem subGraph_part {ora : SubOracle} {m : Mem} {g : WG} {u : Uid} {depth : Int} {opts : List Opt}
    {sg : WG} {m' : Mem} (h : subGraph ora m g u depth opts = (.ok sg, m')) :
    Part (fun p => node g u = .ok p ∨ ∃ i, g.b.nodes.get? i = some p) m m' sg := by
  unfold subGraph at h
  cases hr : g.nodes.get? u.str with
  | none => rw [hr] at h; cases h
  | some root =>
    rw [hr] at h
    simp only [] at h
    have hroot : node g u = .ok root := by unfold node; rw [hr]
    have hv : ∀ (c : Collect) p, (node g u = .ok p ∨ ∃ i, g.b.nodes.get? i = some p) →
        Part (fun p => node g u = .ok p ∨ ∃ i, g.b.nodes.get? i = some p) m m c.sg →
        Part (fun p => node g u = .ok p ∨ ∃ i, g.b.nodes.get? i = some p) m m (collect m c p).sg := by
      intro c p hp hc
      have := hc.addNode hp []
      unfold collect
      revert this
      generalize GraphPtr.addNode m c.sg p [] = r
      obtain ⟨r, sg⟩ := r
      cases r <;> exact fun h => h
    cases hw : Bfs.walk m g.b ora.bfs (collect m) (fun _ d => d == depth) root
        ⟨new true ora.graphUid opts, GoMap.empty, none⟩ with
    | none => rw [hw] at h; cases h
    | some w =>
      rw [hw] at h
      simp only [] at h
      have hsg := bfs_inv (fun c : Collect =>
        Part (fun p => node g u = .ok p ∨ ∃ i, g.b.nodes.get? i = some p) m m c.sg) _ m g.b
        (fun i p hi => .inr ⟨i, hi⟩) ora.bfs (collect m) hv _ _
        (hv _ _ (.inl hroot) (part_new _ m ora.graphUid opts)) hw
      cases he : w.acc.err with
      | some e => rw [he] at h; cases h
      | none =>
        rw [he] at h
        exact part_linkNodes ora g _ _ hsg h

end Netscrape.GraphPtr
