import Verif.Model.Gonum

/-!
# Invariant of the gonum graphs and the effect of each operation on `Node` and `WeightedEdge`
-/

namespace Netscrape.Gonum
open Netscrape.Graph

/-! ## Adjacency maps -/

theorem Adj.row_set (m : Adj) (a c : Int) (r : GoMap Int Edge) :
    Adj.row (m.set a r) c = if c = a then r else m.row c := by
  unfold Adj.row
  rw [GoMap.get?_set]
  by_cases h : c = a <;> simp [h]

theorem Adj.at_put (m : Adj) (a b c d : Int) (e : Edge) :
    (m.put a b e).at c d = if c = a ∧ d = b then some e else m.at c d := by
  unfold Adj.put Adj.at
  rw [Adj.row_set]
  by_cases h : c = a
  · subst h; simp [GoMap.get?_set]
  · simp [h]

theorem Adj.row_cut (m : Adj) (a b c : Int) :
    (m.cut a b).row c = if c = a then (m.row c).del b else m.row c := by
  unfold Adj.cut
  cases h : m.get? a with
  | none =>
    by_cases hc : c = a
    · subst hc
      simp [Adj.row, h]
      rfl
    · simp [hc]
  | some r =>
    simp only
    rw [Adj.row_set]
    by_cases hc : c = a
    · subst hc; simp [Adj.row, h]
    · simp [hc]

theorem Adj.at_cut (m : Adj) (a b c d : Int) :
    (m.cut a b).at c d = if c = a ∧ d = b then none else m.at c d := by
  unfold Adj.at
  rw [Adj.row_cut]
  by_cases hc : c = a
  · subst hc; simp [GoMap.get?_del]
  · simp [hc]

theorem Adj.at_cutAll (m : Adj) (ks : List Int) (id c d : Int) :
    (m.cutAll ks id).at c d = if c ∈ ks ∧ d = id then none else m.at c d := by
  unfold Adj.cutAll
  induction ks generalizing m with
  | nil => simp
  | cons k ks ih =>
    rw [List.foldl_cons, ih, Adj.at_cut]
    by_cases hd : d = id
    · by_cases hk : c = k
      · simp [hd, hk]
      · simp [hd, hk]
    · simp [hd]

theorem Adj.at_del (m : Adj) (a c d : Int) :
    Adj.at (m.del a) c d = if c = a then none else m.at c d := by
  unfold Adj.at Adj.row
  rw [GoMap.get?_del]
  by_cases hc : c = a <;> simp [hc]

theorem Adj.mem_row_keys (m : Adj) (a b : Int) : b ∈ (m.row a).keys ↔ ∃ e, m.at a b = some e :=
  GoMap.mem_keys _ _

@[simp] theorem Adj.at_empty (a b : Int) : Adj.at GoMap.empty a b = none := rfl

/-! ## The invariant -/

/-- A stored edge joins two distinct registered nodes. -/
structure EdgeOK (nodes : GoMap Int Node) (a b : Int) : Prop where
  ne : a ≠ b
  left : ∃ n, nodes.get? a = some n
  right : ∃ n, nodes.get? b = some n

/-- Consistency of the edge maps with each other and with the node map. -/
def EdgesInv (nodes : GoMap Int Node) : Edges → Prop
  | .directed fr to =>
    (∀ a b, fr.at a b = to.at b a) ∧
    (∀ a b e, fr.at a b = some e → e.src.id = a ∧ e.dst.id = b ∧ EdgeOK nodes a b)
  | .undirected ed =>
    (∀ a b, ed.at a b = ed.at b a) ∧
    (∀ a b e, ed.at a b = some e →
      ((e.src.id = a ∧ e.dst.id = b) ∨ (e.src.id = b ∧ e.dst.id = a)) ∧ EdgeOK nodes a b)

/-- Consistency of a gonum graph. -/
structure Inv (b : Builder) : Prop where
  nodeID : ∀ k n, b.nodes.get? k = some n → n.id = k
  notFree : ∀ k n, b.nodes.get? k = some n → b.ids.free.get? k = none
  leMax : ∀ k n, b.nodes.get? k = some n → k ≤ b.ids.max
  edges : EdgesInv b.nodes b.edges

/-- Which kind of graph. -/
def Builder.isDirected (b : Builder) : Bool :=
  match b.edges with
  | .directed _ _ => true
  | .undirected _ => false

theorem inv_newDirected : Inv newDirected := by
  refine ⟨?_, ?_, ?_, ?_⟩ <;> simp [newDirected, EdgesInv]

theorem inv_newUndirected : Inv newUndirected := by
  refine ⟨?_, ?_, ?_, ?_⟩ <;> simp [newUndirected, EdgesInv]

theorem EdgesInv.mono {nodes nodes' : GoMap Int Node} {es : Edges} (h : EdgesInv nodes es)
    (hn : ∀ k n, nodes.get? k = some n → ∃ n', nodes'.get? k = some n') : EdgesInv nodes' es := by
  have ok : ∀ a b, EdgeOK nodes a b → EdgeOK nodes' a b := by
    rintro a b ⟨h1, ⟨n, h2⟩, ⟨m, h3⟩⟩
    exact ⟨h1, hn _ _ h2, hn _ _ h3⟩
  cases es with
  | directed fr to =>
    exact ⟨h.1, fun a b e he => ⟨(h.2 a b e he).1, (h.2 a b e he).2.1, ok _ _ (h.2 a b e he).2.2⟩⟩
  | undirected ed =>
    exact ⟨h.1, fun a b e he => ⟨(h.2 a b e he).1, ok _ _ (h.2 a b e he).2⟩⟩

/-! ## Node IDs -/

/-- The allocator's proposal is not in use. -/
theorem newNodeID_fresh (b : Builder) (h : Inv b) (o : Order (Int × Unit)) (id : Int)
    (hid : b.newNodeID o = some id) : b.nodes.get? id = none := by
  unfold Builder.newNodeID at hid
  split at hid
  · rename_i hs
    exact (GoMap.size_eq_zero _).mp hs id
  · unfold Ids.newID at hid
    split at hid
    · rename_i k u rest heq
      cases hid
      have hmem : (id, u) ∈ o.run b.ids.free.entries := by rw [heq]; simp
      rw [Order.mem_run, ← GoMap.get?_eq_some] at hmem
      cases hg : b.nodes.get? id with
      | none => rfl
      | some n => rw [h.notFree _ _ hg] at hmem; cases hmem
    · split at hid
      · cases hid
        cases hg : b.nodes.get? (b.ids.max + 1) with
        | none => rfl
        | some n => have := h.leMax _ _ hg; omega
      · cases hid

/-! ## AddNode -/

theorem addNode_inv {b b' : Builder} {n : Node} (h : Inv b) (ha : b.addNode n = some b') :
    Inv b' := by
  unfold Builder.addNode at ha
  split at ha
  · cases ha
  · rename_i hnone
    cases ha
    refine ⟨?_, ?_, ?_, ?_⟩
    · intro k m hk
      simp only [GoMap.get?_set] at hk
      split at hk
      · cases hk; simp_all
      · exact h.nodeID k m hk
    · intro k m hk
      simp only [GoMap.get?_set] at hk
      simp only [Ids.use, GoMap.get?_del]
      split at hk
      · rename_i hk'; simp [hk']
      · rename_i hk'; rw [if_neg hk']; exact h.notFree k m hk
    · intro k m hk
      simp only [GoMap.get?_set] at hk
      simp only [Ids.use]
      split at hk
      · rename_i hk'; split <;> omega
      · have := h.leMax k m hk; split <;> omega
    · refine h.edges.mono ?_
      intro k m hk
      simp only [GoMap.get?_set]
      split
      · exact ⟨_, rfl⟩
      · exact ⟨m, hk⟩

theorem addNode_eq {b b' : Builder} {n : Node} (ha : b.addNode n = some b') :
    b'.nodes = b.nodes.set n.id n ∧ b'.edges = b.edges ∧ b.nodes.get? n.id = none := by
  unfold Builder.addNode at ha
  split at ha
  · cases ha
  · rename_i hnone
    cases ha
    exact ⟨rfl, rfl, hnone⟩

/-! ## touch, SetWeightedEdge -/

theorem touch_nodes (b : Builder) (n : Node) : (b.touch n).nodes = b.nodes.set n.id n := by
  unfold Builder.touch
  split
  · rename_i h; exact (addNode_eq h).1
  · rfl

theorem touch_edges (b : Builder) (n : Node) : (b.touch n).edges = b.edges := by
  unfold Builder.touch
  split
  · rename_i h; exact (addNode_eq h).2.1
  · rfl

theorem touch_inv {b : Builder} (h : Inv b) (n : Node) : Inv (b.touch n) := by
  unfold Builder.touch
  cases ha : b.addNode n with
  | some b' => exact addNode_inv h ha
  | none =>
    have hex : ∃ m, b.nodes.get? n.id = some m := by
      unfold Builder.addNode at ha
      split at ha
      · rename_i m hm; exact ⟨m, hm⟩
      · cases ha
    obtain ⟨m, hm⟩ := hex
    refine ⟨?_, ?_, ?_, ?_⟩
    · intro k x hk
      simp only [GoMap.get?_set] at hk
      split at hk
      · cases hk; simp_all
      · exact h.nodeID k x hk
    · intro k x hk
      simp only [GoMap.get?_set] at hk
      split at hk
      · rename_i hk'; subst hk'; exact h.notFree _ _ hm
      · exact h.notFree k x hk
    · intro k x hk
      simp only [GoMap.get?_set] at hk
      split at hk
      · rename_i hk'; subst hk'; exact h.leMax _ _ hm
      · exact h.leMax k x hk
    · refine h.edges.mono ?_
      intro k x hk
      simp only [GoMap.get?_set]
      split
      · exact ⟨_, rfl⟩
      · exact ⟨x, hk⟩

theorem setWeightedEdge_eq {b b' : Builder} {e : Edge} (hs : b.setWeightedEdge e = some b') :
    e.src.id ≠ e.dst.id ∧ b'.nodes = (b.nodes.set e.src.id e.src).set e.dst.id e.dst ∧
      b'.edges = b.edges.put e := by
  unfold Builder.setWeightedEdge at hs
  split at hs
  · cases hs
  · rename_i hne
    cases hs
    refine ⟨hne, ?_, ?_⟩
    · simp [touch_nodes]
    · simp [touch_edges]

theorem setWeightedEdge_some {b : Builder} {e : Edge} (hne : e.src.id ≠ e.dst.id) :
    ∃ b', b.setWeightedEdge e = some b' := by
  unfold Builder.setWeightedEdge
  rw [if_neg hne]
  exact ⟨_, rfl⟩

theorem setWeightedEdge_inv {b b' : Builder} {e : Edge} (h : Inv b)
    (hs : b.setWeightedEdge e = some b') : Inv b' := by
  have h2 : Inv ((b.touch e.src).touch e.dst) := touch_inv (touch_inv h _) _
  unfold Builder.setWeightedEdge at hs
  split at hs
  · cases hs
  · rename_i hne
    cases hs
    refine ⟨h2.nodeID, h2.notFree, h2.leMax, ?_⟩
    have hE := h2.edges
    have hok : EdgeOK ((b.touch e.src).touch e.dst).nodes e.src.id e.dst.id := by
      refine ⟨hne, ?_, ?_⟩ <;> simp only [touch_nodes, GoMap.get?_set]
      · exact ⟨e.src, by simp [hne]⟩
      · exact ⟨e.dst, by simp⟩
    generalize (b.touch e.src).touch e.dst = c at *
    cases hc : c.edges with
    | directed fr to =>
      rw [hc] at hE
      simp only [Edges.put, EdgesInv, Adj.at_put]
      constructor
      · intro x y
        rw [hE.1 x y]
        by_cases h1 : x = e.src.id <;> by_cases h2 : y = e.dst.id <;> simp [h1, h2]
      · intro x y e' he'
        split at he'
        · rename_i hxy
          cases he'
          exact ⟨hxy.1.symm, hxy.2.symm, hxy.1 ▸ hxy.2 ▸ hok⟩
        · exact hE.2 x y e' he'
    | undirected ed =>
      rw [hc] at hE
      simp only [Edges.put, EdgesInv, Adj.at_put]
      constructor
      · intro x y
        rw [hE.1 x y]
        by_cases h1 : x = e.src.id <;> by_cases h2 : y = e.dst.id <;>
          by_cases h3 : x = e.dst.id <;> by_cases h4 : y = e.src.id <;> simp_all
      · intro x y e' he'
        split at he'
        · rename_i hxy
          cases he'
          exact ⟨.inr ⟨hxy.2.symm, hxy.1.symm⟩, hxy.1 ▸ hxy.2 ▸ ⟨hok.ne.symm, hok.right, hok.left⟩⟩
        · split at he'
          · rename_i hxy
            cases he'
            exact ⟨.inl ⟨hxy.1.symm, hxy.2.symm⟩, hxy.1 ▸ hxy.2 ▸ hok⟩
          · exact hE.2 x y e' he'

/-! ## WeightedEdge -/

theorem rev_rev (e : Edge) : e.rev.rev = e := rfl

/-- An edge reported for `(u, v)` goes from `u` to `v`, which are distinct registered nodes. -/
theorem weightedEdge_ends {b : Builder} (h : Inv b) {u v : Int} {e : Edge}
    (he : b.weightedEdge u v = some e) : e.src.id = u ∧ e.dst.id = v ∧ EdgeOK b.nodes u v := by
  have hE := h.edges
  unfold Builder.weightedEdge at he
  split at he
  · rename_i fr to hb
    rw [hb] at hE
    exact hE.2 u v e he
  · rename_i ed hb
    rw [hb] at hE
    obtain ⟨e', he', rfl⟩ := Option.map_eq_some_iff.mp he
    obtain ⟨ho, hok⟩ := hE.2 u v e' he'
    refine ⟨?_, ?_, hok⟩
    · by_cases hc : e'.src.id = u
      · simp [hc]
      · rcases ho with ho | ho
        · exact absurd ho.1 hc
        · simp [hc, Edge.rev, ho.2]
    · by_cases hc : e'.src.id = u
      · rcases ho with ho | ho
        · simp [hc, ho.2]
        · exact absurd (hc.symm.trans ho.1) hok.ne
      · rcases ho with ho | ho
        · exact absurd ho.1 hc
        · rw [if_neg hc]; exact ho.1

/-- In an undirected graph the edge seen from the other end is the same edge reversed. -/
theorem weightedEdge_symm {b : Builder} (h : Inv b) (hd : b.isDirected = false) (u v : Int) :
    b.weightedEdge v u = (b.weightedEdge u v).map Edge.rev := by
  have hE := h.edges
  unfold Builder.isDirected at hd
  unfold Builder.weightedEdge
  cases hb : b.edges with
  | directed => rw [hb] at hd; cases hd
  | undirected ed =>
    rw [hb] at hE
    simp only
    rw [hE.1 v u]
    cases he : ed.at u v with
    | none => rfl
    | some e =>
      obtain ⟨ho, hok⟩ := hE.2 u v e he
      simp only [Option.map_some, Option.some.injEq]
      rcases ho with ⟨h1, h2⟩ | ⟨h1, h2⟩
      · have : e.src.id ≠ v := h1 ▸ hok.ne
        rw [if_neg this, if_pos h1]
      · have : e.src.id ≠ u := h1 ▸ hok.ne.symm
        rw [if_pos h1, if_neg this, rev_rev]

theorem fromRow_isSome {b : Builder} (u v : Int) :
    ((b.fromRow u).get? v).isSome = (b.weightedEdge u v).isSome := by
  unfold Builder.fromRow Builder.weightedEdge Adj.at
  cases b.edges <;> simp

/-! ## Effects on WeightedEdge -/

theorem weightedEdge_congr {b b' : Builder} (h : b'.edges = b.edges) (u v : Int) :
    b'.weightedEdge u v = b.weightedEdge u v := by
  unfold Builder.weightedEdge; rw [h]

theorem isDirected_congr {b b' : Builder} (h : b'.edges = b.edges) :
    b'.isDirected = b.isDirected := by
  unfold Builder.isDirected; rw [h]

theorem isDirected_put {b b' : Builder} {e : Edge} (h : b'.edges = b.edges.put e) :
    b'.isDirected = b.isDirected := by
  unfold Builder.isDirected; rw [h]; cases b.edges <;> rfl

/-- After `SetWeightedEdge(e)`: the pair of `e`'s ends holds `e` (in an undirected graph the mirror
pair holds `e` reversed); all other pairs are unchanged. -/
theorem weightedEdge_set {b b' : Builder} {e : Edge} (hs : b.setWeightedEdge e = some b')
    (u v : Int) :
    b'.weightedEdge u v =
      if u = e.src.id ∧ v = e.dst.id then some e
      else if b.isDirected = false ∧ u = e.dst.id ∧ v = e.src.id then some e.rev
      else b.weightedEdge u v := by
  obtain ⟨hne, -, hedges⟩ := setWeightedEdge_eq hs
  unfold Builder.weightedEdge Builder.isDirected
  rw [hedges]
  cases hb : b.edges with
  | directed fr to =>
    simp only [Edges.put, Adj.at_put]
    split <;> simp
  | undirected ed =>
    simp only [Edges.put, Adj.at_put]
    by_cases h1 : u = e.src.id ∧ v = e.dst.id
    · obtain ⟨rfl, rfl⟩ := h1
      simp [hne]
    · rw [if_neg h1]
      by_cases h2 : u = e.dst.id ∧ v = e.src.id
      · obtain ⟨rfl, rfl⟩ := h2
        simp [hne]
      · simp [h1, h2]

theorem removeEdge_nodes (b : Builder) (f t : Int) : (b.removeEdge f t).nodes = b.nodes := by
  unfold Builder.removeEdge; split <;> rfl

theorem removeEdge_isDirected (b : Builder) (f t : Int) :
    (b.removeEdge f t).isDirected = b.isDirected := by
  unfold Builder.removeEdge
  split
  · unfold Builder.isDirected; cases b.edges <;> rfl
  · rfl

theorem removeEdge_inv {b : Builder} (h : Inv b) (f t : Int) : Inv (b.removeEdge f t) := by
  unfold Builder.removeEdge
  split
  · refine ⟨h.nodeID, h.notFree, h.leMax, ?_⟩
    have hE := h.edges
    cases hb : b.edges with
    | directed fr to =>
      rw [hb] at hE
      simp only [Edges.cut, EdgesInv, Adj.at_cut]
      constructor
      · intro x y
        rw [hE.1 x y]
        by_cases h1 : x = f <;> by_cases h2 : y = t <;> simp [h1, h2]
      · intro x y e he
        split at he
        · cases he
        · exact hE.2 x y e he
    | undirected ed =>
      rw [hb] at hE
      simp only [Edges.cut, EdgesInv, Adj.at_cut]
      constructor
      · intro x y
        rw [hE.1 x y]
        by_cases h1 : x = f <;> by_cases h2 : y = t <;> by_cases h3 : x = t <;>
          by_cases h4 : y = f <;> simp_all
      · intro x y e he
        split at he
        · cases he
        · split at he
          · cases he
          · exact hE.2 x y e he
  · exact h

/-- After `RemoveEdge(f, t)` the pair (and its mirror in an undirected graph) is unlinked, all other
pairs are unchanged. -/
theorem weightedEdge_removeEdge {b : Builder} (h : Inv b) (f t u v : Int) :
    (b.removeEdge f t).weightedEdge u v =
      if (u = f ∧ v = t) ∨ (b.isDirected = false ∧ u = t ∧ v = f) then none
      else b.weightedEdge u v := by
  by_cases hp : (∃ n, b.nodes.get? f = some n) ∧ (∃ n, b.nodes.get? t = some n)
  · obtain ⟨⟨n, hn⟩, ⟨m, hm⟩⟩ := hp
    have : b.removeEdge f t = { b with edges := b.edges.cut f t } := by
      unfold Builder.removeEdge; rw [hn, hm]
    rw [this]
    unfold Builder.weightedEdge Builder.isDirected
    cases hb : b.edges with
    | directed fr to => simp [Edges.cut, Adj.at_cut]
    | undirected ed =>
      simp only [Edges.cut, Adj.at_cut]
      by_cases h1 : u = f ∧ v = t
      · simp [h1]
      · by_cases h2 : u = t ∧ v = f
        · simp [h2]
        · simp [h1, h2]
  · have : b.removeEdge f t = b := by
      unfold Builder.removeEdge
      cases hn : b.nodes.get? f with
      | none => rfl
      | some n =>
        cases hm : b.nodes.get? t with
        | none => rfl
        | some m => exact absurd ⟨⟨n, hn⟩, ⟨m, hm⟩⟩ hp
    rw [this]
    by_cases hc : (u = f ∧ v = t) ∨ (b.isDirected = false ∧ u = t ∧ v = f)
    · rw [if_pos hc]
      cases he : b.weightedEdge u v with
      | none => rfl
      | some e =>
        obtain ⟨-, -, hok⟩ := weightedEdge_ends h he
        rcases hc with ⟨rfl, rfl⟩ | ⟨-, rfl, rfl⟩
        · exact absurd ⟨hok.left, hok.right⟩ hp
        · exact absurd ⟨hok.right, hok.left⟩ hp
    · rw [if_neg hc]

theorem removeNode_nodes (b : Builder) (id k : Int) :
    (b.removeNode id).nodes.get? k = if k = id then none else b.nodes.get? k := by
  unfold Builder.removeNode
  split
  · rename_i hn
    by_cases hk : k = id
    · rw [if_pos hk, hk, hn]
    · rw [if_neg hk]
  · simp [GoMap.get?_del]

theorem removeNode_isDirected (b : Builder) (id : Int) :
    (b.removeNode id).isDirected = b.isDirected := by
  unfold Builder.removeNode
  split
  · rfl
  · unfold Builder.isDirected; cases b.edges <;> rfl

private theorem at_isolate_directed {nodes : GoMap Int Node} {fr to : Adj}
    (hE : EdgesInv nodes (.directed fr to)) (id a b : Int) :
    let to1 := to.cutAll (fr.row id).keys id
    (Adj.cutAll (fr.del id) (to1.row id).keys id).at a b =
      (if a = id ∨ b = id then none else fr.at a b) ∧
    Adj.at (to1.del id) a b = (if a = id ∨ b = id then none else to.at a b) := by
  intro to1
  have hto1 : ∀ x y, to1.at x y =
      if x ∈ (fr.row id).keys ∧ y = id then none else to.at x y := by
    intro x y
    simp only [to1, Adj.at_cutAll]
  constructor
  · rw [Adj.at_cutAll, Adj.at_del]
    by_cases ha : a = id
    · simp [ha]
    · simp only [ha, if_false, false_or]
      by_cases hb : b = id
      · subst hb
        simp only [and_true, if_true]
        split
        · rfl
        · rename_i hne
          cases he : fr.at a b with
          | none => rfl
          | some e =>
            exfalso
            apply hne
            rw [Adj.mem_row_keys]
            refine ⟨e, ?_⟩
            rw [hto1, if_neg, ← hE.1, he]
            rintro ⟨-, h⟩
            exact ha h
      · simp [hb]
  · rw [Adj.at_del, hto1]
    by_cases ha : a = id
    · simp [ha]
    · simp only [ha, if_false, false_or]
      by_cases hb : b = id
      · subst hb
        simp only [and_true, if_true]
        split
        · rfl
        · rename_i hne
          cases he : to.at a b with
          | none => rfl
          | some e => exact absurd ((Adj.mem_row_keys _ _ _).mpr ⟨e, by rw [hE.1, he]⟩) hne
      · simp [hb]

private theorem at_isolate_undirected {nodes : GoMap Int Node} {ed : Adj}
    (hE : EdgesInv nodes (.undirected ed)) (id a b : Int) :
    Adj.at ((ed.cutAll (ed.row id).keys id).del id) a b =
      (if a = id ∨ b = id then none else ed.at a b) := by
  rw [Adj.at_del, Adj.at_cutAll]
  by_cases ha : a = id
  · simp [ha]
  · simp only [ha, if_false, false_or]
    by_cases hb : b = id
    · subst hb
      simp only [and_true, if_true]
      split
      · rfl
      · rename_i hne
        cases he : ed.at a b with
        | none => rfl
        | some e => exact absurd ((Adj.mem_row_keys _ _ _).mpr ⟨e, by rw [hE.1, he]⟩) hne
    · simp [hb]

theorem removeNode_inv {b : Builder} (h : Inv b) (id : Int) : Inv (b.removeNode id) := by
  unfold Builder.removeNode
  split
  · exact h
  · refine ⟨?_, ?_, ?_, ?_⟩
    · intro k n hk
      simp only [GoMap.get?_del] at hk
      split at hk
      · cases hk
      · exact h.nodeID k n hk
    · intro k n hk
      simp only [GoMap.get?_del] at hk
      split at hk
      · cases hk
      · rename_i hne
        simp only [Ids.release, GoMap.get?_set, if_neg hne]
        exact h.notFree k n hk
    · intro k n hk
      simp only [GoMap.get?_del] at hk
      split at hk
      · cases hk
      · exact h.leMax k n hk
    · have hE := h.edges
      have ok : ∀ x y, EdgeOK b.nodes x y → ¬(x = id ∨ y = id) → EdgeOK (b.nodes.del id) x y := by
        rintro x y ⟨h1, ⟨n, h2⟩, ⟨m, h3⟩⟩ hne
        simp only [not_or] at hne
        exact ⟨h1, ⟨n, by rw [GoMap.get?_del, if_neg hne.1, h2]⟩,
          ⟨m, by rw [GoMap.get?_del, if_neg hne.2, h3]⟩⟩
      cases hb : b.edges with
      | directed fr to =>
        rw [hb] at hE
        have hat := at_isolate_directed hE id
        simp only at hat
        constructor
        · intro x y
          rw [(hat x y).1, (hat y x).2, hE.1 x y]
          by_cases hx : x = id <;> by_cases hy : y = id <;> simp [hx, hy]
        · intro x y e he
          rw [(hat x y).1] at he
          split at he
          · cases he
          · rename_i hne
            obtain ⟨h1, h2, h3⟩ := hE.2 x y e he
            exact ⟨h1, h2, ok x y h3 hne⟩
      | undirected ed =>
        rw [hb] at hE
        have hat := at_isolate_undirected hE id
        constructor
        · intro x y
          rw [hat x y, hat y x, hE.1 x y]
          by_cases hx : x = id <;> by_cases hy : y = id <;> simp [hx, hy]
        · intro x y e he
          rw [hat x y] at he
          split at he
          · cases he
          · rename_i hne
            obtain ⟨h1, h2⟩ := hE.2 x y e he
            exact ⟨h1, ok x y h2 hne⟩

/-- After `RemoveNode(id)` every pair with an end at `id` is unlinked, all other pairs are
unchanged. -/
theorem weightedEdge_removeNode {b : Builder} (h : Inv b) (id u v : Int) :
    (b.removeNode id).weightedEdge u v =
      if u = id ∨ v = id then none else b.weightedEdge u v := by
  unfold Builder.removeNode
  split
  · rename_i hn
    by_cases hc : u = id ∨ v = id
    · rw [if_pos hc]
      cases he : b.weightedEdge u v with
      | none => rfl
      | some e =>
        obtain ⟨-, -, hok⟩ := weightedEdge_ends h he
        rcases hc with rfl | rfl
        · obtain ⟨n, hn'⟩ := hok.left; rw [hn] at hn'; cases hn'
        · obtain ⟨n, hn'⟩ := hok.right; rw [hn] at hn'; cases hn'
    · rw [if_neg hc]
  · have hE := h.edges
    unfold Builder.weightedEdge
    cases hb : b.edges with
    | directed fr to =>
      rw [hb] at hE
      exact (at_isolate_directed hE id u v).1
    | undirected ed =>
      rw [hb] at hE
      simp only [Edges.isolate, at_isolate_undirected hE id u v]
      split <;> simp

/-! ## Enumerations -/

theorem mem_allNodes (b : Builder) (o : Order (Int × Node)) (n : Node) :
    n ∈ b.allNodes o ↔ ∃ k, b.nodes.get? k = some n := by
  unfold Builder.allNodes
  rw [← GoMap.mem_vals]
  exact ((o.perm _).map Prod.snd).mem_iff

theorem nodup_allNodes_ids {b : Builder} (h : Inv b) (o : Order (Int × Node)) :
    ((b.allNodes o).map Node.id).Nodup := by
  unfold Builder.allNodes
  rw [((((o.perm _).map Prod.snd).map Node.id)).nodup_iff]
  have : (b.nodes.entries.map Prod.snd).map Node.id = b.nodes.entries.map Prod.fst := by
    rw [List.map_map]
    refine List.map_congr_left ?_
    rintro ⟨k, n⟩ hkn
    exact h.nodeID k n ((GoMap.get?_eq_some _ _ _).mpr hkn)
  rw [this]
  exact b.nodes.nodup

theorem mem_fromNodes {b : Builder} (h : Inv b) (o : Order (Int × Edge)) (u : Int) (n : Node) :
    n ∈ b.fromNodes o u ↔ b.nodes.get? n.id = some n ∧ (b.weightedEdge u n.id).isSome := by
  unfold Builder.fromNodes
  simp only [List.mem_filterMap, Order.mem_run]
  constructor
  · rintro ⟨⟨k, e⟩, hke, hn⟩
    have hid := h.nodeID k n hn
    subst hid
    refine ⟨hn, ?_⟩
    rw [← fromRow_isSome, (GoMap.get?_eq_some _ _ _).mpr hke]
    rfl
  · rintro ⟨hn, he⟩
    rw [← fromRow_isSome] at he
    obtain ⟨e, he⟩ := Option.isSome_iff_exists.mp he
    exact ⟨(n.id, e), (GoMap.get?_eq_some _ _ _).mp he, hn⟩

theorem nodup_fromNodes_ids {b : Builder} (h : Inv b) (o : Order (Int × Edge)) (u : Int) :
    ((b.fromNodes o u).map Node.id).Nodup := by
  unfold Builder.fromNodes
  have hperm : ((o.run (b.fromRow u).entries).filterMap (fun ke => b.nodes.get? ke.1)).Perm
      ((b.fromRow u).entries.filterMap (fun ke => b.nodes.get? ke.1)) :=
    (o.perm _).filterMap _
  rw [(hperm.map Node.id).nodup_iff]
  have hsub : ((b.fromRow u).entries.filterMap (fun ke => b.nodes.get? ke.1)).map Node.id =
      (b.fromRow u).entries.filterMap (fun ke => (b.nodes.get? ke.1).map Node.id) := by
    rw [List.map_filterMap]
  rw [hsub]
  have : (b.fromRow u).entries.filterMap (fun ke => (b.nodes.get? ke.1).map Node.id) =
      ((b.fromRow u).entries.filter (fun ke => (b.nodes.get? ke.1).isSome)).map Prod.fst := by
    generalize (b.fromRow u).entries = es
    induction es with
    | nil => rfl
    | cons ke es ih =>
      cases hg : b.nodes.get? ke.1 with
      | none => simp [hg, ih]
      | some n =>
        have := h.nodeID _ _ hg
        simp [hg, ih, this]
  rw [this]
  exact List.Nodup.sublist (List.filter_sublist.map Prod.fst) (b.fromRow u).nodup

theorem fromNodes_length {b : Builder} (h : Inv b) (o : Order (Int × Edge)) (u : Int) :
    (b.fromNodes o u).length = (b.fromRow u).size := by
  unfold Builder.fromNodes GoMap.size
  rw [((o.perm _).filterMap _).length_eq]
  have hall : ∀ ke ∈ (b.fromRow u).entries, (b.nodes.get? ke.1).isSome := by
    rintro ⟨k, e⟩ hke
    have : ((b.fromRow u).get? k).isSome := by rw [(GoMap.get?_eq_some _ _ _).mpr hke]; rfl
    rw [fromRow_isSome] at this
    obtain ⟨e', he'⟩ := Option.isSome_iff_exists.mp this
    obtain ⟨n, hn⟩ := (weightedEdge_ends h he').2.2.right
    simp [hn]
  generalize (b.fromRow u).entries = es at hall
  induction es with
  | nil => rfl
  | cons ke es ih =>
    obtain ⟨n, hn⟩ := Option.isSome_iff_exists.mp (hall ke (by simp))
    simp [hn, ih (fun x hx => hall x (by simp [hx]))]

/-! ### WeightedEdges -/

theorem mem_dedup_sub (es : List Edge) (seen : List (Int × Int)) (e : Edge)
    (h : e ∈ dedup es seen) : e ∈ es ∧ (e.src.id, e.dst.id) ∉ seen := by
  induction es generalizing seen with
  | nil => simp [dedup] at h
  | cons x es ih =>
    unfold dedup at h
    split at h
    · obtain ⟨h1, h2⟩ := ih _ h
      exact ⟨by simp [h1], h2⟩
    · rename_i hns
      rcases List.mem_cons.mp h with rfl | h
      · exact ⟨by simp, hns⟩
      · obtain ⟨h1, h2⟩ := ih _ h
        simp only [List.mem_cons, not_or] at h2
        exact ⟨by simp [h1], h2.2.2⟩

/-- The unordered pair of an edge's ends occurs at most once in `dedup`. -/
theorem dedup_pairwise (es : List Edge) (seen : List (Int × Int)) :
    (dedup es seen).Pairwise (fun e e' =>
      ¬ (e.src.id = e'.src.id ∧ e.dst.id = e'.dst.id) ∧
      ¬ (e.src.id = e'.dst.id ∧ e.dst.id = e'.src.id)) := by
  induction es generalizing seen with
  | nil => simp [dedup]
  | cons x es ih =>
    unfold dedup
    split
    · exact ih _
    · rw [List.pairwise_cons]
      refine ⟨?_, ih _⟩
      intro y hy
      have := (mem_dedup_sub _ _ _ hy).2
      simp only [List.mem_cons, Prod.mk.injEq, not_or] at this
      constructor
      · rintro ⟨h1, h2⟩; exact this.1 ⟨h1.symm, h2.symm⟩
      · rintro ⟨h1, h2⟩; exact this.2.1 ⟨h2.symm, h1.symm⟩

/-- Every edge not seen before survives `dedup`, up to edges with the same ends. -/
theorem mem_dedup_of (es : List Edge) (seen : List (Int × Int))
    (hsym : ∀ a b, (a, b) ∈ seen → (b, a) ∈ seen) (e : Edge) (h : e ∈ es)
    (hu : ∀ e' ∈ es, ((e'.src.id = e.src.id ∧ e'.dst.id = e.dst.id) ∨
      (e'.src.id = e.dst.id ∧ e'.dst.id = e.src.id)) → e' = e)
    (hns : (e.src.id, e.dst.id) ∉ seen) : e ∈ dedup es seen := by
  induction es generalizing seen with
  | nil => cases h
  | cons x es ih =>
    unfold dedup
    by_cases hx : (x.src.id, x.dst.id) ∈ seen
    · rw [if_pos hx]
      rcases List.mem_cons.mp h with rfl | h
      · exact absurd hx hns
      · exact ih seen hsym h (fun e' he' => hu e' (by simp [he'])) hns
    · rw [if_neg hx]
      by_cases hxe : x = e
      · simp [hxe]
      · rcases List.mem_cons.mp h with rfl | h
        · exact absurd rfl hxe
        · refine List.mem_cons_of_mem _ (ih _ ?_ h (fun e' he' => hu e' (by simp [he'])) ?_)
          · intro a b hab
            simp only [List.mem_cons, Prod.mk.injEq] at hab ⊢
            rcases hab with ⟨h1, h2⟩ | ⟨h1, h2⟩ | hab
            · exact .inr (.inl ⟨h2, h1⟩)
            · exact .inl ⟨h2, h1⟩
            · exact .inr (.inr (hsym a b hab))
          · simp only [List.mem_cons, Prod.mk.injEq, not_or]
            refine ⟨?_, ?_, hns⟩
            · rintro ⟨h1, h2⟩
              exact hxe (hu x (by simp) (.inl ⟨h1.symm, h2.symm⟩))
            · rintro ⟨h1, h2⟩
              exact hxe (hu x (by simp) (.inr ⟨h2.symm, h1.symm⟩))

private theorem mem_rows (ed : Adj) (o : EdgeOrder) (e : Edge) :
    e ∈ ((o.rows.run ed.entries).flatMap fun kr =>
      ((o.row kr.1).run kr.2.entries).map Prod.snd) ↔ ∃ a b, ed.at a b = some e := by
  simp only [List.mem_flatMap, Order.mem_run, List.mem_map]
  constructor
  · rintro ⟨⟨a, r⟩, hr, ⟨b, e'⟩, he, rfl⟩
    refine ⟨a, b, ?_⟩
    unfold Adj.at Adj.row
    rw [(GoMap.get?_eq_some ed a r).mpr hr]
    exact (GoMap.get?_eq_some _ _ _).mpr he
  · rintro ⟨a, b, he⟩
    unfold Adj.at Adj.row at he
    cases hr : ed.get? a with
    | none => rw [hr] at he; cases he
    | some r =>
      rw [hr] at he
      exact ⟨(a, r), (GoMap.get?_eq_some _ _ _).mp hr, (b, e), (GoMap.get?_eq_some _ _ _).mp he, rfl⟩

/-- Every listed edge is the edge reported for its own ends. -/
theorem weightedEdges_sound {b : Builder} (h : Inv b) (o : EdgeOrder) {e : Edge}
    (he : e ∈ b.weightedEdges o) : b.weightedEdge e.src.id e.dst.id = some e := by
  have hE := h.edges
  unfold Builder.weightedEdges at he
  unfold Builder.weightedEdge
  cases hb : b.edges with
  | directed fr to =>
    rw [hb] at hE he
    simp only [List.mem_flatMap, Order.mem_run, List.mem_map] at he
    obtain ⟨⟨k, n⟩, hn, ⟨v, e'⟩, hv, rfl⟩ := he
    have hat : fr.at n.id v = some e' := (GoMap.get?_eq_some _ _ _).mpr hv
    obtain ⟨h1, h2, -⟩ := hE.2 _ _ _ hat
    simp only
    rw [h1, h2]; exact hat
  | undirected ed =>
    rw [hb] at hE he
    simp only at he
    obtain ⟨a, c, hat⟩ := (mem_rows ed o e).mp (mem_dedup_sub _ _ _ he).1
    obtain ⟨ho, hok⟩ := hE.2 _ _ _ hat
    simp only
    rcases ho with ⟨h1, h2⟩ | ⟨h1, h2⟩
    · rw [h1, h2, hat]; simp [h1]
    · rw [h1, h2, ← hE.1, hat]; simp [h1]

/-- Every linked pair is listed: its edge, or in an undirected graph that edge reversed. -/
theorem weightedEdges_complete {b : Builder} (h : Inv b) (o : EdgeOrder) {u v : Int} {e : Edge}
    (he : b.weightedEdge u v = some e) :
    e ∈ b.weightedEdges o ∨ (b.isDirected = false ∧ e.rev ∈ b.weightedEdges o) := by
  have hE := h.edges
  obtain ⟨hs, hd, hok⟩ := weightedEdge_ends h he
  unfold Builder.weightedEdges Builder.isDirected
  unfold Builder.weightedEdge at he
  cases hb : b.edges with
  | directed fr to =>
    rw [hb] at he
    left
    simp only [List.mem_flatMap, Order.mem_run, List.mem_map]
    obtain ⟨n, hn⟩ := hok.left
    refine ⟨(u, n), (GoMap.get?_eq_some _ _ _).mp hn, (v, e), ?_, rfl⟩
    rw [h.nodeID _ _ hn]
    exact (GoMap.get?_eq_some _ _ _).mp he
  | undirected ed =>
    rw [hb] at hE he
    obtain ⟨e', he', rfl⟩ := Option.map_eq_some_iff.mp he
    obtain ⟨ho, -⟩ := hE.2 _ _ _ he'
    have hmem : e' ∈ dedup ((o.rows.run ed.entries).flatMap fun kr =>
        ((o.row kr.1).run kr.2.entries).map Prod.snd) [] := by
      refine mem_dedup_of _ _ (by simp) _ ((mem_rows ed o e').mpr ⟨u, v, he'⟩) ?_ (by simp)
      intro e'' he'' hends
      obtain ⟨a, c, hac⟩ := (mem_rows ed o e'').mp he''
      obtain ⟨ho'', -⟩ := hE.2 _ _ _ hac
      have : ed.at u v = some e'' := by
        have hcases : (a = u ∧ c = v) ∨ (a = v ∧ c = u) := by
          rcases ho with ⟨x1, x2⟩ | ⟨x1, x2⟩ <;> rcases ho'' with ⟨y1, y2⟩ | ⟨y1, y2⟩ <;>
            rcases hends with ⟨z1, z2⟩ | ⟨z1, z2⟩ <;> omega
        rcases hcases with ⟨rfl, rfl⟩ | ⟨rfl, rfl⟩
        · exact hac
        · rw [hE.1]; exact hac
      rw [he'] at this
      cases this
      rfl
    simp only
    by_cases hc : e'.src.id = u
    · simp only [hc, if_true]; left; exact hmem
    · simp only [hc, if_false, rev_rev]; right; exact ⟨trivial, hmem⟩

/-- No pair of ends is listed twice (in an undirected graph: in neither orientation). -/
theorem weightedEdges_pairwise {b : Builder} (h : Inv b) (o : EdgeOrder) :
    (b.weightedEdges o).Pairwise (fun e e' =>
      ¬ (e.src.id = e'.src.id ∧ e.dst.id = e'.dst.id) ∧
      (b.isDirected = false → ¬ (e.src.id = e'.dst.id ∧ e.dst.id = e'.src.id))) := by
  have hE := h.edges
  unfold Builder.weightedEdges Builder.isDirected
  cases hb : b.edges with
  | directed fr to =>
    rw [hb] at hE
    simp only [Bool.true_eq_false, false_implies, and_true]
    have hsrc : ∀ u v e, (v, e) ∈ (fr.row u).entries → e.src.id = u ∧ e.dst.id = v := by
      intro u v e hve
      have hat : fr.at u v = some e := (GoMap.get?_eq_some _ _ _).mpr hve
      exact ⟨(hE.2 _ _ _ hat).1, (hE.2 _ _ _ hat).2.1⟩
    rw [List.pairwise_flatMap]
    constructor
    · rintro ⟨k, n⟩ -
      simp only
      rw [List.pairwise_map]
      have hnd := (o.row n.id).nodup_run (fr.row n.id).entries_nodup
      refine List.Pairwise.imp_of_mem ?_ hnd
      rintro ⟨v, e⟩ ⟨v', e'⟩ hm hm' hne ⟨-, heq⟩
      rw [Order.mem_run] at hm hm'
      have h1 := (hsrc _ _ _ hm).2
      have h2 := (hsrc _ _ _ hm').2
      simp only at heq
      have hv : v = v' := by omega
      subst hv
      have e1 := (GoMap.get?_eq_some _ _ _).mpr hm
      have e2 := (GoMap.get?_eq_some _ _ _).mpr hm'
      rw [e1] at e2
      cases e2
      exact hne rfl
    · have hnd := o.nodes.nodup_run b.nodes.entries_nodup
      refine List.Pairwise.imp_of_mem ?_ hnd
      rintro ⟨k, n⟩ ⟨k', n'⟩ hm hm' hne e he e' he' ⟨heq, -⟩
      rw [Order.mem_run] at hm hm'
      simp only [List.mem_map, Order.mem_run] at he he'
      obtain ⟨⟨v, e⟩, hv, rfl⟩ := he
      obtain ⟨⟨v', e'⟩, hv', rfl⟩ := he'
      have h1 := (hsrc _ _ _ hv).1
      have h2 := (hsrc _ _ _ hv').1
      have k1 := h.nodeID _ _ ((GoMap.get?_eq_some _ _ _).mpr hm)
      have k2 := h.nodeID _ _ ((GoMap.get?_eq_some _ _ _).mpr hm')
      simp only at heq
      have hk : k = k' := by omega
      subst hk
      have e1 := (GoMap.get?_eq_some _ _ _).mpr hm
      have e2 := (GoMap.get?_eq_some _ _ _).mpr hm'
      rw [e1] at e2
      cases e2
      exact hne rfl
  | undirected ed =>
    simp only
    refine (dedup_pairwise _ _).imp ?_
    intro a c hac
    exact ⟨hac.1, fun _ => hac.2⟩

end Netscrape.Gonum
