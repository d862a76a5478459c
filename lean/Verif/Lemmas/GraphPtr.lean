import Verif.Spec.GraphPtr
import Verif.Spec.Graph
import Verif.Lemmas.MapVals

/-!
# Graphs of objects and graphs of values

`abs` turns a graph of objects into a graph of values that records which objects it was made of: a node
value carries the address of the object, in unary, where its DOTID was; an edge value carries it as the
address of its UID, and has the DOTID every new edge has. No code of pkg/graph/memory/wg.go reads a DOTID
or the address of a UID, so the calls of the two models correspond (`sim_step`).
-/

namespace Netscrape.GraphPtr
open Netscrape.Spec.GraphPtr
open Netscrape.Graph (Opt Err applyAll mkEdge mkNode)

def mark (p : Nat) : String := String.ofList (List.replicate p 'x')

theorem mark_inj {p q : Nat} (h : mark p = mark q) : p = q := by
  have := congrArg (fun s => s.toList.length) h
  simpa [mark] using this

def absN (m : Mem) (p : NPtr) : Graph.Node := { m.node p with dotid := mark p }

theorem absN_inj {m : Mem} {p q : NPtr} (h : absN m p = absN m q) : p = q :=
  mark_inj (congrArg Graph.Node.dotid h)

@[simp] theorem absN_id (m : Mem) (p : NPtr) : (absN m p).id = m.id p := rfl
@[simp] theorem absN_key (m : Mem) (p : NPtr) : (absN m p).key = m.key p := rfl
@[simp] theorem absN_uid (m : Mem) (p : NPtr) : (absN m p).uid = (m.node p).uid := rfl

def absE (m : Mem) (p : EPtr) : Graph.Edge :=
  ⟨⟨p, (m.edge p).uid.str⟩, (m.edge p).attrs, absN m (m.edge p).src, absN m (m.edge p).dst,
    (m.edge p).uid.str, (m.edge p).weight⟩

theorem absE_inj {m : Mem} {p q : EPtr} (h : absE m p = absE m q) : p = q :=
  congrArg (fun e => e.uid.addr) h

def absAdj (m : Mem) (a : Adj) : Gonum.Adj := a.mapVals fun r => r.mapVals (absE m)

def absEdges (m : Mem) : Edges → Gonum.Edges
  | .directed fr to => .directed (absAdj m fr) (absAdj m to)
  | .undirected ed => .undirected (absAdj m ed)

def absB (m : Mem) (b : Builder) : Gonum.Builder := ⟨b.nodes.mapVals (absN m), b.ids, absEdges m b.edges⟩

def absG (m : Mem) (g : WG) : Graph.WG := ⟨absB m g.b, g.uid, g.dotid, g.nodes.mapVals (absN m)⟩

def abs (s : St) : Graph.St := ⟨s.mem.heap, absG s.mem s.g⟩

/-! ## Correspondence of the gonum functions -/

@[simp] theorem absAdj_row (m : Mem) (a : Adj) (i : Int) :
    (absAdj m a).row i = (a.row i).mapVals (absE m) := by
  unfold Gonum.Adj.row Adj.row absAdj
  rw [GoMap.get?_mapVals]
  cases a.get? i <;> rfl

@[simp] theorem absAdj_at (m : Mem) (a : Adj) (i j : Int) :
    (absAdj m a).at i j = (a.at i j).map (absE m) := by
  unfold Gonum.Adj.at Adj.at
  simp

theorem absAdj_put (m : Mem) (a : Adj) (i j : Int) (e : EPtr) :
    absAdj m (a.put i j e) = (absAdj m a).put i j (absE m e) := by
  unfold Gonum.Adj.put Adj.put
  rw [absAdj_row, ← GoMap.mapVals_set]
  exact GoMap.mapVals_set _ _ _ _

theorem absAdj_del (m : Mem) (a : Adj) (i : Int) : absAdj m (a.del i) = (absAdj m a).del i :=
  GoMap.mapVals_del _ _ _

theorem absAdj_cut (m : Mem) (a : Adj) (i j : Int) : absAdj m (a.cut i j) = (absAdj m a).cut i j := by
  unfold Gonum.Adj.cut Adj.cut
  rw [show (absAdj m a).get? i = (a.get? i).map fun r => r.mapVals (absE m) from GoMap.get?_mapVals _ _ _]
  cases a.get? i with
  | none => rfl
  | some r =>
    dsimp only [Option.map]
    rw [← GoMap.mapVals_del]
    exact GoMap.mapVals_set _ _ _ _

theorem absAdj_cutAll (m : Mem) (ks : List Int) (i : Int) : ∀ a : Adj,
    absAdj m (a.cutAll ks i) = (absAdj m a).cutAll ks i := by
  induction ks with
  | nil => intro a; rfl
  | cons k ks ih =>
    intro a
    show absAdj m ((a.cut k i).cutAll ks i) = ((absAdj m a).cut k i).cutAll ks i
    rw [ih, absAdj_cut]

theorem absEdges_put (m : Mem) (es : Edges) (e : EPtr) :
    absEdges m (es.put (m.id (m.edge e).src) (m.id (m.edge e).dst) e) = (absEdges m es).put (absE m e) := by
  cases es with
  | directed fr to => simp only [Edges.put, absEdges, absAdj_put, Gonum.Edges.put]; rfl
  | undirected ed => simp only [Edges.put, absEdges, absAdj_put, Gonum.Edges.put]; rfl

theorem absEdges_cut (m : Mem) (es : Edges) (f t : Int) :
    absEdges m (es.cut f t) = (absEdges m es).cut f t := by
  cases es <;> simp only [Edges.cut, absEdges, absAdj_cut, Gonum.Edges.cut]

theorem absEdges_isolate (m : Mem) (es : Edges) (i : Int) :
    absEdges m (es.isolate i) = (absEdges m es).isolate i := by
  cases es with
  | directed fr to =>
    simp only [Edges.isolate, absEdges, Gonum.Edges.isolate, absAdj_cutAll, absAdj_del, absAdj_row,
      GoMap.keys_mapVals]
    rw [← absAdj_cutAll, absAdj_row, GoMap.keys_mapVals]
  | undirected ed =>
    simp only [Edges.isolate, absEdges, Gonum.Edges.isolate, absAdj_cutAll, absAdj_del, absAdj_row,
      GoMap.keys_mapVals]

theorem absB_addNode (m : Mem) (b : Builder) (p : NPtr) :
    (absB m b).addNode (absN m p) = (b.addNode m p).map (absB m) := by
  unfold Gonum.Builder.addNode Builder.addNode
  simp only [absB, GoMap.get?_mapVals, absN_id]
  cases b.nodes.get? (m.id p) with
  | some q => rfl
  | none => simp only [Option.map, GoMap.mapVals_set, absB]

theorem absB_touch (m : Mem) (b : Builder) (p : NPtr) :
    (absB m b).touch (absN m p) = absB m (b.touch m p) := by
  unfold Gonum.Builder.touch Builder.touch
  rw [absB_addNode]
  cases b.addNode m p with
  | some b' => rfl
  | none => simp only [Option.map, absB, GoMap.mapVals_set, absN_id]

theorem absB_setWeightedEdge (m : Mem) (b : Builder) (e : EPtr) :
    (absB m b).setWeightedEdge (absE m e) = (b.setWeightedEdge m e).map (absB m) := by
  unfold Gonum.Builder.setWeightedEdge Builder.setWeightedEdge
  simp only [show (absE m e).src = absN m (m.edge e).src from rfl,
    show (absE m e).dst = absN m (m.edge e).dst from rfl, absN_id]
  by_cases h : m.id (m.edge e).src = m.id (m.edge e).dst
  · rw [if_pos h, if_pos h]; rfl
  · rw [if_neg h, if_neg h, absB_touch, absB_touch]
    simp only [Option.map, absB, absEdges_put]

theorem absB_removeEdge (m : Mem) (b : Builder) (f t : Int) :
    absB m (b.removeEdge f t) = (absB m b).removeEdge f t := by
  unfold Gonum.Builder.removeEdge Builder.removeEdge
  simp only [absB, GoMap.get?_mapVals]
  cases b.nodes.get? f with
  | none => rfl
  | some _ =>
    cases b.nodes.get? t with
    | none => rfl
    | some _ => simp only [Option.map, absEdges_cut]

theorem absB_removeNode (m : Mem) (b : Builder) (i : Int) :
    absB m (b.removeNode i) = (absB m b).removeNode i := by
  unfold Gonum.Builder.removeNode Builder.removeNode
  simp only [absB, GoMap.get?_mapVals]
  cases b.nodes.get? i with
  | none => rfl
  | some _ => simp only [Option.map, absEdges_isolate, GoMap.mapVals_del]

/-! ## Correspondence of the graph's methods -/

theorem absG_node (m : Mem) (g : WG) (u : Uid) :
    Graph.node (absG m g) u = match node g u with
      | .ok p => .ok (absN m p)
      | .err e => .err e
      | .panic => .panic := by
  unfold Graph.node node absG
  simp only [GoMap.get?_mapVals]
  cases g.nodes.get? u.str <;> rfl

theorem absG_addNode (m : Mem) (g : WG) (p : NPtr) (opts : List Opt) :
    Graph.addNode (absG m g) (absN m p) opts =
      ((addNode m g p opts).1, absG m (addNode m g p opts).2) := by
  unfold Graph.addNode addNode Gonum.Builder.node?
  have hb := absB_addNode m g.b p
  simp only [absG, show (absB m g.b).nodes = g.b.nodes.mapVals (absN m) from rfl, GoMap.get?_mapVals,
    absN_id, absN_key] at *
  cases g.b.nodes.get? (m.id p) with
  | some q =>
    simp only [Option.map]
    cases g.nodes.get? (m.key p) with
    | none => simp only [GoMap.mapVals_set]
    | some r =>
      by_cases hu : (applyAll opts).upsert = false
      · simp only [hu, if_pos]
      · rw [if_neg hu, if_neg hu]
        simp only [GoMap.mapVals_set]
  | none =>
    simp only [Option.map, hb]
    cases g.b.addNode m p with
    | none => rfl
    | some b' => simp only [GoMap.mapVals_set]

theorem absG_removeNode (m : Mem) (g : WG) (u : Uid) :
    Graph.removeNode (absG m g) u = absG m (removeNode m g u) := by
  unfold Graph.removeNode removeNode Graph.removeLookup
  simp only [absG, GoMap.get?_mapVals]
  cases g.nodes.get? u.str with
  | none => rfl
  | some p =>
    simp only [Option.map, Graph.removeApply, absN_id, absB_removeNode, GoMap.mapVals_del]

theorem absG_unlink (m : Mem) (g : WG) (f t : Uid) :
    Graph.unlink (absG m g) f t = absG m (unlink m g f t) := by
  unfold Graph.unlink unlink Graph.unlinkLookup
  simp only [absG, GoMap.get?_mapVals]
  cases g.nodes.get? f.str with
  | none => rfl
  | some p =>
    cases g.nodes.get? t.str with
    | none => rfl
    | some q => simp only [Option.map, Graph.unlinkApply, absN_id, absB_removeEdge]

/-- The edge the tables hold for a pair of IDs. -/
def stored (b : Builder) (u v : Int) : Option EPtr :=
  match b.edges with
  | .directed fr _ => fr.at u v
  | .undirected ed => ed.at u v

/-- What `Edge` answers in the two models. -/
theorem edge_abs (m : Mem) (g : WG) (u v : Uid) :
    match Graph.edge (absG m g) u v with
    | .ok x => ∃ f t, g.nodes.get? u.str = some f ∧ g.nodes.get? v.str = some t ∧
        stored g.b (m.id f) (m.id t) = some x.uid.addr ∧
        ((edge m g u v = (.ok x.uid.addr, m) ∧ x = absE m x.uid.addr) ∨
        (edge m g u v = (.ok (m.reversed x.uid.addr).1, (m.reversed x.uid.addr).2) ∧
          x = (absE m x.uid.addr).rev ∧ m.id (m.edge x.uid.addr).src ≠ m.id f ∧
          ∃ ed, g.b.edges = .undirected ed))
    | .err e => edge m g u v = (.err e, m)
    | .panic => False := by
  unfold Graph.edge edge
  simp only [absG, GoMap.get?_mapVals]
  cases hf : g.nodes.get? u.str with
  | none => rfl
  | some f =>
    cases ht : g.nodes.get? v.str with
    | none => rfl
    | some t =>
      simp only [Option.map, absN_id, Gonum.Builder.weightedEdge, Builder.weightedEdge, absB, stored]
      cases hb : g.b.edges with
      | directed fr to =>
        simp only [absEdges, absAdj_at]
        cases hat : fr.at (m.id f) (m.id t) with
        | none => rfl
        | some e => exact ⟨f, t, rfl, rfl, hat, .inl ⟨rfl, rfl⟩⟩
      | undirected ed =>
        simp only [absEdges, absAdj_at]
        cases hat : ed.at (m.id f) (m.id t) with
        | none => rfl
        | some e =>
          simp only [Option.map]
          by_cases hs : m.id (m.edge e).src = m.id f
          · have e1 : (absE m e).src.id = m.id f := hs
            simp only [e1, hs, if_true]
            exact ⟨f, t, rfl, rfl, hat, .inl ⟨rfl, rfl⟩⟩
          · have e1 : ¬ (absE m e).src.id = m.id f := hs
            simp only [e1, hs, if_false]
            exact ⟨f, t, rfl, rfl, hat, .inr ⟨rfl, rfl, hs, ed, rfl⟩⟩

/-! ## Memory -/

/-- What never changes about an object once it exists. -/
structure Evolves (m m' : Mem) : Prop where
  node : ∀ p, m.NodeOk p → m'.NodeOk p ∧ absN m' p = absN m p
  edge : ∀ p, m.EdgeOk p → m'.EdgeOk p ∧ (m'.edge p).uid = (m.edge p).uid ∧
    (m'.edge p).attrs = (m.edge p).attrs ∧ (m'.edge p).src = (m.edge p).src ∧
    (m'.edge p).dst = (m.edge p).dst ∧ (m'.edge p).weight = (m.edge p).weight

theorem Evolves.refl (m : Mem) : Evolves m m :=
  ⟨fun _ h => ⟨h, rfl⟩, fun _ h => ⟨h, rfl, rfl, rfl, rfl, rfl⟩⟩

theorem Evolves.trans {a b c : Mem} (h : Evolves a b) (h' : Evolves b c) : Evolves a c := by
  refine ⟨fun p hp => ?_, fun p hp => ?_⟩
  · obtain ⟨h1, h2⟩ := h.node p hp
    obtain ⟨h3, h4⟩ := h'.node p h1
    exact ⟨h3, h4.trans h2⟩
  · obtain ⟨h1, h2, h3, h4, h5, h6⟩ := h.edge p hp
    obtain ⟨g1, g2, g3, g4, g5, g6⟩ := h'.edge p h1
    exact ⟨g1, g2.trans h2, g3.trans h3, g4.trans h4, g5.trans h5, g6.trans h6⟩

theorem evolves_heap (m : Mem) (h : Heap) : Evolves m { m with heap := h } :=
  ⟨fun _ h => ⟨h, rfl⟩, fun _ h => ⟨h, rfl, rfl, rfl, rfl, rfl⟩⟩

theorem node_allocNode_old (m : Mem) (n : Graph.Node) (p : NPtr) (hp : m.NodeOk p) :
    (m.allocNode n).2.node p = m.node p := by
  simp [Mem.allocNode, Mem.node, List.getD, List.getElem?_append_left hp]

theorem node_allocNode_new (m : Mem) (n : Graph.Node) : (m.allocNode n).2.node (m.allocNode n).1 = n := by
  simp [Mem.allocNode, Mem.node, List.getD]

theorem edge_allocEdge_old (m : Mem) (e : EdgeObj) (p : EPtr) (hp : m.EdgeOk p) :
    (m.allocEdge e).2.edge p = m.edge p := by
  simp [Mem.allocEdge, Mem.edge, List.getD, List.getElem?_append_left hp]

theorem edge_allocEdge_new (m : Mem) (e : EdgeObj) : (m.allocEdge e).2.edge (m.allocEdge e).1 = e := by
  simp [Mem.allocEdge, Mem.edge, List.getD]

theorem nodeOk_allocNode (m : Mem) (n : Graph.Node) (p : NPtr) :
    (m.allocNode n).2.NodeOk p ↔ m.NodeOk p ∨ p = (m.allocNode n).1 := by
  simp only [Mem.allocNode, Mem.NodeOk, List.length_append, List.length_singleton]
  exact Nat.lt_succ_iff_lt_or_eq

theorem edgeOk_allocEdge (m : Mem) (e : EdgeObj) (p : EPtr) :
    (m.allocEdge e).2.EdgeOk p ↔ m.EdgeOk p ∨ p = (m.allocEdge e).1 := by
  simp only [Mem.allocEdge, Mem.EdgeOk, List.length_append, List.length_singleton]
  exact Nat.lt_succ_iff_lt_or_eq

theorem evolves_allocNode (m : Mem) (n : Graph.Node) : Evolves m (m.allocNode n).2 := by
  refine ⟨fun p hp => ⟨(nodeOk_allocNode m n p).mpr (.inl hp), ?_⟩,
    fun _ h => ⟨h, rfl, rfl, rfl, rfl, rfl⟩⟩
  unfold absN
  rw [node_allocNode_old m n p hp]

theorem evolves_allocEdge (m : Mem) (e : EdgeObj) : Evolves m (m.allocEdge e).2 := by
  refine ⟨fun _ h => ⟨h, rfl⟩, fun p hp => ⟨(edgeOk_allocEdge m e p).mpr (.inl hp), ?_⟩⟩
  rw [edge_allocEdge_old m e p hp]
  exact ⟨rfl, rfl, rfl, rfl, rfl⟩

theorem node_setNodeDOT (m : Mem) (p q : NPtr) (x : String) (hp : m.NodeOk p) :
    (m.setNodeDOT p x).node q = if q = p then { m.node p with dotid := x } else m.node q := by
  have hp' : p < m.nodes.length := hp
  by_cases h : q = p
  · subst h
    rw [if_pos rfl]
    simp [Mem.setNodeDOT, Mem.node, List.getD, hp']
  · rw [if_neg h]
    simp [Mem.setNodeDOT, Mem.node, List.getD, List.getElem?_set_ne (Ne.symm h)]

theorem edge_setEdgeDOT (m : Mem) (p q : EPtr) (x : String) (hp : m.EdgeOk p) :
    (m.setEdgeDOT p x).edge q = if q = p then { m.edge p with dotid := x } else m.edge q := by
  have hp' : p < m.edges.length := hp
  by_cases h : q = p
  · subst h
    rw [if_pos rfl]
    simp [Mem.setEdgeDOT, Mem.edge, List.getD, hp']
  · rw [if_neg h]
    simp [Mem.setEdgeDOT, Mem.edge, List.getD, List.getElem?_set_ne (Ne.symm h)]

theorem evolves_setNodeDOT (m : Mem) (p : NPtr) (x : String) (hp : m.NodeOk p) :
    Evolves m (m.setNodeDOT p x) := by
  refine ⟨fun q hq => ⟨?_, ?_⟩, fun _ h => ⟨h, rfl, rfl, rfl, rfl, rfl⟩⟩
  · simpa [Mem.setNodeDOT, Mem.NodeOk] using hq
  · unfold absN
    rw [node_setNodeDOT m p q x hp]
    by_cases h : q = p
    · subst h; rw [if_pos rfl]
    · rw [if_neg h]

theorem evolves_setEdgeDOT (m : Mem) (p : EPtr) (x : String) (hp : m.EdgeOk p) :
    Evolves m (m.setEdgeDOT p x) := by
  refine ⟨fun _ h => ⟨h, rfl⟩, fun q hq => ⟨?_, ?_⟩⟩
  · simpa [Mem.setEdgeDOT, Mem.EdgeOk] using hq
  · rw [edge_setEdgeDOT m p q x hp]
    by_cases h : q = p
    · subst h; rw [if_pos rfl]; exact ⟨rfl, rfl, rfl, rfl, rfl⟩
    · rw [if_neg h]; exact ⟨rfl, rfl, rfl, rfl, rfl⟩

theorem evolves_makeNode (m : Mem) (id : Int) (e : Graph.Ent) (opts : List Opt) :
    Evolves m (makeNode m id e opts).2 :=
  (evolves_heap m _).trans (evolves_allocNode _ _)

theorem evolves_newNode (m : Mem) (g : WG) (o : Order (Int × Unit)) (e : Graph.Ent) (opts : List Opt) :
    Evolves m (newNode m g o e opts).2 := by
  unfold newNode
  cases g.b.newNodeID o with
  | none => exact Evolves.refl m
  | some i =>
    have h := evolves_makeNode m i e opts
    simp only []
    split <;> exact h

theorem evolves_edge (m : Mem) (g : WG) (u v : Uid) : Evolves m (edge m g u v).2 := by
  have h := edge_abs m g u v
  split at h
  · obtain ⟨f, t, -, -, -, h | h⟩ := h
    · rw [h.1]; exact Evolves.refl m
    · rw [h.1]; exact evolves_allocEdge _ _
  · rw [h]; exact Evolves.refl m
  · exact h.elim

theorem Evolves.absE {m m' : Mem} (h : Evolves m m') (hs : Sound m) {p : EPtr} (hp : m.EdgeOk p) :
    absE m' p = absE m p := by
  obtain ⟨-, h1, h2, h3, h4, h5⟩ := h.edge p hp
  obtain ⟨hsrc, hdst⟩ := hs p hp
  unfold GraphPtr.absE
  rw [h1, h2, h3, h4, h5, (h.node _ hsrc).2, (h.node _ hdst).2]

theorem Evolves.id {m m' : Mem} (h : Evolves m m') {p : NPtr} (hp : m.NodeOk p) : m'.id p = m.id p :=
  show (absN m' p).id = (absN m p).id from congrArg _ (h.node p hp).2

theorem Evolves.key {m m' : Mem} (h : Evolves m m') {p : NPtr} (hp : m.NodeOk p) : m'.key p = m.key p :=
  show (absN m' p).key = (absN m p).key from congrArg _ (h.node p hp).2

/-! ## Pointers of a graph are valid -/

def AdjOk (m : Mem) (a : Adj) : Prop := ∀ i j e, a.at i j = some e → m.EdgeOk e

def EdgesOk (m : Mem) : Edges → Prop
  | .directed fr to => AdjOk m fr ∧ AdjOk m to
  | .undirected ed => AdjOk m ed

structure PtrsOk (m : Mem) (g : WG) : Prop where
  nodes : ∀ k p, g.nodes.get? k = some p → m.NodeOk p
  bnodes : ∀ i p, g.b.nodes.get? i = some p → m.NodeOk p
  edges : EdgesOk m g.b.edges

structure Wf (s : St) : Prop where
  sound : Sound s.mem
  ptrs : PtrsOk s.mem s.g

theorem absAdj_evolves {m m' : Mem} (h : Evolves m m') (hs : Sound m) {a : Adj} (ha : AdjOk m a) :
    absAdj m' a = absAdj m a := by
  refine GoMap.get?_congr_mapVals fun i r hi => GoMap.get?_congr_mapVals fun j e hj => ?_
  refine h.absE hs (ha i j e ?_)
  unfold Adj.at Adj.row
  rw [hi]
  exact hj

theorem absG_evolves {m m' : Mem} (h : Evolves m m') (hs : Sound m) {g : WG} (hg : PtrsOk m g) :
    absG m' g = absG m g := by
  unfold absG absB
  have h1 : g.nodes.mapVals (absN m') = g.nodes.mapVals (absN m) :=
    GoMap.get?_congr_mapVals fun k p hk => (h.node p (hg.nodes k p hk)).2
  have h2 : g.b.nodes.mapVals (absN m') = g.b.nodes.mapVals (absN m) :=
    GoMap.get?_congr_mapVals fun k p hk => (h.node p (hg.bnodes k p hk)).2
  have h3 : absEdges m' g.b.edges = absEdges m g.b.edges := by
    have := hg.edges
    revert this
    cases g.b.edges with
    | directed fr to =>
      intro this
      simp only [absEdges, absAdj_evolves h hs this.1, absAdj_evolves h hs this.2]
    | undirected ed =>
      intro this
      simp only [absEdges, absAdj_evolves h hs this]
  rw [h1, h2, h3]

theorem AdjOk.evolves {m m' : Mem} (h : Evolves m m') {a : Adj} (ha : AdjOk m a) : AdjOk m' a :=
  fun i j e he => (h.edge e (ha i j e he)).1

theorem PtrsOk.evolves {m m' : Mem} (h : Evolves m m') {g : WG} (hg : PtrsOk m g) : PtrsOk m' g := by
  refine ⟨fun k p hk => (h.node p (hg.nodes k p hk)).1, fun k p hk => (h.node p (hg.bnodes k p hk)).1, ?_⟩
  have := hg.edges
  revert this
  cases g.b.edges with
  | directed fr to => exact fun x => ⟨x.1.evolves h, x.2.evolves h⟩
  | undirected ed => exact fun x => AdjOk.evolves h x

theorem adjOk_empty (m : Mem) : AdjOk m GoMap.empty := by
  intro i j e he
  simp [Adj.at, Adj.row] at he

theorem AdjOk.put {m : Mem} {a : Adj} (ha : AdjOk m a) {e : EPtr} (he : m.EdgeOk e) (i j : Int) :
    AdjOk m (a.put i j e) := by
  intro i' j' e' h
  unfold Adj.put Adj.at Adj.row at h
  rw [GoMap.get?_set] at h
  by_cases hi : i' = i
  · rw [if_pos hi, Option.getD_some, GoMap.get?_set] at h
    by_cases hj : j' = j
    · rw [if_pos hj] at h; cases h; exact he
    · rw [if_neg hj] at h; exact ha i j' e' h
  · rw [if_neg hi] at h; exact ha i' j' e' h

theorem AdjOk.cut {m : Mem} {a : Adj} (ha : AdjOk m a) (i j : Int) : AdjOk m (a.cut i j) := by
  intro i' j' e' h
  unfold Adj.cut at h
  cases hr : a.get? i with
  | none => rw [hr] at h; exact ha i' j' e' h
  | some r =>
    rw [hr] at h
    unfold Adj.at Adj.row at h
    rw [GoMap.get?_set] at h
    by_cases hi : i' = i
    · rw [if_pos hi, Option.getD_some, GoMap.get?_del] at h
      by_cases hj : j' = j
      · rw [if_pos hj] at h; cases h
      · rw [if_neg hj] at h
        refine ha i j' e' ?_
        unfold Adj.at Adj.row
        rw [hr]; exact h
    · rw [if_neg hi] at h; exact ha i' j' e' h

theorem AdjOk.cutAll {m : Mem} (ks : List Int) (i : Int) : ∀ {a : Adj}, AdjOk m a → AdjOk m (a.cutAll ks i) := by
  induction ks with
  | nil => exact fun h => h
  | cons k ks ih => exact fun h => ih (h.cut k i)

theorem AdjOk.del {m : Mem} {a : Adj} (ha : AdjOk m a) (i : Int) : AdjOk m (a.del i) := by
  intro i' j' e' h
  unfold Adj.at Adj.row at h
  rw [GoMap.get?_del] at h
  by_cases hi : i' = i
  · rw [if_pos hi] at h; simp at h
  · rw [if_neg hi] at h; exact ha i' j' e' h

theorem EdgesOk.put {m : Mem} {es : Edges} (h : EdgesOk m es) {e : EPtr} (he : m.EdgeOk e) (i j : Int) :
    EdgesOk m (es.put i j e) := by
  cases es with
  | directed fr to => exact ⟨h.1.put he _ _, h.2.put he _ _⟩
  | undirected ed => exact (AdjOk.put h he _ _).put he _ _

theorem EdgesOk.cut {m : Mem} {es : Edges} (h : EdgesOk m es) (i j : Int) : EdgesOk m (es.cut i j) := by
  cases es with
  | directed fr to => exact ⟨h.1.cut _ _, h.2.cut _ _⟩
  | undirected ed => exact (AdjOk.cut h _ _).cut _ _

theorem EdgesOk.isolate {m : Mem} {es : Edges} (h : EdgesOk m es) (i : Int) : EdgesOk m (es.isolate i) := by
  cases es with
  | directed fr to => exact ⟨(h.1.del _).cutAll _ _, (h.2.cutAll _ _).del _⟩
  | undirected ed => exact (AdjOk.cutAll _ _ h).del _

theorem touch_edges (m : Mem) (b : Builder) (p : NPtr) : (b.touch m p).edges = b.edges := by
  unfold Builder.touch Builder.addNode
  cases b.nodes.get? (m.id p) <;> rfl

theorem touch_nodes (m : Mem) (b : Builder) (p : NPtr) :
    (b.touch m p).nodes = b.nodes.set (m.id p) p := by
  unfold Builder.touch Builder.addNode
  cases b.nodes.get? (m.id p) <;> rfl

theorem setWeightedEdge_eq {m : Mem} {b b' : Builder} {e : EPtr} (h : b.setWeightedEdge m e = some b') :
    b'.edges = b.edges.put (m.id (m.edge e).src) (m.id (m.edge e).dst) e ∧
    b'.nodes = (b.nodes.set (m.id (m.edge e).src) (m.edge e).src).set (m.id (m.edge e).dst) (m.edge e).dst := by
  unfold Builder.setWeightedEdge at h
  by_cases hi : m.id (m.edge e).src = m.id (m.edge e).dst
  · simp [hi] at h
  · simp only [hi, if_false, Option.some.injEq] at h
    subst h
    simp [touch_edges, touch_nodes]

/-! ## Every call keeps pointers valid and corresponds to calls of the value model -/

theorem sound_evolves {m m' : Mem} (hs : Sound m) (h : Evolves m m')
    (hn : ∀ p, m'.EdgeOk p → ¬ m.EdgeOk p → m'.NodeOk (m'.edge p).src ∧ m'.NodeOk (m'.edge p).dst) :
    Sound m' := by
  intro p hp
  by_cases ho : m.EdgeOk p
  · obtain ⟨-, -, -, h3, h4, -⟩ := h.edge p ho
    rw [h3, h4]
    exact ⟨(h.node _ (hs p ho).1).1, (h.node _ (hs p ho).2).1⟩
  · exact hn p hp ho

theorem sound_allocEdge {m : Mem} (hs : Sound m) (e : EdgeObj) (h1 : m.NodeOk e.src) (h2 : m.NodeOk e.dst) :
    Sound (m.allocEdge e).2 := by
  refine sound_evolves hs (evolves_allocEdge m e) fun p hp ho => ?_
  rcases (edgeOk_allocEdge m e p).mp hp with h | h
  · exact absurd h ho
  · subst h; rw [edge_allocEdge_new]; exact ⟨h1, h2⟩

theorem edge_mem {m : Mem} {g : WG} (hs : Sound m) (hg : PtrsOk m g) (u v : Uid) :
    Sound (edge m g u v).2 := by
  have h := edge_abs m g u v
  split at h
  · rename_i x _
    obtain ⟨f, t, -, -, hst, h | h⟩ := h
    · rw [h.1]; exact hs
    · rw [h.1]
      have hok : m.EdgeOk x.uid.addr := by
        have := hg.edges
        revert this hst
        unfold stored
        cases g.b.edges with
        | directed fr to => exact fun a b => b.1 _ _ _ a
        | undirected ed => exact fun a b => b _ _ _ a
      exact sound_allocEdge hs _ (hs _ hok).2 (hs _ hok).1
  · rw [h]; exact hs
  · exact h.elim

theorem stored_ok {m : Mem} {g : WG} (hg : PtrsOk m g) {i j : Int} {e : EPtr}
    (h : stored g.b i j = some e) : m.EdgeOk e := by
  have := hg.edges
  revert this h
  unfold stored
  cases g.b.edges with
  | directed fr to => exact fun a b => b.1 _ _ _ a
  | undirected ed => exact fun a b => b _ _ _ a

theorem ptrs_new (m : Mem) (d : Bool) (fresh : Uid) (opts : List Opt) : PtrsOk m (new d fresh opts) := by
  refine ⟨fun k p hk => ?_, fun k p hk => ?_, ?_⟩
  · simp [new] at hk
  · cases d <;> simp [new, newDirected, newUndirected] at hk
  · cases d
    · exact adjOk_empty m
    · exact ⟨adjOk_empty m, adjOk_empty m⟩

theorem addNode_ptrs {m : Mem} {g : WG} (hg : PtrsOk m g) {p : NPtr} (hp : m.NodeOk p) (opts : List Opt) :
    PtrsOk m (addNode m g p opts).2 := by
  have hset : ∀ x : GoMap String NPtr, (∀ k q, x.get? k = some q → m.NodeOk q) →
      ∀ k q, (x.set (m.key p) p).get? k = some q → m.NodeOk q := by
    intro x hx k q hk
    rw [GoMap.get?_set] at hk
    by_cases h : k = m.key p
    · rw [if_pos h] at hk; cases hk; exact hp
    · rw [if_neg h] at hk; exact hx k q hk
  unfold addNode
  cases hb : g.b.nodes.get? (m.id p) with
  | some q =>
    simp only []
    cases g.nodes.get? (m.key p) with
    | none => exact ⟨hset _ hg.nodes, hg.bnodes, hg.edges⟩
    | some r =>
      by_cases hu : (applyAll opts).upsert = false
      · simp only [if_pos hu]; exact hg
      · simp only [if_neg hu]; exact ⟨hset _ (hset _ hg.nodes), hg.bnodes, hg.edges⟩
  | none =>
    simp only [Builder.addNode, hb]
    refine ⟨hset _ hg.nodes, fun i q hi => ?_, hg.edges⟩
    simp only [GoMap.get?_set] at hi
    by_cases h : i = m.id p
    · rw [if_pos h] at hi; cases hi; exact hp
    · rw [if_neg h] at hi; exact hg.bnodes i q hi

theorem removeNode_ptrs {m : Mem} {g : WG} (hg : PtrsOk m g) (u : Uid) : PtrsOk m (removeNode m g u) := by
  unfold removeNode
  cases g.nodes.get? u.str with
  | none => exact hg
  | some p =>
    refine ⟨fun k q hk => ?_, fun i q hi => ?_, ?_⟩
    · simp only [GoMap.get?_del] at hk
      by_cases h : k = u.str
      · rw [if_pos h] at hk; cases hk
      · rw [if_neg h] at hk; exact hg.nodes k q hk
    · simp only [Builder.removeNode] at hi
      cases hb : g.b.nodes.get? (m.id p) with
      | none => rw [hb] at hi; exact hg.bnodes i q hi
      | some r =>
        rw [hb] at hi
        simp only [GoMap.get?_del] at hi
        by_cases h : i = m.id p
        · rw [if_pos h] at hi; cases hi
        · rw [if_neg h] at hi; exact hg.bnodes i q hi
    · simp only [Builder.removeNode]
      cases hb : g.b.nodes.get? (m.id p) with
      | none => exact hg.edges
      | some r => exact hg.edges.isolate _

theorem unlink_ptrs {m : Mem} {g : WG} (hg : PtrsOk m g) (f t : Uid) : PtrsOk m (unlink m g f t) := by
  unfold unlink
  cases g.nodes.get? f.str with
  | none => exact hg
  | some p =>
    cases g.nodes.get? t.str with
    | none => exact hg
    | some q =>
      simp only [Builder.removeEdge]
      cases hp : g.b.nodes.get? (m.id p) with
      | none => exact ⟨hg.nodes, by simpa [hp] using hg.bnodes, by simpa [hp] using hg.edges⟩
      | some r =>
        cases hq : g.b.nodes.get? (m.id q) with
        | none => exact ⟨hg.nodes, by simpa [hp, hq] using hg.bnodes, by simpa [hp, hq] using hg.edges⟩
        | some r => exact ⟨hg.nodes, hg.bnodes, hg.edges.cut _ _⟩

/-- The ways `Link` can end. -/
theorem link_cases (m : Mem) (g : WG) (fresh : Uid) (a : Nat) (f t : Uid) (opts : List Opt) :
    (∃ r, (∀ x, Graph.edge (absG m g) f t ≠ .err x ∨ x ≠ .edgeNotExist) ∧
      (edge m g f t).1 = r ∧ r ≠ .err .edgeNotExist ∧
      link m g fresh a f t opts = (r, g, (edge m g f t).2)) ∨
    (∃ p q, Graph.edge (absG m g) f t = .err .edgeNotExist ∧ edge m g f t = (.err .edgeNotExist, m) ∧
      g.nodes.get? f.str = some p ∧ g.nodes.get? t.str = some q ∧
      link m g fresh a f t opts =
        match g.b.setWeightedEdge (makeEdge m fresh a p q opts).2 (makeEdge m fresh a p q opts).1 with
        | none => (.panic, g, (makeEdge m fresh a p q opts).2)
        | some b' => (.ok (makeEdge m fresh a p q opts).1, { g with b := b' },
            (makeEdge m fresh a p q opts).2)) := by
  have he := edge_abs m g f t
  cases hx : Graph.edge (absG m g) f t with
  | ok x =>
    rw [hx] at he
    left
    obtain ⟨_, _, -, -, -, h | h⟩ := he
    · exact ⟨_, fun _ => .inl (fun e => nomatch e), rfl, by rw [h.1]; exact fun e => (nomatch e), by
        unfold link; rw [h.1]⟩
    · exact ⟨_, fun _ => .inl (fun e => nomatch e), rfl, by rw [h.1]; exact fun e => (nomatch e), by
        unfold link; rw [h.1]⟩
  | panic => rw [hx] at he; exact he.elim
  | err x =>
    rw [hx] at he
    by_cases hne : x = .edgeNotExist
    · subst hne
      right
      have hf : ∃ p q, g.nodes.get? f.str = some p ∧ g.nodes.get? t.str = some q := by
        unfold edge at he
        cases hf : g.nodes.get? f.str with
        | none => rw [hf] at he; cases he
        | some p =>
          cases ht : g.nodes.get? t.str with
          | none => rw [hf, ht] at he; cases he
          | some q => exact ⟨p, q, rfl, rfl⟩
      obtain ⟨p, q, hp, hq⟩ := hf
      refine ⟨p, q, rfl, he, hp, hq, ?_⟩
      unfold link
      rw [he]
      simp only [hp, hq]
      cases g.b.setWeightedEdge (makeEdge m fresh a p q opts).2 (makeEdge m fresh a p q opts).1 <;> rfl
    · left
      refine ⟨.err x, fun y => ?_, by simp only [he], ?_, ?_⟩
      · by_cases hy : y = .edgeNotExist
        · left; subst hy; intro h; cases h; exact hne rfl
        · exact .inr hy
      · intro h; cases h; exact hne rfl
      · unfold link
        rw [he]
        cases x <;> first | rfl | exact absurd rfl hne

theorem evolves_makeEdge (m : Mem) (fresh : Uid) (a : Nat) (p q : NPtr) (opts : List Opt) :
    Evolves m (makeEdge m fresh a p q opts).2 :=
  (evolves_heap m _).trans (evolves_allocEdge _ _)

theorem makeEdge_new (m : Mem) (fresh : Uid) (a : Nat) (p q : NPtr) (opts : List Opt) :
    (makeEdge m fresh a p q opts).2.EdgeOk (makeEdge m fresh a p q opts).1 ∧
    ¬ m.EdgeOk (makeEdge m fresh a p q opts).1 ∧
    (makeEdge m fresh a p q opts).2.edge (makeEdge m fresh a p q opts).1 =
      ⟨(mkEdge m.heap fresh a (m.node p) (m.node q) opts).1.uid,
       (mkEdge m.heap fresh a (m.node p) (m.node q) opts).1.attrs, p, q,
       (mkEdge m.heap fresh a (m.node p) (m.node q) opts).1.dotid,
       (mkEdge m.heap fresh a (m.node p) (m.node q) opts).1.weight⟩ ∧
    (makeEdge m fresh a p q opts).2.heap = (mkEdge m.heap fresh a (m.node p) (m.node q) opts).2 := by
  refine ⟨(edgeOk_allocEdge _ _ _).mpr (.inr rfl), ?_, edge_allocEdge_new _ _, rfl⟩
  simp [makeEdge, Mem.allocEdge, Mem.EdgeOk]

theorem sound_makeEdge {m : Mem} (hs : Sound m) (fresh : Uid) (a : Nat) {p q : NPtr} (hp : m.NodeOk p)
    (hq : m.NodeOk q) (opts : List Opt) : Sound (makeEdge m fresh a p q opts).2 := by
  refine sound_evolves hs (evolves_makeEdge ..) fun e he ho => ?_
  have h := makeEdge_new m fresh a p q opts
  rcases (edgeOk_allocEdge _ _ _).mp he with h' | h'
  · exact absurd h' ho
  · have h2 : e = (makeEdge m fresh a p q opts).1 := h'
    rw [h2, h.2.2.1]
    exact ⟨((evolves_makeEdge m fresh a p q opts).node p hp).1,
      ((evolves_makeEdge m fresh a p q opts).node q hq).1⟩

theorem setWeightedEdge_ptrs {m : Mem} {g : WG} (hs : Sound m) (hg : PtrsOk m g) {e : EPtr}
    (he : m.EdgeOk e) {b' : Builder} (hb : g.b.setWeightedEdge m e = some b') :
    PtrsOk m { g with b := b' } := by
  obtain ⟨h1, h2⟩ := setWeightedEdge_eq hb
  refine ⟨hg.nodes, fun i q hi => ?_, ?_⟩
  · simp only [h2, GoMap.get?_set] at hi
    split at hi
    · cases hi; exact (hs e he).2
    · split at hi
      · cases hi; exact (hs e he).1
      · exact hg.bnodes i q hi
  · show EdgesOk m b'.edges
    rw [h1]
    exact hg.edges.put he _ _

/-- Every call keeps pointers valid; objects keep everything but their DOTIDs. -/
theorem wf_step {s : St} (hw : Wf s) (op : Op) (hu : Uses s op) :
    Wf (step s op).1 ∧ Evolves s.mem (step s op).1.mem := by
  obtain ⟨hs, hg⟩ := hw
  have key : ∀ m', Evolves s.mem m' → (∀ p, m'.EdgeOk p → s.mem.EdgeOk p) →
      Wf ⟨m', s.g⟩ ∧ Evolves s.mem m' := fun m' h1 h2 =>
    ⟨⟨sound_evolves hs h1 fun p hp ho => absurd (h2 p hp) ho, hg.evolves h1⟩, h1⟩
  cases op with
  | makeNode id e opts => exact key _ (evolves_makeNode ..) fun p hp => hp
  | newNode o e opts =>
    refine key _ (evolves_newNode ..) fun p hp => ?_
    revert hp
    cases s.g.b.newNodeID o with
    | none => exact fun hp => hp
    | some i =>
      simp only []
      split <;> exact fun hp => hp
  | addNode p opts => exact ⟨⟨hs, addNode_ptrs hg hu opts⟩, Evolves.refl _⟩
  | addForeign => exact ⟨⟨hs, hg⟩, Evolves.refl _⟩
  | removeNode u => exact ⟨⟨hs, removeNode_ptrs hg u⟩, Evolves.refl _⟩
  | link fresh a f t opts =>
    rcases link_cases s.mem s.g fresh a f t opts with ⟨r, -, -, -, h⟩ | ⟨p, q, -, -, hp, hq, h⟩
    · simp only [step, h]
      exact ⟨⟨edge_mem hs hg f t, hg.evolves (evolves_edge ..)⟩, evolves_edge ..⟩
    · simp only [step, h]
      have hm := evolves_makeEdge s.mem fresh a p q opts
      have hs' := sound_makeEdge hs fresh a (hg.nodes _ _ hp) (hg.nodes _ _ hq) opts
      cases hb : s.g.b.setWeightedEdge (makeEdge s.mem fresh a p q opts).2
          (makeEdge s.mem fresh a p q opts).1 with
      | none => exact ⟨⟨hs', hg.evolves hm⟩, hm⟩
      | some b' =>
        exact ⟨⟨hs', setWeightedEdge_ptrs hs' (hg.evolves hm) (makeEdge_new ..).1 hb⟩, hm⟩
  | edge u v => exact ⟨⟨edge_mem hs hg u v, hg.evolves (evolves_edge ..)⟩, evolves_edge ..⟩
  | unlink f t => exact ⟨⟨hs, unlink_ptrs hg f t⟩, Evolves.refl _⟩
  | setNodeDOT p x => exact key _ (evolves_setNodeDOT _ _ _ hu) fun p hp => hp
  | setEdgeDOT p x =>
    refine key _ (evolves_setEdgeDOT _ _ _ hu) fun p hp => ?_
    simpa [Mem.setEdgeDOT, Mem.EdgeOk] using hp
  | env h => exact key _ (evolves_heap _ _) fun p hp => hp

/-- The calls of the value model that correspond to a call. -/
def absOps (s : St) : Op → List Graph.Op
  | .makeNode id e opts => [.env (makeNode s.mem id e opts).2.heap]
  | .newNode o e opts => [.env (newNode s.mem s.g o e opts).2.heap]
  | .addNode p opts => [.addNode (absN s.mem p) opts]
  | .addForeign => [.addForeign]
  | .removeNode u => [.removeNode u]
  | .link fresh a f t opts =>
    match Graph.edge (absG s.mem s.g) f t with
    | .err .edgeNotExist =>
      let (e, h) := mkEdge s.mem.heap fresh a (absN s.mem 0) (absN s.mem 0) opts
      [.env h, .link ⟨s.mem.edges.length, e.uid.str⟩ 0 f t [.withAttrs (some e.attrs), .withWeight e.weight]]
    | _ => []
  | .edge _ _ => []
  | .unlink f t => [.unlink f t]
  | .setNodeDOT _ _ => []
  | .setEdgeDOT _ _ => []
  | .env h => [.env h]

theorem mkEdge_nodes (h : Heap) (fresh : Uid) (a : Nat) (f t f' t' : Graph.Node) (opts : List Opt) :
    (mkEdge h fresh a f t opts).2 = (mkEdge h fresh a f' t' opts).2 ∧
    (mkEdge h fresh a f t opts).1.uid = (mkEdge h fresh a f' t' opts).1.uid ∧
    (mkEdge h fresh a f t opts).1.attrs = (mkEdge h fresh a f' t' opts).1.attrs ∧
    (mkEdge h fresh a f t opts).1.weight = (mkEdge h fresh a f' t' opts).1.weight := ⟨rfl, rfl, rfl, rfl⟩

theorem sim_step {s : St} (hw : Wf s) (op : Op) (hu : Uses s op) :
    abs (step s op).1 = Graph.run (abs s) (absOps s op) := by
  have hev := (wf_step hw op hu).2
  obtain ⟨hs, hg⟩ := hw
  have key : ∀ m', Evolves s.mem m' → abs ⟨m', s.g⟩ = ⟨m'.heap, absG s.mem s.g⟩ := fun m' h => by
    unfold abs
    rw [absG_evolves h hs hg]
  cases op with
  | makeNode id e opts => exact key _ hev
  | newNode o e opts => exact key _ hev
  | addNode p opts =>
    show (⟨s.mem.heap, absG s.mem (addNode s.mem s.g p opts).2⟩ : Graph.St) =
      ⟨s.mem.heap, (Graph.addNode (absG s.mem s.g) (absN s.mem p) opts).2⟩
    rw [absG_addNode]
  | addForeign => rfl
  | removeNode u =>
    show (⟨s.mem.heap, absG s.mem (removeNode s.mem s.g u)⟩ : Graph.St) =
      ⟨s.mem.heap, Graph.removeNode (absG s.mem s.g) u⟩
    rw [absG_removeNode]
  | link fresh a f t opts =>
    rcases link_cases s.mem s.g fresh a f t opts with ⟨r, hne, -, -, h⟩ | ⟨p, q, he, -, hp, hq, h⟩
    · simp only [step, h]
      rw [key _ (evolves_edge ..)]
      have : absOps s (.link fresh a f t opts) = [] := by
        unfold absOps
        simp only []
        split
        · rename_i hx
          rcases hne .edgeNotExist with hy | hy
          · exact absurd hx hy
          · exact absurd rfl hy
        · rfl
      rw [this]
      have hh : (edge s.mem s.g f t).2.heap = s.mem.heap := by
        have he := edge_abs s.mem s.g f t
        split at he
        · obtain ⟨_, _, -, -, -, h | h⟩ := he
          · rw [h.1]
          · rw [h.1]; rfl
        · rw [he]
        · exact he.elim
      rw [hh]
      rfl
    · simp only [step, h]
      obtain ⟨hok, hnew, hobj, hheap⟩ := makeEdge_new s.mem fresh a p q opts
      have hm := evolves_makeEdge s.mem fresh a p q opts
      have habs : absOps s (.link fresh a f t opts) = [.env (mkEdge s.mem.heap fresh a (absN s.mem 0)
          (absN s.mem 0) opts).2, .link ⟨s.mem.edges.length, (mkEdge s.mem.heap fresh a (absN s.mem 0)
          (absN s.mem 0) opts).1.uid.str⟩ 0 f t [.withAttrs (some (mkEdge s.mem.heap fresh a (absN s.mem 0)
          (absN s.mem 0) opts).1.attrs), .withWeight (mkEdge s.mem.heap fresh a (absN s.mem 0)
          (absN s.mem 0) opts).1.weight]] := by
        unfold absOps
        simp only [he]
      rw [habs]
      show _ = (Graph.step ⟨(mkEdge s.mem.heap fresh a (absN s.mem 0) (absN s.mem 0) opts).2,
        absG s.mem s.g⟩ _).1
      have hlook : Graph.linkLookup (absG s.mem s.g) f t = .create (absN s.mem p) (absN s.mem q) := by
        unfold Graph.linkLookup
        rw [he]
        simp [absG, hp, hq]
      simp only [Graph.step, Graph.link, hlook, Graph.linkApply]
      have hmk : mkEdge (mkEdge s.mem.heap fresh a (absN s.mem 0) (absN s.mem 0) opts).2
          ⟨s.mem.edges.length, (mkEdge s.mem.heap fresh a (absN s.mem 0) (absN s.mem 0) opts).1.uid.str⟩ 0
          (absN s.mem p) (absN s.mem q)
          [.withAttrs (some (mkEdge s.mem.heap fresh a (absN s.mem 0) (absN s.mem 0) opts).1.attrs),
           .withWeight (mkEdge s.mem.heap fresh a (absN s.mem 0) (absN s.mem 0) opts).1.weight] =
          (absE (makeEdge s.mem fresh a p q opts).2 (makeEdge s.mem fresh a p q opts).1,
           (makeEdge s.mem fresh a p q opts).2.heap) := by
        unfold absE
        rw [hobj, hheap, (hm.node p (hg.nodes _ _ hp)).2, (hm.node q (hg.nodes _ _ hq)).2]
        rfl
      rw [hmk]
      have hb := absB_setWeightedEdge (makeEdge s.mem fresh a p q opts).2 s.g.b
        (makeEdge s.mem fresh a p q opts).1
      have hG := absG_evolves hm hs hg
      have hB : absB (makeEdge s.mem fresh a p q opts).2 s.g.b = absB s.mem s.g.b :=
        congrArg Graph.WG.b hG
      rw [hB] at hb
      simp only [show (absG s.mem s.g).b = absB s.mem s.g.b from rfl, hb]
      cases hset : s.g.b.setWeightedEdge (makeEdge s.mem fresh a p q opts).2
          (makeEdge s.mem fresh a p q opts).1 with
      | none =>
        simp only [Option.map]
        exact key _ hm
      | some b' =>
        simp only [Option.map, abs]
        have hN : s.g.nodes.mapVals (absN (makeEdge s.mem fresh a p q opts).2) =
            s.g.nodes.mapVals (absN s.mem) := congrArg Graph.WG.nodes hG
        unfold absG
        simp only [hN]
  | edge u v =>
    show abs ⟨(edge s.mem s.g u v).2, s.g⟩ = abs s
    rw [key _ (evolves_edge ..)]
    have hh : (edge s.mem s.g u v).2.heap = s.mem.heap := by
      have he := edge_abs s.mem s.g u v
      split at he
      · obtain ⟨_, _, -, -, -, h | h⟩ := he
        · rw [h.1]
        · rw [h.1]; rfl
      · rw [he]
      · exact he.elim
    rw [hh]
    rfl
  | unlink f t =>
    show (⟨s.mem.heap, absG s.mem (unlink s.mem s.g f t)⟩ : Graph.St) =
      ⟨s.mem.heap, Graph.unlink (absG s.mem s.g) f t⟩
    rw [absG_unlink]
  | setNodeDOT p x => exact key _ hev
  | setEdgeDOT p x => exact key _ hev
  | env h => exact key _ hev

theorem wf_reach {P : St → Op → Prop} {d : Bool} {s : St} (hr : Reach P d s) : Wf s := by
  induction hr with
  | init m fresh opts hm => exact ⟨hm, ptrs_new _ _ _ _⟩
  | step s op _ hu _ ih => exact (wf_step ih op hu).1

/-- A reachable graph of objects is a reachable graph of values. -/
theorem reach_abs {P : St → Op → Prop} {Q : Graph.St → Graph.Op → Prop}
    (hPQ : ∀ s op, Wf s → P s op → ∀ gop ∈ absOps s op, ∀ h, Q ⟨h, absG s.mem s.g⟩ gop) {d : Bool} {s : St}
    (hr : Reach P d s) : Spec.Graph.Reach Q d (abs s) := by
  induction hr with
  | init m fresh opts hm =>
    have : abs ⟨m, new d fresh opts⟩ = ⟨m.heap, Graph.new d fresh opts⟩ := by
      cases d <;> rfl
    rw [this]
    exact .init _ _ _
  | step s op hr hu hp ih =>
    have hw := wf_reach hr
    rw [sim_step hw op hu]
    have hq := hPQ s op hw hp
    have h1 : ∀ gop, absOps s op = [gop] → Spec.Graph.Reach Q d (Graph.run (abs s) (absOps s op)) := by
      intro gop hgop
      rw [hgop] at hq ⊢
      exact .step _ gop ih (hq gop (List.mem_singleton.mpr rfl) _)
    cases op with
    | makeNode => exact h1 _ rfl
    | newNode => exact h1 _ rfl
    | addNode => exact h1 _ rfl
    | addForeign => exact h1 _ rfl
    | removeNode => exact h1 _ rfl
    | link fresh a f t opts =>
      by_cases he : Graph.edge (absG s.mem s.g) f t = .err .edgeNotExist
      · have habs : ∃ h gop, absOps s (.link fresh a f t opts) = [.env h, gop] := by
          unfold absOps
          simp only [he]
          exact ⟨_, _, rfl⟩
        obtain ⟨h, gop, habs⟩ := habs
        rw [habs] at hq ⊢
        exact .step _ gop (.step _ (.env h) ih (hq _ (.head _) _)) (hq gop (.tail _ (.head _)) _)
      · have habs : absOps s (.link fresh a f t opts) = [] := by
          unfold absOps
          simp only []
        rw [habs]
        exact ih
    | edge => exact ih
    | unlink => exact h1 _ rfl
    | setNodeDOT => exact ih
    | setEdgeDOT => exact ih
    | env => exact h1 _ rfl

end Netscrape.GraphPtr
