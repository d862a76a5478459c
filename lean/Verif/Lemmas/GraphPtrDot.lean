import Verif.Lemmas.GraphPtrLists

/-!
# What calls do to objects, and states that differ in DOTIDs only
-/

namespace Netscrape.GraphPtr
open Netscrape.Spec.GraphPtr
open Netscrape.Graph (Opt Err applyAll mkEdge mkNode)

/-! ## Objects are only added -/

theorem getD_append_old {α : Type} (l l' : List α) (p : Nat) (d : α) (h : p < l.length) :
    (l ++ l').getD p d = l.getD p d := by
  simp [List.getD, List.getElem?_append_left h]

/-- Calls other than `SetDOTID` leave the objects there are alone. -/
structure Grows (m m' : Mem) : Prop where
  nodes : ∃ l, m'.nodes = m.nodes ++ l
  edges : ∃ l, m'.edges = m.edges ++ l

theorem Grows.refl (m : Mem) : Grows m m := ⟨⟨[], by simp⟩, ⟨[], by simp⟩⟩

theorem Grows.node {m m' : Mem} (h : Grows m m') {p : NPtr} (hp : m.NodeOk p) :
    m'.NodeOk p ∧ m'.node p = m.node p := by
  obtain ⟨l, hl⟩ := h.nodes
  have hp' : p < m.nodes.length := hp
  unfold Mem.NodeOk Mem.node
  rw [hl, getD_append_old _ _ _ _ hp']
  exact ⟨by rw [List.length_append]; exact Nat.lt_of_lt_of_le hp' (Nat.le_add_right _ _), rfl⟩

theorem Grows.edge {m m' : Mem} (h : Grows m m') {p : EPtr} (hp : m.EdgeOk p) :
    m'.EdgeOk p ∧ m'.edge p = m.edge p := by
  obtain ⟨l, hl⟩ := h.edges
  have hp' : p < m.edges.length := hp
  unfold Mem.EdgeOk Mem.edge
  rw [hl, getD_append_old _ _ _ _ hp']
  exact ⟨by rw [List.length_append]; exact Nat.lt_of_lt_of_le hp' (Nat.le_add_right _ _), rfl⟩

theorem grows_makeNode (m : Mem) (id : Int) (e : Graph.Ent) (opts : List Opt) :
    Grows m (makeNode m id e opts).2 := ⟨⟨_, rfl⟩, ⟨[], by simp [makeNode, Mem.allocNode]⟩⟩

theorem grows_reversed (m : Mem) (e : EPtr) : Grows m (m.reversed e).2 :=
  ⟨⟨[], by simp [Mem.reversed, Mem.allocEdge]⟩, ⟨_, rfl⟩⟩

theorem grows_makeEdge (m : Mem) (fresh : Uid) (a : Nat) (f t : NPtr) (opts : List Opt) :
    Grows m (makeEdge m fresh a f t opts).2 := ⟨⟨[], by simp [makeEdge, Mem.allocEdge]⟩, ⟨_, rfl⟩⟩

theorem grows_edge (m : Mem) (g : WG) (u v : Uid) : Grows m (edge m g u v).2 := by
  have h := edge_abs m g u v
  split at h
  · obtain ⟨f, t, -, -, -, h | h⟩ := h
    · rw [h.1]; exact Grows.refl m
    · rw [h.1]; exact grows_reversed _ _
  · rw [h]; exact Grows.refl m
  · exact h.elim

theorem grows_step (s : St) (op : Op) (h : isSet op = false) : Grows s.mem (step s op).1.mem := by
  cases op with
  | makeNode id e opts => exact grows_makeNode ..
  | newNode o e opts =>
    simp only [step, newNode]
    cases s.g.b.newNodeID o with
    | none => exact Grows.refl _
    | some i =>
      have h := grows_makeNode s.mem i e opts
      simp only []
      split <;> exact h
  | link fresh a f t opts =>
    rcases link_cases s.mem s.g fresh a f t opts with ⟨r, -, -, -, h⟩ | ⟨p, q, -, -, -, -, h⟩
    · simp only [step, h]; exact grows_edge ..
    · simp only [step, h]; split <;> exact grows_makeEdge ..
  | edge u v => exact grows_edge ..
  | env h => exact ⟨⟨[], by simp [step]⟩, ⟨[], by simp [step]⟩⟩
  | setNodeDOT p x => cases h
  | setEdgeDOT p x => cases h
  | addNode p opts => exact Grows.refl _
  | addForeign => exact Grows.refl _
  | removeNode u => exact Grows.refl _
  | unlink f t => exact Grows.refl _

/-- What a call does to a node object. -/
theorem step_node (s : St) (op : Op) {p : NPtr} (hp : s.mem.NodeOk p) :
    (step s op).1.mem.NodeOk p ∧ (step s op).1.mem.node p =
      match op with
      | .setNodeDOT q x => if q = p then { s.mem.node p with dotid := x } else s.mem.node p
      | _ => s.mem.node p := by
  by_cases h : isSet op = false
  · have hg := (grows_step s op h).node hp
    refine ⟨hg.1, ?_⟩
    cases op <;> first | exact hg.2 | cases h
  · cases op with
    | setNodeDOT q x =>
      refine ⟨by simpa [step, Mem.setNodeDOT, Mem.NodeOk] using hp, ?_⟩
      by_cases hq : q = p
      · subst hq
        have := node_setNodeDOT s.mem q q x hp
        simpa [step] using this
      · simp [step, Mem.setNodeDOT, Mem.node, List.getD, hq]
    | setEdgeDOT q x => exact ⟨hp, rfl⟩
    | _ => exact absurd rfl h

/-- What a call does to an edge object. -/
theorem step_edge (s : St) (op : Op) {p : EPtr} (hp : s.mem.EdgeOk p) :
    (step s op).1.mem.EdgeOk p ∧ (step s op).1.mem.edge p =
      match op with
      | .setEdgeDOT q x => if q = p then { s.mem.edge p with dotid := x } else s.mem.edge p
      | _ => s.mem.edge p := by
  by_cases h : isSet op = false
  · have hg := (grows_step s op h).edge hp
    refine ⟨hg.1, ?_⟩
    cases op <;> first | exact hg.2 | cases h
  · cases op with
    | setEdgeDOT q x =>
      refine ⟨by simpa [step, Mem.setEdgeDOT, Mem.EdgeOk] using hp, ?_⟩
      by_cases hq : q = p
      · subst hq
        have := edge_setEdgeDOT s.mem q q x hp
        simpa [step] using this
      · simp [step, Mem.setEdgeDOT, Mem.edge, List.getD, hq]
    | setNodeDOT q x => exact ⟨hp, rfl⟩
    | _ => exact absurd rfl h

theorem step_key (s : St) (op : Op) {p : NPtr} (hp : s.mem.NodeOk p) :
    (step s op).1.mem.key p = s.mem.key p := by
  have h := (step_node s op hp).2
  unfold Mem.key
  rw [h]
  cases op <;> try rfl
  simp only []
  split <;> rfl

/-! ## Forgetting DOTIDs -/

def stripN (n : Graph.Node) : Graph.Node := { n with dotid := "" }

def stripE (e : EdgeObj) : EdgeObj := { e with dotid := "" }

def strip (m : Mem) : Mem := ⟨m.nodes.map stripN, m.edges.map stripE, m.heap⟩

theorem strip_node (m : Mem) (p : NPtr) : (strip m).node p = stripN (m.node p) := by
  unfold Mem.node strip
  simp only [List.getD, List.getElem?_map]
  cases m.nodes[p]? <;> rfl

theorem strip_edge (m : Mem) (p : EPtr) : (strip m).edge p = stripE (m.edge p) := by
  unfold Mem.edge strip
  simp only [List.getD, List.getElem?_map]
  cases m.edges[p]? <;> rfl

/-- Same objects up to DOTIDs. -/
def Like (m m' : Mem) : Prop := strip m = strip m'

section
variable {m m' : Mem} (h : Like m m')
include h

theorem Like.node (p : NPtr) : stripN (m.node p) = stripN (m'.node p) := by
  rw [← strip_node, ← strip_node, h]

theorem Like.id (p : NPtr) : m.id p = m'.id p :=
  show (stripN (m.node p)).id = (stripN (m'.node p)).id by rw [h.node]

theorem Like.key (p : NPtr) : m.key p = m'.key p :=
  show (stripN (m.node p)).key = (stripN (m'.node p)).key by rw [h.node]

theorem Like.edge (p : EPtr) : stripE (m.edge p) = stripE (m'.edge p) := by
  rw [← strip_edge, ← strip_edge, h]

theorem Like.src (p : EPtr) : (m.edge p).src = (m'.edge p).src :=
  show (stripE (m.edge p)).src = (stripE (m'.edge p)).src by rw [h.edge]

theorem Like.dst (p : EPtr) : (m.edge p).dst = (m'.edge p).dst :=
  show (stripE (m.edge p)).dst = (stripE (m'.edge p)).dst by rw [h.edge]

theorem Like.heap : m.heap = m'.heap := show (strip m).heap = (strip m').heap by rw [h]

theorem Like.nodesLen : m.nodes.length = m'.nodes.length := by
  have := congrArg (fun x => x.nodes.length) h
  simpa [strip] using this

theorem Like.edgesLen : m.edges.length = m'.edges.length := by
  have := congrArg (fun x => x.edges.length) h
  simpa [strip] using this

theorem Like.setHeap (hp : Heap) : Like { m with heap := hp } { m' with heap := hp } :=
  show (⟨(strip m).nodes, (strip m).edges, hp⟩ : Mem) = ⟨(strip m').nodes, (strip m').edges, hp⟩ by rw [h]

theorem Like.allocNode {n n' : Graph.Node} (hn : stripN n = stripN n') :
    (m.allocNode n).1 = (m'.allocNode n').1 ∧ Like (m.allocNode n).2 (m'.allocNode n').2 := by
  refine ⟨h.nodesLen, ?_⟩
  have h1 : (strip m).nodes = (strip m').nodes := congrArg Mem.nodes h
  have h2 : (strip m).edges = (strip m').edges := congrArg Mem.edges h
  simp only [strip] at h1 h2
  simp only [Like, strip, Mem.allocNode, List.map_append, List.map_cons, List.map_nil, h1, h2, hn, h.heap]

theorem Like.allocEdge {e e' : EdgeObj} (he : stripE e = stripE e') :
    (m.allocEdge e).1 = (m'.allocEdge e').1 ∧ Like (m.allocEdge e).2 (m'.allocEdge e').2 := by
  refine ⟨h.edgesLen, ?_⟩
  have h1 : (strip m).nodes = (strip m').nodes := congrArg Mem.nodes h
  have h2 : (strip m).edges = (strip m').edges := congrArg Mem.edges h
  simp only [strip] at h1 h2
  simp only [Like, strip, Mem.allocEdge, List.map_append, List.map_cons, List.map_nil, h1, h2, he, h.heap]

theorem Like.reversed (e : EPtr) :
    (m.reversed e).1 = (m'.reversed e).1 ∧ Like (m.reversed e).2 (m'.reversed e).2 := by
  refine h.allocEdge ?_
  have := h.edge e
  revert this
  generalize m.edge e = x
  generalize m'.edge e = y
  intro hxy
  cases x; cases y
  simp only [stripE, EdgeObj.mk.injEq] at hxy ⊢
  obtain ⟨h1, h2, h3, h4, -, h6⟩ := hxy
  exact ⟨h1, h2, h4, h3, trivial, h6⟩

theorem Like.badd (b : Builder) (p : NPtr) : b.addNode m p = b.addNode m' p := by
  unfold Builder.addNode; rw [h.id]

theorem Like.touch (b : Builder) (p : NPtr) : b.touch m p = b.touch m' p := by
  unfold Builder.touch; rw [h.badd, h.id]

theorem Like.setEdge (b : Builder) (e : EPtr) : b.setWeightedEdge m e = b.setWeightedEdge m' e := by
  unfold Builder.setWeightedEdge
  simp only [h.src, h.dst, h.id, h.touch]

theorem Like.weightedEdge (b : Builder) (u v : Int) :
    (b.weightedEdge m u v).1 = (b.weightedEdge m' u v).1 ∧
    Like (b.weightedEdge m u v).2 (b.weightedEdge m' u v).2 := by
  unfold Builder.weightedEdge
  cases b.edges with
  | directed fr to => exact ⟨rfl, h⟩
  | undirected ed =>
    simp only []
    cases ed.at u v with
    | none => exact ⟨rfl, h⟩
    | some e =>
      simp only [h.src, h.id]
      split
      · exact ⟨rfl, h⟩
      · exact ⟨congrArg some (h.reversed e).1, (h.reversed e).2⟩

theorem Like.addNode (g : WG) (p : NPtr) (opts : List Opt) : addNode m g p opts = addNode m' g p opts := by
  unfold GraphPtr.addNode
  simp only [h.id, h.key, h.badd]

theorem Like.removeNode (g : WG) (u : Uid) : removeNode m g u = removeNode m' g u := by
  unfold GraphPtr.removeNode
  simp only [h.id]

theorem Like.unlink (g : WG) (f t : Uid) : unlink m g f t = unlink m' g f t := by
  unfold GraphPtr.unlink
  simp only [h.id]

theorem Like.edge' (g : WG) (u v : Uid) :
    (GraphPtr.edge m g u v).1 = (GraphPtr.edge m' g u v).1 ∧
    Like (GraphPtr.edge m g u v).2 (GraphPtr.edge m' g u v).2 := by
  unfold GraphPtr.edge
  cases g.nodes.get? u.str with
  | none => exact ⟨rfl, h⟩
  | some f =>
    cases g.nodes.get? v.str with
    | none => exact ⟨rfl, h⟩
    | some t =>
      have hw := h.weightedEdge g.b (m.id f) (m.id t)
      simp only [← h.id]
      revert hw
      generalize g.b.weightedEdge m (m.id f) (m.id t) = x
      generalize g.b.weightedEdge m' (m.id f) (m.id t) = y
      obtain ⟨x1, x2⟩ := x
      obtain ⟨y1, y2⟩ := y
      rintro ⟨h1, h2⟩
      cases h1
      cases x1 with
      | none => exact ⟨rfl, h2⟩
      | some e => exact ⟨rfl, h2⟩

theorem Like.makeNode (id : Int) (e : Graph.Ent) (opts : List Opt) :
    (makeNode m id e opts).1 = (makeNode m' id e opts).1 ∧
    Like (makeNode m id e opts).2 (makeNode m' id e opts).2 := by
  unfold GraphPtr.makeNode
  rw [h.heap]
  exact (h.setHeap _).allocNode rfl

theorem Like.makeEdge (fresh : Uid) (a : Nat) (f t : NPtr) (opts : List Opt) :
    (makeEdge m fresh a f t opts).1 = (makeEdge m' fresh a f t opts).1 ∧
    Like (makeEdge m fresh a f t opts).2 (makeEdge m' fresh a f t opts).2 := by
  unfold GraphPtr.makeEdge
  rw [h.heap]
  exact (h.setHeap _).allocEdge rfl

theorem Like.newNode (g : WG) (o : Order (Int × Unit)) (e : Graph.Ent) (opts : List Opt) :
    (newNode m g o e opts).1 = (newNode m' g o e opts).1 ∧
    Like (newNode m g o e opts).2 (newNode m' g o e opts).2 := by
  unfold GraphPtr.newNode
  cases g.b.newNodeID o with
  | none => exact ⟨rfl, h⟩
  | some i =>
    obtain ⟨h1, h2⟩ := h.makeNode i e opts
    simp only [h1, h2.key]
    split <;> exact ⟨rfl, h2⟩

theorem Like.link (g : WG) (fresh : Uid) (a : Nat) (f t : Uid) (opts : List Opt) :
    (link m g fresh a f t opts).1 = (link m' g fresh a f t opts).1 ∧
    (link m g fresh a f t opts).2.1 = (link m' g fresh a f t opts).2.1 ∧
    Like (link m g fresh a f t opts).2.2 (link m' g fresh a f t opts).2.2 := by
  have he := h.edge' g f t
  unfold GraphPtr.link
  revert he
  generalize GraphPtr.edge m g f t = x
  generalize GraphPtr.edge m' g f t = y
  obtain ⟨x1, x2⟩ := x
  obtain ⟨y1, y2⟩ := y
  rintro ⟨h1, h2⟩
  dsimp only at h1 h2
  subst h1
  cases x1 with
  | ok e => exact ⟨rfl, rfl, h2⟩
  | panic => exact ⟨rfl, rfl, h2⟩
  | err e =>
    cases e <;> try exact ⟨rfl, rfl, h2⟩
    cases g.nodes.get? f.str with
    | none => exact ⟨rfl, rfl, h2⟩
    | some p =>
      cases g.nodes.get? t.str with
      | none => exact ⟨rfl, rfl, h2⟩
      | some q =>
        obtain ⟨k1, k2⟩ := h2.makeEdge fresh a p q opts
        simp only [k1, k2.setEdge]
        split <;> exact ⟨rfl, rfl, k2⟩

theorem Like.dedup : ∀ (l : List EPtr) (seen : List (Int × Int)), dedup m l seen = dedup m' l seen := by
  intro l
  induction l with
  | nil => exact fun _ => rfl
  | cons e l ih =>
    intro seen
    simp only [GraphPtr.dedup, h.src, h.dst, h.id, ih]

theorem Like.edgesList (g : WG) (o : EdgeOrder) : edgesList m g o = edgesList m' g o := by
  unfold GraphPtr.edgesList Builder.weightedEdges
  cases g.b.edges with
  | directed fr to => simp only [h.id]
  | undirected ed => simp only [h.dedup]

theorem Like.fromList (g : WG) (o : Order (Int × EPtr)) (u : Uid) :
    fromList m g o u = fromList m' g o u := by
  unfold GraphPtr.fromList
  simp only [h.id]

end

theorem like_setNodeDOT (m : Mem) (p : NPtr) (x : String) : Like (m.setNodeDOT p x) m := by
  unfold Like strip Mem.setNodeDOT
  simp only [Mem.mk.injEq, and_true]
  apply List.ext_getElem?
  intro i
  rw [List.getElem?_map, List.getElem?_map, List.getElem?_set]
  by_cases hi : p = i
  · subst hi
    rw [if_pos rfl]
    by_cases hl : p < m.nodes.length
    · rw [if_pos hl]
      simp [Mem.node, List.getD, hl, stripN]
    · rw [if_neg hl, List.getElem?_eq_none (Nat.le_of_not_lt hl)]
  · rw [if_neg hi]

theorem like_setEdgeDOT (m : Mem) (p : EPtr) (x : String) : Like (m.setEdgeDOT p x) m := by
  unfold Like strip Mem.setEdgeDOT
  simp only [Mem.mk.injEq, and_true, true_and]
  apply List.ext_getElem?
  intro i
  rw [List.getElem?_map, List.getElem?_map, List.getElem?_set]
  by_cases hi : p = i
  · subst hi
    rw [if_pos rfl]
    by_cases hl : p < m.edges.length
    · rw [if_pos hl]
      simp [Mem.edge, List.getD, hl, stripE]
    · rw [if_neg hl, List.getElem?_eq_none (Nat.le_of_not_lt hl)]
  · rw [if_neg hi]

/-- The same call in two states that differ in DOTIDs only. -/
theorem like_step {s s' : St} (h : Like s.mem s'.mem) (hg : s.g = s'.g) (op : Op) :
    (step s op).2 = (step s' op).2 ∧ Like (step s op).1.mem (step s' op).1.mem ∧
    (step s op).1.g = (step s' op).1.g := by
  obtain ⟨m, g⟩ := s
  obtain ⟨m', g'⟩ := s'
  dsimp only at h hg
  subst hg
  cases op with
  | makeNode id e opts =>
    obtain ⟨h1, h2⟩ := h.makeNode id e opts
    exact ⟨congrArg (fun p => Out.node (.ok p)) h1, h2, rfl⟩
  | newNode o e opts =>
    obtain ⟨h1, h2⟩ := h.newNode g o e opts
    exact ⟨congrArg Out.node h1, h2, rfl⟩
  | addNode p opts =>
    have := h.addNode g p opts
    exact ⟨congrArg Out.unit (congrArg Prod.fst this), h, congrArg Prod.snd this⟩
  | addForeign => exact ⟨rfl, h, rfl⟩
  | removeNode u => exact ⟨rfl, h, h.removeNode g u⟩
  | link fresh a f t opts =>
    obtain ⟨h1, h2, h3⟩ := h.link g fresh a f t opts
    exact ⟨congrArg Out.edge h1, h3, h2⟩
  | edge u v =>
    obtain ⟨h1, h2⟩ := h.edge' g u v
    exact ⟨congrArg Out.edge h1, h2, rfl⟩
  | unlink f t => exact ⟨rfl, h, h.unlink g f t⟩
  | setNodeDOT p x =>
    exact ⟨rfl, ((like_setNodeDOT _ _ _).trans h).trans (like_setNodeDOT _ _ _).symm, rfl⟩
  | setEdgeDOT p x =>
    exact ⟨rfl, ((like_setEdgeDOT _ _ _).trans h).trans (like_setEdgeDOT _ _ _).symm, rfl⟩
  | env hp => exact ⟨rfl, h.setHeap hp, rfl⟩

theorem like_set {s : St} {op : Op} (h : isSet op = true) :
    Like (step s op).1.mem s.mem ∧ (step s op).1.g = s.g := by
  cases op with
  | setNodeDOT p x => exact ⟨like_setNodeDOT .., rfl⟩
  | setEdgeDOT p x => exact ⟨like_setEdgeDOT .., rfl⟩
  | _ => cases h

/-- Erasing the calls of `SetDOTID` from a history. -/
theorem like_run : ∀ (ops : List Op) {s s' : St}, Like s.mem s'.mem → s.g = s'.g →
    Like (run s ops).mem (run s' (ops.filter fun op => !isSet op)).mem ∧
    (run s ops).g = (run s' (ops.filter fun op => !isSet op)).g ∧
    ((ops.zip (outs s ops)).filter (fun x => !isSet x.1)).map Prod.snd =
      outs s' (ops.filter fun op => !isSet op) := by
  intro ops
  induction ops with
  | nil => exact fun h hg => ⟨h, hg, rfl⟩
  | cons op ops ih =>
    intro s s' h hg
    cases hs : isSet op with
    | true =>
      obtain ⟨h1, h2⟩ := like_set (s := s) hs
      have := ih (h1.trans h) (h2.trans hg)
      simpa [run, outs, hs] using this
    | false =>
      obtain ⟨h1, h2, h3⟩ := like_step h hg op
      have := ih h2 h3
      simpa [run, outs, hs, h1] using this

end Netscrape.GraphPtr
