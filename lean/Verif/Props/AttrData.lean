import Verif.Spec.AttrData
import Verif.Model.SubGraph
import Verif.Model.Dot
import Verif.Lemmas.GraphEx

/-!
# C87: attributes are data
-/

namespace Netscrape.Props
open Netscrape Netscrape.Spec.AttrData

/-! ## One call -/

theorem alike_alloc {h h' : Heap} (ha : Alike h h') (m m' : AttrMap) :
    (h.alloc m).1 = (h'.alloc m').1 ∧ Alike (h.alloc m).2 (h'.alloc m').2 := by
  have ha' : h.cells.length = h'.cells.length := ha
  exact ⟨ha', by simp [Alike, Heap.alloc, ha']⟩

theorem alike_attrsOrNew {h h' : Heap} (ha : Alike h h') (a : Option Ref) :
    (Graph.attrsOrNew h a).1 = (Graph.attrsOrNew h' a).1 ∧
    Alike (Graph.attrsOrNew h a).2 (Graph.attrsOrNew h' a).2 := by
  unfold Graph.attrsOrNew
  cases a with
  | some r => exact ⟨rfl, ha⟩
  | none => exact alike_alloc ha _ _

theorem alike_mkNode {h h' : Heap} (ha : Alike h h') (id : Int) (e : Graph.Ent) (opts : List Graph.Opt) :
    (Graph.mkNode h id e opts).1 = (Graph.mkNode h' id e opts).1 ∧
    Alike (Graph.mkNode h id e opts).2 (Graph.mkNode h' id e opts).2 := by
  obtain ⟨h1, h2⟩ := alike_attrsOrNew ha (Graph.applyAll opts).attrs
  unfold Graph.mkNode
  simp only [h1]
  exact ⟨trivial, h2⟩

theorem alike_mkEdge {h h' : Heap} (ha : Alike h h') (fresh : Uid) (a : Nat) (f t : Graph.Node)
    (opts : List Graph.Opt) :
    (Graph.mkEdge h fresh a f t opts).1 = (Graph.mkEdge h' fresh a f t opts).1 ∧
    Alike (Graph.mkEdge h fresh a f t opts).2 (Graph.mkEdge h' fresh a f t opts).2 := by
  obtain ⟨h1, h2⟩ := alike_attrsOrNew ha (Graph.applyAll opts).attrs
  unfold Graph.mkEdge
  simp only [h1]
  exact ⟨trivial, h2⟩

theorem alike_newNode {h h' : Heap} (ha : Alike h h') (g : Graph.WG) (o : Order (Int × Unit)) (e : Graph.Ent)
    (opts : List Graph.Opt) :
    (Graph.newNode h g o e opts).1 = (Graph.newNode h' g o e opts).1 ∧
    Alike (Graph.newNode h g o e opts).2 (Graph.newNode h' g o e opts).2 := by
  unfold Graph.newNode
  cases g.b.newNodeID o with
  | none => exact ⟨rfl, ha⟩
  | some i =>
    obtain ⟨h1, h2⟩ := alike_mkNode ha i e opts
    simp only [h1]
    split <;> exact ⟨rfl, h2⟩

theorem alike_link {h h' : Heap} (ha : Alike h h') (g : Graph.WG) (fresh : Uid) (a : Nat) (f t : Uid)
    (opts : List Graph.Opt) :
    (Graph.link h g fresh a f t opts).1 = (Graph.link h' g fresh a f t opts).1 ∧
    (Graph.link h g fresh a f t opts).2.1 = (Graph.link h' g fresh a f t opts).2.1 ∧
    Alike (Graph.link h g fresh a f t opts).2.2 (Graph.link h' g fresh a f t opts).2.2 := by
  unfold Graph.link
  cases Graph.linkLookup g f t with
  | done r => exact ⟨rfl, rfl, ha⟩
  | create x y =>
    obtain ⟨h1, h2⟩ := alike_mkEdge ha fresh a x y opts
    simp only [Graph.linkApply, h1]
    split <;> exact ⟨rfl, rfl, h2⟩

theorem alike_graphStep {g : Graph.WG} {h h' : Heap} (ha : Alike h h') {op op' : Graph.Op}
    (hop : SameGraphCall op op') :
    (Graph.step ⟨h, g⟩ op).2 = (Graph.step ⟨h', g⟩ op').2 ∧
    (Graph.step ⟨h, g⟩ op).1.g = (Graph.step ⟨h', g⟩ op').1.g ∧
    Alike (Graph.step ⟨h, g⟩ op).1.heap (Graph.step ⟨h', g⟩ op').1.heap := by
  have key : op = op' ∨ ∃ k k', op = .env k ∧ op' = .env k' ∧ Alike k k' := by
    cases op with
    | env k =>
      cases op' with
      | env k' => exact .inr ⟨k, k', rfl, rfl, hop⟩
      | _ => exact .inl hop
    | _ => exact .inl hop
  rcases key with rfl | ⟨k, k', rfl, rfl, hk⟩
  · cases op with
    | newNode o e opts =>
      obtain ⟨h1, h2⟩ := alike_newNode ha g o e opts
      exact ⟨congrArg Graph.Out.node h1, rfl, h2⟩
    | link fresh a f t opts =>
      obtain ⟨h1, h2, h3⟩ := alike_link ha g fresh a f t opts
      exact ⟨congrArg Graph.Out.edge h1, h2, h3⟩
    | env k => exact ⟨rfl, rfl, rfl⟩
    | addNode => exact ⟨rfl, rfl, ha⟩
    | addForeign => exact ⟨rfl, rfl, ha⟩
    | removeNode => exact ⟨rfl, rfl, ha⟩
    | unlink => exact ⟨rfl, rfl, ha⟩
  · exact ⟨rfl, rfl, hk⟩

/-! ## C87 -/

/-- **C87** for the graph: what calls answer and what the graph is in the end does not depend on what is in
attribute sets at any time. -/
theorem c87_graph (g : Graph.WG) (h h' : Heap) (ha : Alike h h') (ops ops' : List Graph.Op)
    (hops : Pointwise SameGraphCall ops ops') :
    (Graph.trace ⟨h, g⟩ ops).map Prod.snd = (Graph.trace ⟨h', g⟩ ops').map Prod.snd ∧
    (Graph.run ⟨h, g⟩ ops).g = (Graph.run ⟨h', g⟩ ops').g := by
  induction ops generalizing g h h' ops' with
  | nil =>
    cases ops' with
    | nil => exact ⟨rfl, rfl⟩
    | cons => exact hops.elim
  | cons op ops ih =>
    cases ops' with
    | nil => exact hops.elim
    | cons op' ops' =>
      obtain ⟨h1, h2, h3⟩ := alike_graphStep (g := g) ha hops.1
      obtain ⟨k1, k2⟩ := ih _ _ _ h3 ops' hops.2
      constructor
      · simp only [Graph.trace, List.map_cons, h1]
        have e : (Graph.step ⟨h', g⟩ op').1 = ⟨(Graph.step ⟨h', g⟩ op').1.heap, (Graph.step ⟨h, g⟩ op).1.g⟩ := by
          rw [h2]
        rw [e]
        exact congrArg _ k1
      · show (Graph.run (Graph.step ⟨h, g⟩ op).1 ops).g = (Graph.run (Graph.step ⟨h', g⟩ op').1 ops').g
        have e : (Graph.step ⟨h', g⟩ op').1 = ⟨(Graph.step ⟨h', g⟩ op').1.heap, (Graph.step ⟨h, g⟩ op).1.g⟩ := by
          rw [h2]
        rw [e]
        exact k2

/-- **C87** for the graph, the other way round: no call changes an attribute set that exists. -/
theorem c87_graph_frame (s : Graph.St) (op : Graph.Op) (hop : ∀ h, op ≠ .env h) :
    (Graph.step s op).1.heap.Extends s.heap := by
  have hattrs : ∀ a, (Graph.attrsOrNew s.heap a).2.Extends s.heap := by
    intro a
    unfold Graph.attrsOrNew
    cases a with
    | some r => exact Heap.Extends.refl _
    | none => exact Heap.Extends.alloc _ _
  cases op with
  | newNode o e opts =>
    simp only [Graph.step, Graph.newNode]
    cases s.g.b.newNodeID o with
    | none => exact Heap.Extends.refl _
    | some i =>
      simp only []
      split <;> exact hattrs _
  | link fresh a f t opts =>
    simp only [Graph.step, Graph.link]
    cases Graph.linkLookup s.g f t with
    | done r => exact Heap.Extends.refl _
    | create x y =>
      simp only [Graph.linkApply]
      split <;> exact hattrs _
  | env h => exact absurd rfl (hop h)
  | addNode => exact Heap.Extends.refl _
  | addForeign => exact Heap.Extends.refl _
  | removeNode => exact Heap.Extends.refl _
  | unlink => exact Heap.Extends.refl _

theorem alike_linkAll (ora : Graph.SubOracle) (x y : Uid) (es : List Graph.Edge) :
    ∀ (sg : Graph.WG) {h h' : Heap}, Alike h h' →
      (Graph.linkAll ora x y es sg h).1 = (Graph.linkAll ora x y es sg h').1 ∧
      Alike (Graph.linkAll ora x y es sg h).2 (Graph.linkAll ora x y es sg h').2 := by
  induction es with
  | nil => exact fun sg h h' ha => ⟨rfl, ha⟩
  | cons e es ih =>
    intro sg h h' ha
    have hl : h.cells.length = h'.cells.length := ha
    have h1 := alike_alloc ha (Attrs.copyLoop h (ora.copy h.cells.length) e.attrs)
      (Attrs.copyLoop h' (ora.copy h.cells.length) e.attrs)
    have h2 := alike_link h1.2 sg (ora.edgeUid h.cells.length) 0 x y
      [.withAttrs (some (h'.alloc (Attrs.copyLoop h' (ora.copy h.cells.length) e.attrs)).1), .withWeight e.weight]
    simp only [Graph.linkAll, Attrs.newCopyFrom, ← hl, h1.1]
    revert h2
    generalize Graph.link _ sg _ _ _ _ _ = r
    generalize Graph.link _ sg _ _ _ _ _ = r'
    obtain ⟨r, g1, k⟩ := r
    obtain ⟨r', g1', k'⟩ := r'
    rintro ⟨a1, a2, a3⟩
    cases a1
    cases a2
    cases r with
    | ok _ => exact ih _ a3
    | err _ => exact ⟨rfl, a3⟩
    | panic => exact ⟨rfl, a3⟩

theorem alike_linkPeers (ora : Graph.SubOracle) (g : Graph.WG) (ns : GoMap Int Graph.Node) (id : Int)
    (x : Graph.Node) (ps : List Graph.Node) :
    ∀ (sg : Graph.WG) {h h' : Heap}, Alike h h' →
      (Graph.linkPeers ora g ns id x ps sg h).1 = (Graph.linkPeers ora g ns id x ps sg h').1 ∧
      Alike (Graph.linkPeers ora g ns id x ps sg h).2 (Graph.linkPeers ora g ns id x ps sg h').2 := by
  induction ps with
  | nil => exact fun sg h h' ha => ⟨rfl, ha⟩
  | cons p ps ih =>
    intro sg h h' ha
    unfold Graph.linkPeers
    cases ns.get? p.id with
    | none => exact ih sg ha
    | some to =>
      have hl := alike_linkAll ora x.uid to.uid (g.b.weightedEdges (ora.edges id p.id)) sg ha
      simp only []
      revert hl
      generalize Graph.linkAll ora x.uid to.uid _ sg h = r
      generalize Graph.linkAll ora x.uid to.uid _ sg h' = r'
      obtain ⟨r, k⟩ := r
      obtain ⟨r', k'⟩ := r'
      rintro ⟨a1, a2⟩
      cases a1
      cases r with
      | ok sg => exact ih sg a2
      | err _ => exact ⟨rfl, a2⟩
      | panic => exact ⟨rfl, a2⟩

theorem alike_linkNodes (ora : Graph.SubOracle) (g : Graph.WG) (ns : GoMap Int Graph.Node)
    (l : List (Int × Graph.Node)) :
    ∀ (sg : Graph.WG) {h h' : Heap}, Alike h h' →
      (Graph.linkNodes ora g ns l sg h).1 = (Graph.linkNodes ora g ns l sg h').1 := by
  induction l with
  | nil => exact fun sg h h' ha => rfl
  | cons x l ih =>
    obtain ⟨id, x⟩ := x
    intro sg h h' ha
    have hl := alike_linkPeers ora g ns id x (g.b.fromNodes (ora.peers id) id) sg ha
    simp only [Graph.linkNodes]
    revert hl
    generalize Graph.linkPeers ora g ns id x _ sg h = r
    generalize Graph.linkPeers ora g ns id x _ sg h' = r'
    obtain ⟨r, k⟩ := r
    obtain ⟨r', k'⟩ := r'
    rintro ⟨a1, a2⟩
    cases a1
    cases r with
    | ok sg => exact ih sg a2
    | err _ => rfl
    | panic => rfl

/-- **C87** for `SubGraph`: the nodes and edges of the sub graph do not depend on attributes. -/
theorem c87_subGraph (g : Graph.WG) (h h' : Heap) (ha : Alike h h') (ora : Graph.SubOracle) (u : Uid)
    (depth : Int) (opts : List Graph.Opt) :
    (Graph.subGraph ora h g u depth opts).1 = (Graph.subGraph ora h' g u depth opts).1 := by
  unfold Graph.subGraph
  cases g.nodes.get? u.str with
  | none => rfl
  | some root =>
    simp only []
    cases Gonum.Bfs.walk g.b ora.bfs Graph.collect (fun _ d => d == depth) root
        ⟨Graph.new true ora.graphUid opts, GoMap.empty, none⟩ with
    | none => rfl
    | some w =>
      simp only []
      cases w.acc.err with
      | some e => rfl
      | none => exact alike_linkNodes ora g _ _ _ ha

theorem extends_linkAll (ora : Graph.SubOracle) (x y : Uid) (es : List Graph.Edge) :
    ∀ (sg : Graph.WG) (h : Heap), (Graph.linkAll ora x y es sg h).2.Extends h := by
  induction es with
  | nil => exact fun sg h => Heap.Extends.refl _
  | cons e es ih =>
    intro sg h
    have h1 : (Attrs.newCopyFrom h (ora.copy h.cells.length) e.attrs).2.Extends h := Heap.Extends.alloc _ _
    have h2 := c87_graph_frame ⟨(Attrs.newCopyFrom h (ora.copy h.cells.length) e.attrs).2, sg⟩
      (.link (ora.edgeUid h.cells.length) 0 x y
        [.withAttrs (some (Attrs.newCopyFrom h (ora.copy h.cells.length) e.attrs).1), .withWeight e.weight])
      (fun _ => nofun)
    simp only [Graph.linkAll]
    simp only [Graph.step] at h2
    revert h2
    generalize Graph.link _ sg _ _ _ _ _ = r
    obtain ⟨r, g1, k⟩ := r
    intro h2
    have h3 := Heap.Extends.trans h2 h1
    cases r with
    | ok _ => exact Heap.Extends.trans (ih _ _) h3
    | err _ => exact h3
    | panic => exact h3

theorem extends_linkPeers (ora : Graph.SubOracle) (g : Graph.WG) (ns : GoMap Int Graph.Node) (id : Int)
    (x : Graph.Node) (ps : List Graph.Node) :
    ∀ (sg : Graph.WG) (h : Heap), (Graph.linkPeers ora g ns id x ps sg h).2.Extends h := by
  induction ps with
  | nil => exact fun sg h => Heap.Extends.refl _
  | cons p ps ih =>
    intro sg h
    unfold Graph.linkPeers
    cases ns.get? p.id with
    | none => exact ih sg h
    | some to =>
      have hl := extends_linkAll ora x.uid to.uid (g.b.weightedEdges (ora.edges id p.id)) sg h
      simp only []
      revert hl
      generalize Graph.linkAll ora x.uid to.uid _ sg h = r
      obtain ⟨r, k⟩ := r
      intro hl
      cases r with
      | ok sg => exact Heap.Extends.trans (ih _ _) hl
      | err _ => exact hl
      | panic => exact hl

theorem extends_linkNodes (ora : Graph.SubOracle) (g : Graph.WG) (ns : GoMap Int Graph.Node)
    (l : List (Int × Graph.Node)) :
    ∀ (sg : Graph.WG) (h : Heap), (Graph.linkNodes ora g ns l sg h).2.Extends h := by
  induction l with
  | nil => exact fun sg h => Heap.Extends.refl _
  | cons x l ih =>
    obtain ⟨id, x⟩ := x
    intro sg h
    have hl := extends_linkPeers ora g ns id x (g.b.fromNodes (ora.peers id) id) sg h
    simp only [Graph.linkNodes]
    revert hl
    generalize Graph.linkPeers ora g ns id x _ sg h = r
    obtain ⟨r, k⟩ := r
    intro hl
    cases r with
    | ok sg => exact Heap.Extends.trans (ih _ _) hl
    | err _ => exact hl
    | panic => exact hl

/-- **C87** for `SubGraph`, the other way round: whatever comes of it, no attribute set that exists changes. -/
theorem c87_subGraph_frame (g : Graph.WG) (h : Heap) (ora : Graph.SubOracle) (u : Uid) (depth : Int)
    (opts : List Graph.Opt) : (Graph.subGraph ora h g u depth opts).2.Extends h := by
  unfold Graph.subGraph
  cases g.nodes.get? u.str with
  | none => exact Heap.Extends.refl _
  | some root =>
    simp only []
    cases Gonum.Bfs.walk g.b ora.bfs Graph.collect (fun _ d => d == depth) root
        ⟨Graph.new true ora.graphUid opts, GoMap.empty, none⟩ with
    | none => exact Heap.Extends.refl _
    | some w =>
      simp only []
      cases w.acc.err with
      | some e => exact Heap.Extends.refl _
      | none => exact extends_linkNodes ora g _ _ _ _

/-- **C87** for `DOT`: the nodes and edges of the document do not depend on attributes. -/
theorem c87_dot (g : Graph.WG) (h h' : Heap) (o : Graph.DotOrder) (opts : Graph.DotOptions) :
    (Graph.dot h o g opts).nodes.map Prod.fst = (Graph.dot h' o g opts).nodes.map Prod.fst ∧
    (Graph.dot h o g opts).edges.map Prod.fst = (Graph.dot h' o g opts).edges.map Prod.fst ∧
    (Graph.dot h o g opts).name = (Graph.dot h' o g opts).name ∧
    (Graph.dot h o g opts).directed = (Graph.dot h' o g opts).directed := by
  simp [Graph.dot, Graph.dotMarshal]

theorem alike_add {h h' : Heap} (ha : Alike h h') (g : Graph.WG) (o : Order (Int × Unit)) (e : Graph.Ent)
    (opts : List Store.SOpt) :
    (Store.add ⟨h, g⟩ o e opts).1 = (Store.add ⟨h', g⟩ o e opts).1 ∧
    (Store.add ⟨h, g⟩ o e opts).2.g = (Store.add ⟨h', g⟩ o e opts).2.g ∧
    Alike (Store.add ⟨h, g⟩ o e opts).2.heap (Store.add ⟨h', g⟩ o e opts).2.heap := by
  have hn := alike_newNode ha g o e [.withAttrs (Store.applyAll opts).attrs]
  unfold Store.add
  revert hn
  simp only []
  generalize Graph.newNode h g o e _ = r
  generalize Graph.newNode h' g o e _ = r'
  obtain ⟨r, k⟩ := r
  obtain ⟨r', k'⟩ := r'
  rintro ⟨a1, a2⟩
  dsimp only at a1 a2
  subst a1
  cases r with
  | err x => exact ⟨rfl, rfl, a2⟩
  | panic => exact ⟨rfl, rfl, a2⟩
  | ok n =>
    simp only []
    split
    · generalize Graph.addNode g n [] = q
      obtain ⟨q, g1⟩ := q
      rcases q with _ | x | _
      · exact ⟨rfl, rfl, a2⟩
      · cases x <;> exact ⟨rfl, rfl, a2⟩
      · exact ⟨rfl, rfl, a2⟩
    · generalize Graph.addNode g n [.withUpsert] = q
      obtain ⟨q, g1⟩ := q
      rcases q with _ | x | _ <;> exact ⟨rfl, rfl, a2⟩

theorem alike_slink {h h' : Heap} (ha : Alike h h') (g : Graph.WG) (fresh : Uid) (a : Nat) (f t : Uid)
    (opts : List Store.SOpt) :
    (Store.link ⟨h, g⟩ fresh a f t opts).1 = (Store.link ⟨h', g⟩ fresh a f t opts).1 ∧
    (Store.link ⟨h, g⟩ fresh a f t opts).2.g = (Store.link ⟨h', g⟩ fresh a f t opts).2.g ∧
    Alike (Store.link ⟨h, g⟩ fresh a f t opts).2.heap (Store.link ⟨h', g⟩ fresh a f t opts).2.heap := by
  have hl := alike_link ha g fresh a f t [.withAttrs (Store.applyAll opts).attrs]
  unfold Store.link
  revert hl
  simp only []
  generalize Graph.link h g fresh a f t _ = r
  generalize Graph.link h' g fresh a f t _ = r'
  obtain ⟨r, g1, k⟩ := r
  obtain ⟨r', g1', k'⟩ := r'
  rintro ⟨a1, a2, a3⟩
  dsimp only at a1 a2 a3
  subst a1
  subst a2
  rcases r with _ | x | _
  · exact ⟨rfl, rfl, a3⟩
  · cases x <;> exact ⟨rfl, rfl, a3⟩
  · exact ⟨rfl, rfl, a3⟩

theorem alike_loop {α : Type} (f : Graph.St → α → Res Store.Err Unit × Graph.St)
    (hf : ∀ (g : Graph.WG) (h h' : Heap) (x : α), Alike h h' →
      (f ⟨h, g⟩ x).1 = (f ⟨h', g⟩ x).1 ∧ (f ⟨h, g⟩ x).2.g = (f ⟨h', g⟩ x).2.g ∧
      Alike (f ⟨h, g⟩ x).2.heap (f ⟨h', g⟩ x).2.heap) (l : List α) :
    ∀ (g : Graph.WG) {h h' : Heap}, Alike h h' →
      (Store.loop f ⟨h, g⟩ l).1 = (Store.loop f ⟨h', g⟩ l).1 ∧
      (Store.loop f ⟨h, g⟩ l).2.g = (Store.loop f ⟨h', g⟩ l).2.g ∧
      Alike (Store.loop f ⟨h, g⟩ l).2.heap (Store.loop f ⟨h', g⟩ l).2.heap := by
  induction l with
  | nil => exact fun g h h' ha => ⟨rfl, rfl, ha⟩
  | cons x l ih =>
    intro g h h' ha
    have hx := hf g h h' x ha
    simp only [Store.loop]
    revert hx
    generalize f ⟨h, g⟩ x = r
    generalize f ⟨h', g⟩ x = r'
    obtain ⟨r, k, g1⟩ := r
    obtain ⟨r', k', g1'⟩ := r'
    rintro ⟨a1, a2, a3⟩
    dsimp only at a1 a2 a3
    subst a1
    subst a2
    cases r with
    | ok _ => exact ih _ a3
    | err _ => exact ⟨rfl, rfl, a3⟩
    | panic => exact ⟨rfl, rfl, a3⟩

theorem alike_storeStep {g : Graph.WG} {h h' : Heap} (ha : Alike h h') {op op' : Store.Op}
    (hop : SameStoreCall op op') :
    (Store.step ⟨h, g⟩ op).1 = (Store.step ⟨h', g⟩ op').1 ∧
    (Store.step ⟨h, g⟩ op).2.g = (Store.step ⟨h', g⟩ op').2.g ∧
    Alike (Store.step ⟨h, g⟩ op).2.heap (Store.step ⟨h', g⟩ op').2.heap := by
  have key : op = op' ∨ ∃ k k', op = .env k ∧ op' = .env k' ∧ Alike k k' := by
    cases op with
    | env k =>
      cases op' with
      | env k' => exact .inr ⟨k, k', rfl, rfl, hop⟩
      | _ => exact .inl hop
    | _ => exact .inl hop
  rcases key with rfl | ⟨k, k', rfl, rfl, hk⟩
  · cases op with
    | add o e opts => exact alike_add ha g o e opts
    | delete u => exact ⟨rfl, rfl, ha⟩
    | link fresh a f t opts => exact alike_slink ha g fresh a f t opts
    | unlink f t => exact ⟨rfl, rfl, ha⟩
    | bulkAdd es opts => exact alike_loop _ (fun g h h' x ha => alike_add ha g x.1 x.2 opts) es g ha
    | bulkDelete us => exact alike_loop _ (fun g h h' x ha => ⟨rfl, rfl, ha⟩) us g ha
    | bulkLink f us opts =>
      exact alike_loop _ (fun g h h' x ha => alike_slink ha g x.1 x.2.1 f x.2.2 opts) us g ha
    | bulkUnlink f us => exact alike_loop _ (fun g h h' x ha => ⟨rfl, rfl, ha⟩) us g ha
    | env k => exact ⟨rfl, rfl, rfl⟩
  · exact ⟨rfl, rfl, hk⟩

/-- **C87** for the store: results, and the graph, which `Get`, `BulkGet` and all other readers are functions
of, do not depend on what is in attribute sets. -/
theorem c87_store (g : Graph.WG) (h h' : Heap) (ha : Alike h h') (ops ops' : List Store.Op)
    (hops : Pointwise SameStoreCall ops ops') :
    Store.results ⟨h, g⟩ ops = Store.results ⟨h', g⟩ ops' ∧
    (Store.run ⟨h, g⟩ ops).g = (Store.run ⟨h', g⟩ ops').g := by
  induction ops generalizing g h h' ops' with
  | nil =>
    cases ops' with
    | nil => exact ⟨rfl, rfl⟩
    | cons => exact hops.elim
  | cons op ops ih =>
    cases ops' with
    | nil => exact hops.elim
    | cons op' ops' =>
      obtain ⟨h1, h2, h3⟩ := alike_storeStep (g := g) ha hops.1
      obtain ⟨k1, k2⟩ := ih _ _ _ h3 ops' hops.2
      have e : (Store.step ⟨h', g⟩ op').2 = ⟨(Store.step ⟨h', g⟩ op').2.heap, (Store.step ⟨h, g⟩ op).2.g⟩ := by
        rw [h2]
      constructor
      · simp only [Store.results, h1]
        rw [e]
        exact congrArg _ k1
      · show (Store.run (Store.step ⟨h, g⟩ op).2 ops).g = (Store.run (Store.step ⟨h', g⟩ op').2 ops').g
        rw [e]
        exact k2

theorem extends_loop {α : Type} (f : Graph.St → α → Res Store.Err Unit × Graph.St)
    (hf : ∀ s x, (f s x).2.heap.Extends s.heap) (l : List α) :
    ∀ s, (Store.loop f s l).2.heap.Extends s.heap := by
  induction l with
  | nil => exact fun s => Heap.Extends.refl _
  | cons x l ih =>
    intro s
    have hx := hf s x
    simp only [Store.loop]
    revert hx
    generalize f s x = r
    obtain ⟨r, s1⟩ := r
    intro hx
    cases r with
    | ok _ => exact Heap.Extends.trans (ih s1) hx
    | err _ => exact hx
    | panic => exact hx

theorem extends_add (s : Graph.St) (o : Order (Int × Unit)) (e : Graph.Ent) (opts : List Store.SOpt) :
    (Store.add s o e opts).2.heap.Extends s.heap := by
  have hn := c87_graph_frame s (.newNode o e [.withAttrs (Store.applyAll opts).attrs]) (fun _ => nofun)
  unfold Store.add
  revert hn
  simp only [Graph.step]
  generalize Graph.newNode s.heap s.g o e _ = r
  obtain ⟨r, k⟩ := r
  intro hn
  cases r with
  | err x => exact hn
  | panic => exact hn
  | ok n =>
    simp only []
    split
    · generalize Graph.addNode s.g n [] = q
      obtain ⟨q, g1⟩ := q
      rcases q with _ | x | _
      · exact hn
      · cases x <;> exact hn
      · exact hn
    · generalize Graph.addNode s.g n [.withUpsert] = q
      obtain ⟨q, g1⟩ := q
      rcases q with _ | x | _ <;> exact hn

theorem extends_slink (s : Graph.St) (fresh : Uid) (a : Nat) (f t : Uid) (opts : List Store.SOpt) :
    (Store.link s fresh a f t opts).2.heap.Extends s.heap := by
  have hl := c87_graph_frame s (.link fresh a f t [.withAttrs (Store.applyAll opts).attrs]) (fun _ => nofun)
  unfold Store.link
  revert hl
  simp only [Graph.step]
  generalize Graph.link s.heap s.g fresh a f t _ = r
  obtain ⟨r, g1, k⟩ := r
  intro hl
  rcases r with _ | x | _
  · exact hl
  · cases x <;> exact hl
  · exact hl

/-- **C87** for the store, the other way round: no call changes an attribute set that exists. -/
theorem c87_store_frame (s : Graph.St) (op : Store.Op) (hop : ∀ h, op ≠ .env h) :
    (Store.step s op).2.heap.Extends s.heap := by
  cases op with
  | add o e opts => exact extends_add s o e opts
  | delete u => exact Heap.Extends.refl _
  | link fresh a f t opts => exact extends_slink s fresh a f t opts
  | unlink f t => exact Heap.Extends.refl _
  | bulkAdd es opts => exact extends_loop _ (fun s x => extends_add s x.1 x.2 opts) es s
  | bulkDelete us => exact extends_loop _ (fun s x => Heap.Extends.refl _) us s
  | bulkLink f us opts => exact extends_loop _ (fun s x => extends_slink s x.1 x.2.1 f x.2.2 opts) us s
  | bulkUnlink f us => exact extends_loop _ (fun s x => Heap.Extends.refl _) us s
  | env h => exact absurd rfl (hop h)

/-! ## Examples -/

/-- The example graph's attribute sets with something in the first. -/
def exHeap' : Heap := (Graph.exSt true).heap.write 0 (GoMap.empty.set "k" "v")

theorem exAlike : Alike (Graph.exSt true).heap exHeap' := by
  unfold Alike
  decide +kernel

/-- Non-vacuity of C87: memories that are alike and not the same, in a graph with edges owning them. -/
example : Alike (Graph.exSt true).heap exHeap' ∧ (Graph.exSt true).heap.read 0 ≠ exHeap'.read 0 ∧
    (Graph.exSt true).heap.cells.length = 2 := by
  refine ⟨exAlike, ?_, by decide +kernel⟩
  intro h
  have := congrArg (fun m => m.get? "k") h
  revert this
  decide +kernel

/-- Non-vacuity of C87: histories that differ in what the program does to attributes. -/
example : Pointwise SameGraphCall
    [.env (Graph.exSt true).heap, .unlink Graph.uA Graph.uB,
      .link ⟨102, "e3"⟩ 202 Graph.uA Graph.uC [.withAttrs (some 0)]]
    [.env exHeap', .unlink Graph.uA Graph.uB,
      .link ⟨102, "e3"⟩ 202 Graph.uA Graph.uC [.withAttrs (some 0)]] :=
  ⟨exAlike, rfl, rfl, trivial⟩

example : Pointwise SameStoreCall
    [.env (Graph.exSt true).heap, .link ⟨102, "e3"⟩ 202 Graph.uA Graph.uC []]
    [.env exHeap', .link ⟨102, "e3"⟩ 202 Graph.uA Graph.uC []] :=
  ⟨exAlike, rfl, trivial⟩

/-- Non-vacuity of C87: the document does show the attributes that differ. -/
example : ∃ o, (Graph.dot (Graph.exSt true).heap o (Graph.exSt true).g {}).edges.map Prod.snd ≠
    (Graph.dot exHeap' o (Graph.exSt true).g {}).edges.map Prod.snd := by
  refine ⟨Graph.DotOrder.id, ?_⟩
  decide +kernel

end Netscrape.Props
