import Verif.Lemmas.Dot
import Verif.Lemmas.GraphEx

/-!
# C71–C74: DOT documents
-/

namespace Netscrape.Props
open Netscrape.Graph Netscrape.Spec.Graph

/-! ## C71 -/

/-- Whatever fits was added, the document shows every node as `Node` returns it. -/
def DotNodesStatement : Prop := ∀ (d : Bool) (s : St), Reach Disciplined d s → ∀ (o : DotOrder) (x : DotOptions)
  (u : Uid) (n : Node), node s.g u = .ok n → ∃ y ∈ (dot s.heap o s.g x).nodes, ShowsNode s.heap n y

/-- C71 fails: after an upsert `Node` returns the new node and the document shows the old one. -/
theorem c71_upsert_violated : ¬ DotNodesStatement := by
  intro h
  let n : Node := ⟨exEnt 1 "a", 0, "a", 0⟩
  let n' : Node := ⟨exEnt 1 "a", 0, "new", 0⟩
  have h1 : Reach Disciplined true (step (exInit true) (.addNode n [])).1 :=
    .step _ _ (reach_exInit _ _) (fits_of_entries (by decide))
  have h2 : Reach Disciplined true (step (step (exInit true) (.addNode n [])).1 (.addNode n' [.withUpsert])).1 :=
    .step _ _ h1 (fits_of_entries (by decide))
  obtain ⟨y, h3, h4, _⟩ := h true _ h2 .id {} ⟨1, "a"⟩ n' rfl
  have h5 : y ∈ [("a", ([] : DotAttrs))] := h3
  rw [List.mem_singleton.mp h5] at h4
  exact absurd h4 (by decide)

/-- C71, if no node is replaced by another: the document lists every node of the graph, as `Node` returns it, exactly
once, in order of their IDs, and every edge, as `Edge` returns it, exactly once (in an undirected graph in one of its
two directions). -/
theorem c71_dot_partial {d : Bool} {s : St} (h : Reach NoReplace d s) (o : DotOrder) (x : DotOptions) :
    (dot s.heap o s.g x).directed = d ∧
    ∃ ns es, Shows s.heap (dot s.heap o s.g x) ns es ∧
      ns.Pairwise (fun n m => n.id < m.id) ∧ (∀ n, n ∈ ns ↔ ∃ u, node s.g u = .ok n) ∧
      es.Pairwise (fun e f => ¬ SameEnds d e f) ∧ (∀ e ∈ es, edge s.g e.src.uid e.dst.uid = .ok e) ∧
      (∀ u v e, edge s.g u v = .ok e → e ∈ es ∨ (d = false ∧ e.rev ∈ es)) := by
  obtain ⟨hinv, hdir⟩ := gonumInv_reach h
  have hx := wgExact_reach h
  rw [dot_eq]
  refine ⟨hdir, dotNodes s.g.b o, (dotPairs s.g.b o).filterMap fun y => s.g.b.weightedEdge y.1.id y.2.id,
    ⟨?_, ?_⟩, dotNodes_strict hinv o, ?_, ?_, ?_, ?_⟩
  · have := pointwise_map (R := ShowsNode s.heap) (f := id) (g := fun n : Node =>
      (n.dotid, Attrs.dotAttrs s.heap (o.nodeAttrs n.id) n.attrs)) (l := dotNodes s.g.b o)
      fun n _ => ⟨rfl, dotAttrs_shows _ _ _⟩
    rwa [List.map_id] at this
  · refine pointwise_filterMap fun y hy => ?_
    obtain ⟨h1, h2, e, h3⟩ := mem_dotPairs hinv hy
    obtain ⟨h4, h5⟩ := hx.ends _ _ _ h3
    rw [h1] at h4; rw [h2] at h5
    refine ⟨e, h3, ?_, ?_⟩
    · show (y.1.dotid, y.2.dotid) = _
      rw [Option.some.inj h4, Option.some.inj h5]
    · show ShowsAttrs s.heap e.attrs (match s.g.b.weightedEdge y.1.id y.2.id with
        | some e => Attrs.dotAttrs s.heap (o.edgeAttrs y.1.id y.2.id) e.attrs | none => [])
      rw [h3]
      exact dotAttrs_shows _ _ _
  · intro n
    rw [mem_dotNodes hinv, ← hx.same]
    constructor
    · exact fun h1 => ⟨n.uid, (hx.inv.node_eq _ _).mpr h1⟩
    · rintro ⟨u, h1⟩
      have h2 := (hx.inv.node_eq _ _).mp h1
      rwa [hx.inv.keyOf _ _ h2]
  · rw [List.pairwise_filterMap, ← hdir]
    refine List.Pairwise.imp ?_ unseen_pairwise
    intro y z hne e he f hf
    obtain ⟨h1, h2, _⟩ := Gonum.weightedEdge_ends hinv he
    obtain ⟨h3, h4, _⟩ := Gonum.weightedEdge_ends hinv hf
    unfold SameEnds
    rw [h1, h2, h3, h4]
    exact hne
  · intro e he
    obtain ⟨y, hy, h3⟩ := List.mem_filterMap.mp he
    obtain ⟨h4, h5⟩ := hx.ends _ _ _ h3
    have h6 := hinv.nodeID _ _ h4
    have h7 := hinv.nodeID _ _ h5
    rw [← h6] at h4; rw [← h7] at h5
    exact edge_ok.mpr ⟨e.src, e.dst, (hx.same _).mpr h4, (hx.same _).mpr h5, by rw [h6, h7]; exact h3⟩
  · intro u v e he
    obtain ⟨f, t, _, _, h3⟩ := edge_ok.mp he
    obtain ⟨y, hy, h4⟩ := dotPairs_covers hinv o h3
    rcases h4 with ⟨h5, h6⟩ | ⟨h0, h5, h6⟩
    · exact .inl (List.mem_filterMap.mpr ⟨y, hy, by rw [h5, h6]; exact h3⟩)
    · refine .inr ⟨hdir ▸ h0, List.mem_filterMap.mpr ⟨y, hy, ?_⟩⟩
      rw [h5, h6, Gonum.weightedEdge_symm hinv h0, h3]
      rfl

/-- C71, whatever fits is added: the document has one node statement for each node of the graph, in order of their
IDs, and one edge statement for each edge, between the statements of the nodes it joins; only the names and attributes
shown may be those of a node that was replaced. -/
theorem c71_structure_partial {d : Bool} {s : St} (h : Reach Disciplined d s) (o : DotOrder) (x : DotOptions) :
    (dot s.heap o s.g x).directed = d ∧
    ∃ (ns : List Node) (es : List (Node × Node × Edge)),
      Pointwise (ShowsNode s.heap) ns (dot s.heap o s.g x).nodes ∧
      Pointwise (fun y z => z.1 = (y.1.dotid, y.2.1.dotid) ∧ ShowsAttrs s.heap y.2.2.attrs z.2) es
        (dot s.heap o s.g x).edges ∧
      ns.Pairwise (fun n m => n.id < m.id) ∧
      (∀ n ∈ ns, ∃ m, node s.g n.uid = .ok m ∧ m.id = n.id) ∧
      (∀ u m, node s.g u = .ok m → ∃ n ∈ ns, n.uid.str = u.str ∧ n.id = m.id) ∧
      es.Pairwise (fun y z => ¬ SameEnds d y.2.2 z.2.2) ∧
      (∀ y ∈ es, y.1 ∈ ns ∧ y.2.1 ∈ ns ∧ edge s.g y.1.uid y.2.1.uid = .ok y.2.2) ∧
      (∀ u v e, edge s.g u v = .ok e → ∃ y ∈ es, y.2.2 = e ∨ (d = false ∧ y.2.2 = e.rev)) := by
  obtain ⟨hinv, hdir⟩ := gonumInv_reach h
  have hw := wgInv_reach h
  have look : ∀ n : Node, s.g.b.nodes.get? n.id = some n → ∃ m, s.g.nodes.get? n.key = some m ∧ m.id = n.id := by
    intro n hn
    exact hw.ofID n.id n.key (by rw [keyAt, hn]; rfl)
  rw [dot_eq]
  refine ⟨hdir, dotNodes s.g.b o, (dotPairs s.g.b o).filterMap fun y =>
    (s.g.b.weightedEdge y.1.id y.2.id).map fun e => (y.1, y.2, e), ?_, ?_, dotNodes_strict hinv o, ?_, ?_, ?_, ?_, ?_⟩
  · have := pointwise_map (R := ShowsNode s.heap) (f := id) (g := fun n : Node =>
      (n.dotid, Attrs.dotAttrs s.heap (o.nodeAttrs n.id) n.attrs)) (l := dotNodes s.g.b o)
      fun n _ => ⟨rfl, dotAttrs_shows _ _ _⟩
    rwa [List.map_id] at this
  · refine pointwise_filterMap fun y hy => ?_
    obtain ⟨h1, h2, e, h3⟩ := mem_dotPairs hinv hy
    refine ⟨(y.1, y.2, e), by rw [h3]; rfl, rfl, ?_⟩
    show ShowsAttrs s.heap e.attrs (match s.g.b.weightedEdge y.1.id y.2.id with
        | some e => Attrs.dotAttrs s.heap (o.edgeAttrs y.1.id y.2.id) e.attrs | none => [])
    rw [h3]
    exact dotAttrs_shows _ _ _
  · intro n hn
    obtain ⟨m, h1, h2⟩ := look n ((mem_dotNodes hinv o n).mp hn)
    exact ⟨m, (hw.node_eq _ _).mpr h1, h2⟩
  · intro u m hm
    have h1 := hw.toID _ _ ((hw.node_eq _ _).mp hm)
    rw [keyAt, Option.map_eq_some_iff] at h1
    obtain ⟨n, h2, h3⟩ := h1
    have h4 := hinv.nodeID _ _ h2
    exact ⟨n, (mem_dotNodes hinv o n).mpr (by rw [h4]; exact h2), h3, h4⟩
  · rw [List.pairwise_filterMap, ← hdir]
    refine List.Pairwise.imp ?_ unseen_pairwise
    intro y z hne e' he' f' hf'
    obtain ⟨e, he, rfl⟩ := Option.map_eq_some_iff.mp he'
    obtain ⟨f, hf, rfl⟩ := Option.map_eq_some_iff.mp hf'
    obtain ⟨h1, h2, _⟩ := Gonum.weightedEdge_ends hinv he
    obtain ⟨h3, h4, _⟩ := Gonum.weightedEdge_ends hinv hf
    unfold SameEnds
    rw [h1, h2, h3, h4]
    exact hne
  · intro z hz
    obtain ⟨y, hy, h0⟩ := List.mem_filterMap.mp hz
    obtain ⟨e, h3, rfl⟩ := Option.map_eq_some_iff.mp h0
    obtain ⟨h1, h2, _⟩ := mem_dotPairs hinv hy
    refine ⟨(mem_dotNodes hinv o _).mpr h1, (mem_dotNodes hinv o _).mpr h2, edge_ok.mpr ?_⟩
    obtain ⟨m, h4, h5⟩ := look _ h1
    obtain ⟨m', h6, h7⟩ := look _ h2
    exact ⟨m, m', h4, h6, by rw [h5, h7]; exact h3⟩
  · intro u v e he
    obtain ⟨f, t, _, _, h3⟩ := edge_ok.mp he
    obtain ⟨y, hy, h4⟩ := dotPairs_covers hinv o h3
    rcases h4 with ⟨h5, h6⟩ | ⟨h0, h5, h6⟩
    · exact ⟨(y.1, y.2, e), List.mem_filterMap.mpr ⟨y, hy, by rw [h5, h6, h3]; rfl⟩, .inl rfl⟩
    · refine ⟨(y.1, y.2, e.rev), List.mem_filterMap.mpr ⟨y, hy, ?_⟩, .inr ⟨hdir ▸ h0, rfl⟩⟩
      rw [h5, h6, Gonum.weightedEdge_symm hinv h0, h3]
      rfl

-- three nodes and two edges, directed and undirected
example : Reach NoReplace true (exSt true) ∧ Reach NoReplace false (exSt false) ∧
    (dot (exSt true).heap .id (exSt true).g {}).nodes.length = 3 ∧
    (dot (exSt true).heap .id (exSt true).g {}).edges.map Prod.fst = [("a", "b"), ("b", "c")] ∧
    (dot (exSt false).heap .id (exSt false).g {}).edges.map Prod.fst = [("a", "b"), ("b", "c")] :=
  ⟨reach_exSt _, reach_exSt _, by decide, by decide, by decide⟩

/-! ## C72 -/

/-- DOT of one graph is always the same. -/
def DotDeterminedStatement : Prop := ∀ (d : Bool) (s : St), Reach NoReplace d s → ∀ (o o' : DotOrder) (x : DotOptions),
  dot s.heap o s.g x = dot s.heap o' s.g x

/-- A graph whose only node has two attributes. -/
def twoAttrs : St :=
  let a := Attrs.new Heap.empty
  (step ⟨Attrs.run a.2 [⟨a.1, "x", "1"⟩, ⟨a.1, "y", "2"⟩], new true ⟨0, "graph"⟩ []⟩
    (.addNode ⟨exEnt 1 "a", 0, "a", a.1⟩ [])).1

theorem reach_twoAttrs : Reach NoReplace true twoAttrs :=
  .step _ _ (.init _ _ _) ⟨fits_of_entries (by decide), nofun⟩

/-- C72 fails: attributes appear in the order of map iteration. -/
theorem c72_determined_violated : ¬ DotDeterminedStatement := by
  intro h
  have := h true twoAttrs reach_twoAttrs .id ⟨Order.id, fun _ => Order.id, fun _ => Order.rev, fun _ _ => Order.id⟩ {}
  exact absurd this (by decide)

private theorem flatMap_same {α β : Type} {f g : α → List β} : ∀ {l : List α}, (∀ x ∈ l, f x = g x) →
    l.flatMap f = l.flatMap g
  | [], _ => rfl
  | x :: _, h => by
    rw [List.flatMap_cons, List.flatMap_cons, h x List.mem_cons_self,
      flatMap_same fun y hy => h y (List.mem_cons_of_mem _ hy)]

private theorem dotAttrs_same {h h' : Heap} {a : Ref} (o o' : Order (String × String))
    (hk : ∀ k, (h.read a).get? k = (h'.read a).get? k) :
    (Attrs.dotAttrs h o a).Perm (Attrs.dotAttrs h' o' a) := by
  have h1 : (Attrs.keys h o a).Perm (Attrs.keys h' o' a) :=
    (((o.perm _).trans (GoMap.entries_perm_of_get? hk)).trans (o'.perm _).symm).map Prod.fst
  have h2 : (fun k => (k, Attrs.get h a k)) = fun k => (k, Attrs.get h' a k) :=
    funext fun k => by rw [Attrs.get, Attrs.get, hk]
  unfold Attrs.dotAttrs
  rw [h2]
  exact h1.map _

/-- C72, up to the order of attributes: two graphs of the same kind whose `Node` and `Edge` give the same answers, and
whose attribute sets have the same contents, have the same document; it depends on nothing else. -/
theorem c72_extensional_partial {d : Bool} {s s' : St} (h : Reach NoReplace d s) (h' : Reach NoReplace d s')
    (hn : ∀ u, node s.g u = node s'.g u) (he : ∀ u v, edge s.g u v = edge s'.g u v)
    (ha : ∀ (r : Ref) k, (s.heap.read r).get? k = (s'.heap.read r).get? k) (o o' : DotOrder) (x x' : DotOptions) :
    SameDoc (dot s.heap o s.g x) (dot s'.heap o' s'.g x') := by
  obtain ⟨hinv, hdir⟩ := gonumInv_reach h
  obtain ⟨hinv', hdir'⟩ := gonumInv_reach h'
  have hx := wgExact_reach h
  have hx' := wgExact_reach h'
  have nodes : ∀ n, s.g.b.nodes.get? n.id = some n ↔ s'.g.b.nodes.get? n.id = some n := by
    intro n
    rw [← hx.same, ← hx'.same, ← hx.inv.node_eq ⟨0, n.key⟩, ← hx'.inv.node_eq ⟨0, n.key⟩, hn]
  have edges : ∀ n t : Node, s.g.b.nodes.get? n.id = some n → s.g.b.nodes.get? t.id = some t →
      s.g.b.weightedEdge n.id t.id = s'.g.b.weightedEdge n.id t.id := by
    intro n t h1 h2
    have h3 := (hx.same n).mpr h1
    have h4 := (hx.same t).mpr h2
    have h5 := (hx'.same n).mpr ((nodes n).mp h1)
    have h6 := (hx'.same t).mpr ((nodes t).mp h2)
    have h7 := he n.uid t.uid
    unfold edge at h7
    rw [show n.uid.str = n.key from rfl, show t.uid.str = t.key from rfl, h3, h4, h5, h6] at h7
    cases h8 : s.g.b.weightedEdge n.id t.id <;> cases h9 : s'.g.b.weightedEdge n.id t.id <;>
      simp_all
  have e1 : dotNodes s.g.b o = dotNodes s'.g.b o' :=
    strict_eq (dotNodes_strict hinv o) (dotNodes_strict hinv' o') fun n => by
      rw [mem_dotNodes hinv, mem_dotNodes hinv', nodes]
  have e2 : dotPairs s.g.b o = dotPairs s'.g.b o' := by
    unfold dotPairs
    rw [hdir, hdir', e1]
    congr 1
    refine flatMap_same fun n hn => ?_
    have hn' : s.g.b.nodes.get? n.id = some n := (mem_dotNodes hinv o n).mp (e1 ▸ hn)
    rw [strict_eq (sortByID_strict (Gonum.nodup_fromNodes_ids hinv (o.row n.id) n.id))
      (sortByID_strict (Gonum.nodup_fromNodes_ids hinv' (o'.row n.id) n.id)) fun t => ?_]
    rw [mem_sortByID, mem_sortByID, Gonum.mem_fromNodes hinv, Gonum.mem_fromNodes hinv']
    constructor
    · rintro ⟨h1, h2⟩
      exact ⟨(nodes t).mp h1, edges n t hn' h1 ▸ h2⟩
    · rintro ⟨h1, h2⟩
      exact ⟨(nodes t).mpr h1, edges n t hn' ((nodes t).mpr h1) ▸ h2⟩
  rw [dot_eq, dot_eq]
  refine ⟨by rw [hdir, hdir'], rfl, .refl _, .refl _, .refl _, ?_, ?_⟩
  · simp only [e1]
    exact pointwise_map fun n _ => ⟨rfl, dotAttrs_same _ _ (ha n.attrs)⟩
  · simp only [← e2]
    refine pointwise_map fun y hy => ⟨rfl, ?_⟩
    obtain ⟨h1, h2, _⟩ := mem_dotPairs hinv hy
    simp only [← edges y.1 y.2 h1 h2]
    cases s.g.b.weightedEdge y.1.id y.2.id with
    | none => exact .refl _
    | some e => exact dotAttrs_same _ _ (ha e.attrs)

private theorem perm_short {α : Type} {l l' : List α} (h : l.Perm l') (hl : l.length ≤ 1) : l = l' := by
  match l, hl with
  | [], _ => exact h.symm.eq_nil.symm
  | [a], _ => exact (List.perm_singleton.mp h.symm).symm

private theorem dotAttrs_length (h : Heap) (o : Order (String × String)) (a : Ref) :
    (Attrs.dotAttrs h o a).length = (h.read a).size := by
  unfold Attrs.dotAttrs Attrs.keys
  rw [List.length_map, List.length_map, (o.perm _).length_eq]
  rfl

/-- C72: if no attribute set has more than one attribute, DOT of the graph is always the same. -/
theorem c72_single_partial {d : Bool} {s : St} (h : Reach NoReplace d s) (h1 : ∀ r : Ref, (s.heap.read r).size ≤ 1)
    (o o' : DotOrder) (x : DotOptions) : dot s.heap o s.g x = dot s.heap o' s.g x := by
  have hs := c72_extensional_partial h h (fun _ => rfl) (fun _ _ => rfl) (fun _ _ => rfl) o o' x x
  have same : ∀ {κ : Type} {l l' : List (κ × DotAttrs)}, Pointwise (fun x y => x.1 = y.1 ∧ x.2.Perm y.2) l l' →
      (∀ y ∈ l, y.2.length ≤ 1) → l = l' := by
    intro κ l l' hp
    induction hp with
    | nil => intro _; rfl
    | @cons a b _ _ h2 _ ih =>
      intro h3
      obtain ⟨a1, a2⟩ := a
      obtain ⟨b1, b2⟩ := b
      obtain ⟨h4, h5⟩ := h2
      cases h4
      rw [ih fun y hy => h3 y (List.mem_cons_of_mem _ hy), show a2 = b2 from perm_short h5 (h3 _ List.mem_cons_self)]
  have e1 := same hs.nodes (by
    rw [dot_eq]
    intro y hy
    obtain ⟨n, _, rfl⟩ := List.mem_map.mp hy
    simp only [dotAttrs_length, h1])
  have e2 := same hs.edges (by
    rw [dot_eq]
    intro y hy
    obtain ⟨⟨n, t⟩, _, rfl⟩ := List.mem_map.mp hy
    simp only
    cases s.g.b.weightedEdge n.id t.id with
    | none => exact Nat.zero_le _
    | some e => simp only [dotAttrs_length, h1])
  have e3 := hs.directed
  rw [dot_eq, dot_eq] at *
  simp only [Doc.mk.injEq, true_and] at *
  exact ⟨e1, e2⟩

/-- The graph of three nodes, made in a heap whose first attribute set has one attribute; the nodes share it. -/
def oneAttr (d : Bool) : St :=
  run ⟨Attrs.run (Attrs.new Heap.empty).2 [⟨0, "x", "1"⟩], new d ⟨0, "graph"⟩ []⟩ exOps

theorem reach_oneAttr (d : Bool) : Reach NoReplace d (oneAttr d) :=
  reach_run exOps (.init _ _ _) (by cases d <;> decide)

-- no attribute set of the example has more than one attribute, and the document shows one
example : Reach NoReplace false (oneAttr false) ∧ (∀ r : Ref, ((oneAttr false).heap.read r).size ≤ 1) ∧
    (dot (oneAttr false).heap .id (oneAttr false).g {}).nodes =
      [("a", [("x", "1")]), ("b", [("x", "1")]), ("c", [("x", "1")])] := by
  refine ⟨reach_oneAttr _, fun r => ?_, by decide⟩
  match r with
  | 0 => decide
  | 1 => decide
  | 2 => decide
  | _ + 3 => exact Nat.zero_le _

-- two graphs built in different ways (an edge more, removed again) that look the same
example : let s := exSt false
    let s' := run (exSt false) [.link ⟨102, "e3"⟩ 202 uA uC [.withAttrs (some 0)], .unlink uC uA]
    Reach NoReplace false s' ∧ dot s.heap .id s.g {} = dot s'.heap .id s'.g {} :=
  ⟨reach_run _ (reach_exSt _) (by decide), by decide⟩

/-! ## C73 -/

/-- The document is named after the graph. -/
def DotNameStatement : Prop := ∀ (d : Bool) (s : St), Reach NoReplace d s → ∀ (o : DotOrder) (x : DotOptions),
  (dot s.heap o s.g x).name = s.g.dotid

/-- C73 fails: the document has no name. -/
theorem c73_name_violated : ¬ DotNameStatement := by
  intro h
  exact absurd (h true (exInit true) (reach_exInit _ _) .id {}) (by decide)

/-- The document has the attributes given with `WithDOTOptions`. -/
def DotOptionsStatement : Prop := ∀ (d : Bool) (s : St), Reach NoReplace d s → ∀ (o : DotOrder) (x : DotOptions),
  (dot s.heap o s.g x).graphAttrs = x.graphAttrs ∧ (dot s.heap o s.g x).nodeAttrs = x.nodeAttrs ∧
  (dot s.heap o s.g x).edgeAttrs = x.edgeAttrs

/-- C73 fails: it has none. -/
theorem c73_options_violated : ¬ DotOptionsStatement := by
  intro h
  have := (h true (exInit true) (reach_exInit _ _) .id { graphAttrs := [("rankdir", "LR")] }).1
  exact absurd this (by decide)

/-- C73, when it holds: exactly for graphs with an empty DOTID and no options. Which options a graph was made with
makes no difference. -/
theorem c73_exact_partial (s : St) (o : DotOrder) (x : DotOptions) :
    ((dot s.heap o s.g x).name = s.g.dotid ↔ s.g.dotid = "") ∧
    ((dot s.heap o s.g x).graphAttrs = x.graphAttrs ∧ (dot s.heap o s.g x).nodeAttrs = x.nodeAttrs ∧
      (dot s.heap o s.g x).edgeAttrs = x.edgeAttrs ↔ x.graphAttrs = [] ∧ x.nodeAttrs = [] ∧ x.edgeAttrs = []) ∧
    ∀ y, dot s.heap o s.g x = dot s.heap o s.g y := by
  refine ⟨⟨Eq.symm, Eq.symm⟩, ⟨fun h => ⟨h.1.symm, h.2.1.symm, h.2.2.symm⟩, fun h => ⟨h.1.symm, h.2.1.symm, h.2.2.symm⟩⟩,
    fun _ => rfl⟩

/-- Non-vacuity: a graph with a name and one without. -/
example : (new true ⟨1, "g"⟩ [.withDOTID "net"]).dotid = "net" ∧ (new true ⟨1, ""⟩ []).dotid = "" := by decide

/-! ## C74 -/

/-- A reader of the document finds as many nodes as the graph has: different nodes have different names. -/
def DotNamesStatement : Prop := ∀ (d : Bool) (s : St), Reach NoReplace d s → ∀ (o : DotOrder) (x : DotOptions),
  ((dot s.heap o s.g x).nodes.map Prod.fst).Nodup

/-- C74 fails: `NewNode` takes any DOTID. -/
theorem c74_names_violated : ¬ DotNamesStatement := by
  intro h
  have hr : Reach NoReplace true (run (exInit true) [.addNode ⟨exEnt 1 "a", 0, "x", 0⟩ [], .addNode ⟨exEnt 2 "b", 1, "x", 0⟩ []]) :=
    reach_run _ (reach_exInit _ _) (by decide)
  exact absurd (h true _ hr .id {}) (by decide)

/-- C74, if different nodes have different DOTIDs (as they do if no DOTIDs are given: they are then the UIDs), and no
node is replaced: the document has exactly the graph's nodes, each once, and two of them are joined exactly if `Edge`
finds an edge between them. -/
theorem c74_reads_back_partial {d : Bool} {s : St} (h : Reach NoReplace d s)
    (hd : ∀ u v n m, node s.g u = .ok n → node s.g v = .ok m → n.dotid = m.dotid → n.uid.str = m.uid.str)
    (o : DotOrder) (x : DotOptions) :
    ((dot s.heap o s.g x).nodes.map Prod.fst).Nodup ∧
    (∀ a, Doc.HasNode (dot s.heap o s.g x) a ↔ ∃ u n, node s.g u = .ok n ∧ n.dotid = a) ∧
    (∀ u v n m, node s.g u = .ok n → node s.g v = .ok m →
      (Doc.HasEdge (dot s.heap o s.g x) n.dotid m.dotid ↔ ∃ e, edge s.g u v = .ok e)) := by
  obtain ⟨h0, ns, es, hs, h1, h2, h3, h4, h5⟩ := c71_dot_partial h o x
  obtain ⟨hinv, hdir⟩ := gonumInv_reach h
  have hx := wgExact_reach h
  -- a node found under a UID has this UID
  have key : ∀ u n, node s.g u = .ok n → n.uid.str = u.str :=
    fun u n hn => hx.inv.keyOf _ _ ((hx.inv.node_eq _ _).mp hn)
  -- an edge found joins the nodes looked up
  have ends : ∀ u v e, edge s.g u v = .ok e → node s.g u = .ok e.src ∧ node s.g v = .ok e.dst := by
    intro u v e he
    obtain ⟨f, t, h6, h7, h8⟩ := edge_ok.mp he
    obtain ⟨h9, h10⟩ := hx.ends _ _ _ h8
    have same : ∀ {k : String} {a b : Node}, s.g.nodes.get? k = some a → s.g.b.nodes.get? a.id = some b → a = b := by
      intro k a b ha hb
      have h11 := hx.inv.keyOf _ _ ha
      rw [← h11] at ha
      have h12 := (hx.same a).mp ha
      rw [hb] at h12
      exact (Option.some.inj h12).symm
    rw [← same h6 h9, ← same h7 h10]
    exact ⟨(hx.inv.node_eq _ _).mpr h6, (hx.inv.node_eq _ _).mpr h7⟩
  have congr : ∀ u v u' v' : Uid, u.str = u'.str → v.str = v'.str → edge s.g u v = edge s.g u' v' := by
    intro u v u' v' ha hb
    unfold edge
    rw [ha, hb]
  have mems : ∀ a b, (a, b) ∈ (dot s.heap o s.g x).edges.map Prod.fst ↔
      ∃ e ∈ es, e.src.dotid = a ∧ e.dst.dotid = b := by
    intro a b
    constructor
    · intro hm
      obtain ⟨y, hy, h6⟩ := List.mem_map.mp hm
      obtain ⟨e, he, h7⟩ := pointwise_mem_right hs.edges hy
      have := h7.1
      rw [h6] at this
      cases this
      exact ⟨e, he, rfl, rfl⟩
    · rintro ⟨e, he, rfl, rfl⟩
      obtain ⟨y, hy, h7⟩ := pointwise_mem_left hs.edges he
      exact List.mem_map.mpr ⟨y, hy, h7.1⟩
  have symm : ∀ u v e, d = false → edge s.g u v = .ok e → edge s.g v u = .ok e.rev := by
    intro u v e h6 he
    obtain ⟨f, t, h7, h8, h9⟩ := edge_ok.mp he
    refine edge_ok.mpr ⟨t, f, h8, h7, ?_⟩
    rw [Gonum.weightedEdge_symm hinv (hdir.trans h6), h9]
    rfl
  have find : ∀ u v n m e, node s.g u = .ok n → node s.g v = .ok m → e ∈ es → e.src.dotid = n.dotid →
      e.dst.dotid = m.dotid → edge s.g u v = .ok e := by
    intro u v n m e hn hm he h6 h7
    have h8 := h4 e he
    obtain ⟨h9, h10⟩ := ends _ _ _ h8
    have h11 := hd _ _ _ _ h9 hn h6
    have h12 := hd _ _ _ _ h10 hm h7
    rw [← h8]
    exact congr _ _ _ _ (by rw [h11, key _ _ hn]) (by rw [h12, key _ _ hm])
  refine ⟨?_, fun a => ?_, fun u v n m hn hm => ?_⟩
  · rw [pointwise_eq_map hs.nodes fun _ _ h => h.1, List.Nodup, List.pairwise_map]
    refine List.Pairwise.imp_of_mem ?_ h1
    intro n m hn hm hlt heq
    obtain ⟨u, hu⟩ := (h2 n).mp hn
    obtain ⟨v, hv⟩ := (h2 m).mp hm
    have h7 := hd _ _ _ _ hu hv heq
    have h8 := (hx.inv.node_eq _ _).mp hu
    have h9 := (hx.inv.node_eq _ _).mp hv
    rw [← key _ _ hu, h7, key _ _ hv, h9] at h8
    cases h8
    exact Int.lt_irrefl _ hlt
  · constructor
    · intro hm
      obtain ⟨y, hy, rfl⟩ := List.mem_map.mp hm
      obtain ⟨n, hn, h6⟩ := pointwise_mem_right hs.nodes hy
      obtain ⟨u, hu⟩ := (h2 n).mp hn
      exact ⟨u, n, hu, h6.1.symm⟩
    · rintro ⟨u, n, hu, rfl⟩
      obtain ⟨y, hy, h6⟩ := pointwise_mem_left hs.nodes ((h2 n).mpr ⟨u, hu⟩)
      exact List.mem_map.mpr ⟨y, hy, h6.1⟩
  · constructor
    · rintro (h6 | ⟨h6, h7⟩)
      · obtain ⟨e, he, h7, h8⟩ := (mems _ _).mp h6
        exact ⟨e, find u v n m e hn hm he h7 h8⟩
      · obtain ⟨e, he, h7, h8⟩ := (mems _ _).mp h7
        exact ⟨e.rev, symm _ _ _ (h0 ▸ h6) (find v u m n e hm hn he h7 h8)⟩
    · rintro ⟨e, he⟩
      obtain ⟨h6, h7⟩ := ends _ _ _ he
      rw [hn] at h6; rw [hm] at h7
      cases h6; cases h7
      rcases h5 u v e he with h8 | ⟨h8, h9⟩
      · exact .inl ((mems _ _).mpr ⟨e, h8, rfl, rfl⟩)
      · exact .inr ⟨h0.trans h8, (mems _ _).mpr ⟨e.rev, h9, rfl, rfl⟩⟩

-- the nodes of the example have different DOTIDs
example : Reach NoReplace false (exSt false) ∧
    (∀ u v n m, node (exSt false).g u = .ok n → node (exSt false).g v = .ok m → n.dotid = m.dotid →
      n.uid.str = m.uid.str) ∧
    Doc.HasEdge (dot (exSt false).heap .id (exSt false).g {}) "b" "a" := by
  refine ⟨reach_exSt _, ?_, by unfold Doc.HasEdge; decide⟩
  have h : ∀ u n, node (exSt false).g u = .ok n → n ∈ [exNode 0 "a", exNode 1 "b", exNode 2 "c"] := by
    intro u n hn
    have h1 := ((wgInv_reach (reach_exSt' false)).node_eq u n).mp hn
    have h2 : n ∈ (exSt false).g.nodes.entries.map Prod.snd :=
      List.mem_map.mpr ⟨_, (GoMap.get?_eq_some _ _ _).mp h1, rfl⟩
    exact (List.Perm.mem_iff (by decide)).mp h2
  intro u v n m hn hm heq
  have h1 := h u n hn
  have h2 := h v m hm
  simp only [List.mem_cons, List.not_mem_nil, or_false] at h1 h2
  rcases h1 with rfl | rfl | rfl <;> rcases h2 with rfl | rfl | rfl <;> first | rfl | exact absurd heq (by decide)

end Netscrape.Props
