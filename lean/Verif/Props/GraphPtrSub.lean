import Verif.Lemmas.GraphPtrSub
import Verif.Lemmas.GraphPtrWalk
import Verif.Lemmas.GraphPtrLinks
import Verif.Spec.GraphPtrPath
import Verif.Props.GraphPtr
import Verif.Props.SubGraph

/-!
# C86: the objects of a sub graph
-/

namespace Netscrape.Props
open Netscrape Netscrape.GraphPtr Netscrape.Spec.GraphPtr
open Netscrape.Graph (Opt Err)

/-- Choices for the examples. -/
def ptrOra : GraphPtr.SubOracle :=
  { graphUid := ⟨50, "sub"⟩, bfs := fun _ => Order.id, nodes := Order.id, peers := fun _ => Order.id,
    edges := fun _ _ => EdgeOrder.id, copy := fun _ => Order.id, edgeUid := fun i => ⟨1000 + i, "edge"⟩ }

/-- The nodes of a sub graph are the objects the source hands out for the same UIDs. -/
def SubGraphSharesNodes : Prop := ∀ (d : Bool) (s : St), Reach Disciplined d s →
  ∀ ora u depth opts sg m', subGraph ora s.mem s.g u depth opts = (.ok sg, m') →
    ∀ v p, node sg v = .ok p → node s.g v = .ok p

/-- **C86 fails** after an upsert: the walk follows gonum's table, which still has the old object, so the
sub graph has a node the source does not hand out any more. -/
theorem c86_violated : ¬ SubGraphSharesNodes := by
  intro h
  have hr : Reach Disciplined false (step (run (ptrInit false) ptrOps) (.addNode 2 [.withUpsert])).1 := by
    refine .step _ _ (Reach.weaken noReplace_disciplined (ptr_reach false)) ?_ ?_
    · show (2 : Nat) < _; decide
    · exact ptr_fits_of (by decide)
  cases hx : subGraph ptrOra (step (run (ptrInit false) ptrOps) (.addNode 2 [.withUpsert])).1.mem
      (step (run (ptrInit false) ptrOps) (.addNode 2 [.withUpsert])).1.g ⟨2, "b"⟩ 1 [] with
  | mk r m' =>
    have h1 : (match (subGraph ptrOra (step (run (ptrInit false) ptrOps) (.addNode 2 [.withUpsert])).1.mem
        (step (run (ptrInit false) ptrOps) (.addNode 2 [.withUpsert])).1.g ⟨2, "b"⟩ 1 []).1 with
      | .ok sg => node sg ⟨1, "a"⟩
      | _ => .panic) = .ok 0 := by decide +kernel
    rw [hx] at h1
    cases r with
    | err _ => cases h1
    | panic => cases h1
    | ok sg =>
      have := h false _ hr ptrOra ⟨2, "b"⟩ 1 [] sg m' hx ⟨1, "a"⟩ 0 h1
      revert this
      decide

/-- **C86, what holds**: unless a node is replaced, the nodes of a sub graph, and the ends of its edges,
are the very objects the source hands out, so a DOTID set through either graph is seen through both. -/
theorem c86_nodes_partial {d : Bool} {s : St} (hr : Reach NoReplace d s) {ora : GraphPtr.SubOracle} {u : Uid}
    {depth : Int} {opts : List Opt} {sg : WG} {m' : Mem}
    (h : subGraph ora s.mem s.g u depth opts = (.ok sg, m')) :
    (∀ v p, node sg v = .ok p → node s.g v = .ok p) ∧
    (∀ o p, p ∈ nodesList sg o → node s.g (s.mem.node p).uid = .ok p) ∧
    (∀ o e, e ∈ edgesList m' sg o →
      node s.g (s.mem.node (m'.edge e).src).uid = .ok (m'.edge e).src ∧
      node s.g (s.mem.node (m'.edge e).dst).uid = .ok (m'.edge e).dst) := by
  have hp := subGraph_part h
  have hS : ∀ p, (node s.g u = .ok p ∨ ∃ i, s.g.b.nodes.get? i = some p) →
      node s.g (s.mem.node p).uid = .ok p := by
    rintro p (hp | ⟨i, hi⟩)
    · have hv := Graph.wgInv_reach (ptr_reach_disciplined (Reach.weaken noReplace_disciplined hr))
      have h1 := (hv.node_eq _ _).mp (ptr_node'.mpr hp)
      have h2 : (absN s.mem p).key = u.str := hv.keyOf _ _ h1
      unfold node at hp ⊢
      rw [show (s.mem.node p).uid.str = u.str from h2]
      exact hp
    · refine ((c83_nodes_partial hr).1 Order.id p).mp ?_
      exact List.mem_map.mpr ⟨(i, p), (GoMap.get?_eq_some _ _ _).mp hi, rfl⟩
  refine ⟨fun v p hv => ?_, fun o p hn => ?_, fun o e he => ?_⟩
  · unfold node at hv
    cases hg : sg.nodes.get? v.str with
    | none => rw [hg] at hv; cases hv
    | some q =>
      rw [hg] at hv
      cases hv
      obtain ⟨h1, h2⟩ := hp.nodes _ _ hg
      have := hS p h1
      unfold node at this ⊢
      rw [show (s.mem.node p).uid.str = v.str from h2] at this
      exact this
  · obtain ⟨⟨i, q⟩, hi, rfl⟩ := List.mem_map.mp hn
    exact hS _ (hp.bnodes i q ((GoMap.get?_eq_some _ _ _).mpr ((o.perm _).mem_iff.mp hi)))
  · obtain ⟨-, -, h1, h2⟩ := hp.mem_edges o he
    exact ⟨hS _ h1, hS _ h2⟩

/-- **C86** for edges and everything else, in every state: the edges of a sub graph are new objects, no
node object is made, and no existing object changes. -/
theorem c86_edges {m : Mem} {g : WG} {ora : GraphPtr.SubOracle} {u : Uid} {depth : Int} {opts : List Opt}
    {sg : WG} {m' : Mem} (h : subGraph ora m g u depth opts = (.ok sg, m')) :
    (∀ x y e, (edge m' sg x y).1 = .ok e → (edge m' sg x y).2 = m' ∧ ¬ m.EdgeOk e) ∧
    (∀ o e, e ∈ edgesList m' sg o → ¬ m.EdgeOk e) ∧
    m'.nodes = m.nodes ∧ ∀ e, m.EdgeOk e → m'.edge e = m.edge e := by
  have hp := subGraph_part h
  obtain ⟨fr, to, hd, hE⟩ := hp.edges
  refine ⟨fun x y e he => ?_, fun o e he => (hp.mem_edges o he).1, hp.more.nodes,
    fun e he => (hp.more.grows.edge he).2⟩
  obtain ⟨h1, h2⟩ := edge_directed m' sg hd x y
  obtain ⟨i, j, hij⟩ := h2 e he
  exact ⟨h1, (hE i j e (.inl hij)).1⟩

theorem ptr_edge_ok (m : Mem) (g : WG) (u v : Uid) :
    (∃ x, Graph.edge (absG m g) u v = .ok x) ↔ ∃ e, (edge m g u v).1 = .ok e := by
  have h := edge_abs m g u v
  split at h
  · rename_i x hx
    obtain ⟨_, _, -, -, -, h | h⟩ := h
    · exact ⟨fun _ => ⟨_, by rw [h.1]⟩, fun _ => ⟨x, hx⟩⟩
    · exact ⟨fun _ => ⟨_, by rw [h.1]⟩, fun _ => ⟨x, hx⟩⟩
  · rename_i e he
    constructor
    · rintro ⟨x, hx⟩; rw [he] at hx; cases hx
    · rintro ⟨x, hx⟩; rw [h] at hx; cases hx
  · exact h.elim

theorem ptr_path (m : Mem) (g : WG) (u : Uid) (k : Nat) (v : Uid) :
    Spec.Graph.Path (absG m g) u k v ↔ Spec.GraphPtr.Path m g u k v := by
  constructor
  · intro h
    induction h with
    | here v hv => exact .here v hv
    | hop n v w e _ he ih =>
      obtain ⟨e', he'⟩ := (ptr_edge_ok m g v w).mp ⟨e, he⟩
      exact .hop n v w e' ih he'
  · intro h
    induction h with
    | here v hv => exact .here v hv
    | hop n v w e _ he ih =>
      obtain ⟨e', he'⟩ := (ptr_edge_ok m g v w).mpr ⟨e, he⟩
      exact .hop n v w e' ih he'

/-- **C86**, which nodes: also over objects, and also after upserts, a sub graph has the nodes that can be
reached in at most `depth` edges, and no others; a negative depth does not bound it. -/
theorem c86_within {d : Bool} {s : St} (hr : Reach Disciplined d s) {ora : GraphPtr.SubOracle} {u : Uid}
    {depth : Int} {opts : List Opt} {sg : WG} {m' : Mem}
    (h : subGraph ora s.mem s.g u depth opts = (.ok sg, m')) (v : Uid) :
    (∃ p, node sg v = .ok p) ↔
      ∃ k : Nat, (depth < 0 ∨ (k : Int) ≤ depth) ∧ Spec.GraphPtr.Path s.mem s.g u k v := by
  obtain ⟨ora', hn⟩ := subGraph_named h
  have hu : ∃ n, Graph.node (absG s.mem s.g) u = .ok n := by
    unfold subGraph at h
    cases hg : s.g.nodes.get? u.str with
    | none => rw [hg] at h; cases h
    | some p => exact ⟨_, ptr_node'.mpr (show node s.g u = .ok p by unfold node; rw [hg])⟩
  obtain ⟨sg', h', he, hk, -⟩ := (c27_nodes (ptr_reach_disciplined hr) ora' u depth opts).2 hu
  have hs := hn sg' h' he
  have h1 : (∃ p, node sg v = .ok p) ↔ ∃ n, Graph.node sg' v = .ok n := by
    unfold node Graph.node
    rw [hs, GoMap.get?_mapVals]
    cases sg.nodes.get? v.str <;> simp
  rw [h1, hk v]
  exact exists_congr fun k => and_congr_right fun _ => ptr_path s.mem s.g u k v

/-- **C86**: over objects, too, a sub graph is made from every node of the graph, and from nothing else. -/
theorem c86_made {d : Bool} {s : St} (hr : Reach Disciplined d s) (ora : GraphPtr.SubOracle) (u : Uid)
    (depth : Int) (opts : List Opt) :
    ((∃ p, node s.g u = .ok p) → ∃ sg m', subGraph ora s.mem s.g u depth opts = (.ok sg, m')) ∧
    (node s.g u = .err .nodeNotFound → subGraph ora s.mem s.g u depth opts = (.err .nodeNotFound, s.mem)) := by
  constructor
  · rintro ⟨p, hp⟩
    have hr' := ptr_reach_disciplined hr
    refine subGraph_ok ora (Graph.wgInv_reach hr') u depth opts fun ora' => ?_
    obtain ⟨sg', h', he, -⟩ := (c27_nodes hr' ora' u depth opts).2 ⟨_, ptr_node'.mpr hp⟩
    exact ⟨sg', h', he⟩
  · intro hu
    unfold node at hu
    unfold subGraph
    cases hg : s.g.nodes.get? u.str with
    | none => rfl
    | some p => rw [hg] at hu; cases hu

/-- Non-vacuity of C86: b is a node, c is not. -/
example : Reach Disciplined false (run (ptrInit false) ptrOps) ∧
    node (run (ptrInit false) ptrOps).g ⟨2, "b"⟩ = .ok 1 ∧
    node (run (ptrInit false) ptrOps).g ⟨3, "c"⟩ = .err .nodeNotFound :=
  ⟨Reach.weaken noReplace_disciplined (ptr_reach false), by decide +kernel, by decide +kernel⟩

/-- **C86**, which objects, also after upserts: the root of a sub graph is the object the source returns for
it; every other node is an object that `Nodes` of the source lists. -/
theorem c86_objects {d : Bool} {s : St} (hr : Reach Disciplined d s) {ora : GraphPtr.SubOracle} {u : Uid}
    {depth : Int} {opts : List Opt} {sg : WG} {m' : Mem}
    (h : subGraph ora s.mem s.g u depth opts = (.ok sg, m')) {v : Uid} {p : NPtr} (hn : node sg v = .ok p) :
    (v.str = u.str → node s.g u = .ok p) ∧ (v.str ≠ u.str → ∀ o, p ∈ nodesList s.g o) := by
  have hr' := ptr_reach_disciplined hr
  have hv := Graph.wgInv_reach hr'
  have hp := subGraph_part h
  have hnp : sg.nodes.get? v.str = some p := by
    unfold node at hn
    cases hg : sg.nodes.get? v.str with
    | none => rw [hg] at hn; cases hn
    | some q => rw [hg] at hn; cases hn; rfl
  constructor
  · intro he
    obtain ⟨ora', hs⟩ := subGraph_named h
    have hu : ∃ q, node s.g u = .ok q := by
      unfold subGraph at h
      unfold node
      cases hg : s.g.nodes.get? u.str with
      | none => rw [hg] at h; cases h
      | some q => exact ⟨q, rfl⟩
    obtain ⟨q, hq⟩ := hu
    obtain ⟨sg', h', vs, h1, -, -, -, -, -, h7, -, -, -, -, hroot⟩ :=
      Graph.subGraph_spec_root hr' ora' u depth opts (absN s.mem q) (ptr_node'.mpr hq)
    have hk : (absN s.mem q).uid.str = u.str := hv.keyOf _ _ ((hv.node_eq _ _).mp (ptr_node'.mpr hq))
    have h2 := (h7 u _).mpr ⟨hroot, hk⟩
    unfold Graph.node at h2
    rw [hs sg' h' h1, GoMap.get?_mapVals, ← he, hnp] at h2
    rw [hq, absN_inj (Res.ok.inj h2)]
  · intro hne o
    obtain ⟨h1, h2⟩ := hp.nodes _ _ hnp
    rcases h1 with h1 | ⟨i, hi⟩
    · have hk : s.mem.key p = u.str := hv.keyOf u.str (absN s.mem p) ((hv.node_eq _ _).mp (ptr_node'.mpr h1))
      exact absurd (h2.symm.trans hk) hne
    · exact List.mem_map.mpr ⟨(i, p), (o.perm _).mem_iff.mpr ((GoMap.get?_eq_some _ _ _).mp hi), rfl⟩

/-- Non-vacuity of the objects of C86: after an upsert of a, the sub graph of b has the old object for a, which
`Nodes` lists, and the sub graph of a has the new one. -/
example :
    let s := (step (run (ptrInit false) ptrOps) (.addNode 2 [.withUpsert])).1
    Reach Disciplined false s ∧ node s.g ⟨1, "a"⟩ = .ok 2 ∧
    ([⟨2, "b"⟩, ⟨1, "a"⟩].map fun u => match subGraph ptrOra s.mem s.g u 1 [] with
      | (.ok sg, _) => some (node sg ⟨1, "a"⟩, nodesList s.g Order.id)
      | _ => none) = [some (.ok 0, [1, 0]), some (.ok 2, [1, 0])] := by
  refine ⟨.step _ _ (Reach.weaken noReplace_disciplined (ptr_reach false)) ?_ ?_, by decide +kernel, by decide +kernel⟩
  · show (2 : Nat) < _; decide
  · exact ptr_fits_of (by decide)

/-- **C86**, which edges: also over objects, and also after upserts, a sub graph has an edge from `x` to
`y` exactly when both are in it and the source has one. -/
theorem c86_links {d : Bool} {s : St} (hr : Reach Disciplined d s) {ora : GraphPtr.SubOracle} {u : Uid}
    {depth : Int} {opts : List Opt} {sg : WG} {m' : Mem}
    (h : subGraph ora s.mem s.g u depth opts = (.ok sg, m')) (x y : Uid) :
    (∃ e, (edge m' sg x y).1 = .ok e) ↔
      (∃ p, node sg x = .ok p) ∧ (∃ p, node sg y = .ok p) ∧ ∃ e, (edge s.mem s.g x y).1 = .ok e :=
  subGraph_links (Graph.wgInv_reach (ptr_reach_disciplined hr)) h x y

/-- Non-vacuity of the edges of C86: the undirected source has the edge both ways, and so has the sub graph
of depth 1; the one of depth 0 has none. -/
example : Reach Disciplined false (run (ptrInit false) ptrOps) ∧
    (edge (run (ptrInit false) ptrOps).mem (run (ptrInit false) ptrOps).g ⟨1, "a"⟩ ⟨2, "b"⟩).1 = .ok 0 ∧
    ([0, 1].map fun depth => match subGraph ptrOra (run (ptrInit false) ptrOps).mem (run (ptrInit false) ptrOps).g
        ⟨2, "b"⟩ depth [] with
      | (.ok sg, m') => some (edge m' sg ⟨1, "a"⟩ ⟨2, "b"⟩).1
      | _ => none) = [some (.err .nodeNotFound), some (.ok 1)] :=
  ⟨Reach.weaken noReplace_disciplined (ptr_reach false), by decide +kernel, by decide +kernel⟩

/-- Non-vacuity of the nodes of C86: from b the sub graph of depth 0 has b alone, the one of depth 1 has a
too. -/
example : Reach Disciplined false (run (ptrInit false) ptrOps) ∧
    ([0, 1].map fun depth => match subGraph ptrOra (run (ptrInit false) ptrOps).mem (run (ptrInit false) ptrOps).g
        ⟨2, "b"⟩ depth [] with
      | (.ok sg, _) => some (node sg ⟨1, "a"⟩, node sg ⟨2, "b"⟩)
      | _ => none) = [some (.err .nodeNotFound, .ok 1), some (.ok 0, .ok 1)] :=
  ⟨Reach.weaken noReplace_disciplined (ptr_reach false), by decide +kernel⟩

/-- Non-vacuity of C86: from b the sub graph of depth 1 has both nodes and an edge each way, which are
new objects. -/
example : (match subGraph ptrOra (run (ptrInit false) ptrOps).mem (run (ptrInit false) ptrOps).g ⟨2, "b"⟩ 1 []
    with
    | (.ok sg, m') => some (nodesList sg Order.id, (edge m' sg ⟨1, "a"⟩ ⟨2, "b"⟩).1,
        (edge m' sg ⟨2, "b"⟩ ⟨1, "a"⟩).1)
    | _ => none) = some ([0, 1], .ok 1, .ok 2) ∧
    ¬ (run (ptrInit false) ptrOps).mem.EdgeOk 1 := by
  constructor
  · decide +kernel
  · decide

end Netscrape.Props
