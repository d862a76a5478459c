import Verif.Lemmas.SubGraph

/-!
# C27–C30: SubGraph
-/

namespace Netscrape.Props
open Netscrape Netscrape.Graph Netscrape.Spec.Graph
open Netscrape.Gonum (EdgeOrder Within)

private theorem path_within {g : WG} {u : Uid} {root : Node}
    (hroot : g.nodes.get? u.str = some root) {k : Nat} {v : Uid} (hp : Path g u k v) :
    ∃ m, g.nodes.get? v.str = some m ∧ Within g.b root.id k m.id := by
  induction hp with
  | here v hv => exact ⟨root, hv ▸ hroot, rfl⟩
  | hop n v w e _ he ih =>
    obtain ⟨m, hm, hw⟩ := ih
    obtain ⟨f, t, hf, ht, hwe⟩ := edge_ok.mp he
    rw [hm] at hf
    cases hf
    exact ⟨t, ht, Or.inr ⟨m.id, hw, by rw [hwe]; rfl⟩⟩

private theorem within_path {g : WG} (hinv : WGInv g) {u : Uid} {root : Node}
    (hroot : g.nodes.get? u.str = some root) (k : Nat) : ∀ (v : Uid) (m : Node),
    g.nodes.get? v.str = some m → Within g.b root.id k m.id → ∃ j, j ≤ k ∧ Path g u j v := by
  induction k with
  | zero =>
    intro v m hm hw
    exact ⟨0, Nat.le_refl _, Path.here v ((hinv.id_inj hroot hm).mp (Eq.symm hw))⟩
  | succ k ih =>
    intro v m hm hw
    rcases hw with hw | ⟨i, hi, he⟩
    · obtain ⟨j, hj, hp⟩ := ih v m hm hw
      exact ⟨j, Nat.le_succ_of_le hj, hp⟩
    · obtain ⟨e, he⟩ := Option.isSome_iff_exists.mp he
      obtain ⟨n, hn⟩ := (Gonum.weightedEdge_ends hinv.gonum he).2.2.left
      obtain ⟨x, hx, hxi⟩ := hinv.ofID i n.key (by simp [keyAt, hn])
      have hxk : x.uid.str = n.key := hinv.keyOf _ _ hx
      obtain ⟨j, hj, hp⟩ := ih x.uid x (by rw [hxk]; exact hx) (by rw [hxi]; exact hi)
      refine ⟨j + 1, Nat.succ_le_succ hj, Path.hop j x.uid v e hp ?_⟩
      exact edge_ok.mpr ⟨x, m, by rw [hxk]; exact hx, hm, by rw [hxi]; exact he⟩

/-- **C27.** `SubGraph u depth` of a disciplined graph reports an unknown `u`; for a known one it
succeeds, and the result has exactly the UIDs at the end of a path of at most `depth` edges from `u`
(of any length for a negative depth), under their IDs; without upsert the nodes are the very nodes of
the source. `Nodes` of the result lists exactly what `Node` of the result finds, each once. -/
theorem c27_nodes {d : Bool} {s : St} (hr : Reach Disciplined d s) (ora : SubOracle) (u : Uid)
    (depth : Int) (opts : List Opt) :
    (node s.g u = .err .nodeNotFound →
      subGraph ora s.heap s.g u depth opts = (.err .nodeNotFound, s.heap)) ∧
    ((∃ n, node s.g u = .ok n) → ∃ sg h', subGraph ora s.heap s.g u depth opts = (.ok sg, h') ∧
      (∀ v, (∃ m, node sg v = .ok m) ↔
        ∃ k : Nat, (depth < 0 ∨ (k : Int) ≤ depth) ∧ Path s.g u k v) ∧
      (∀ v m, node sg v = .ok m → ∃ m', node s.g v = .ok m' ∧ m.id = m'.id) ∧
      (Reach NoReplace d s → ∀ v m, node sg v = .ok m → node s.g v = .ok m) ∧
      (∀ o, (∀ n, n ∈ nodesList sg o ↔ node sg n.uid = .ok n) ∧ (nodesList sg o).Nodup)) := by
  have hinv := wgInv_reach hr
  constructor
  · intro hu
    have : s.g.nodes.get? u.str = none := by
      unfold node at hu
      split at hu
      · cases hu
      · assumption
    unfold subGraph
    rw [this]
  · rintro ⟨root, hroot⟩
    have hroot' := (hinv.node_eq _ _).mp hroot
    obtain ⟨sg, h', vs, h1, h2, h3, h4, h5, h6, h7, h8, -⟩ :=
      subGraph_spec hr ora u depth opts root hroot
    have hid : ∀ v m, node sg v = .ok m → ∃ m', node s.g v = .ok m' ∧ m.id = m'.id := by
      intro v m hm
      obtain ⟨hm1, hm2⟩ := (h7 v m).mp hm
      obtain ⟨m', hm', hid⟩ := hinv.ofID _ _ (h5 m hm1)
      have hk : m.key = v.str := hm2
      rw [hk] at hm'
      exact ⟨m', (hinv.node_eq _ _).mpr hm', hid.symm⟩
    refine ⟨sg, h', h1, ?_, hid, ?_, ?_⟩
    · intro v
      constructor
      · rintro ⟨m, hm⟩
        obtain ⟨m', hm', hid'⟩ := hid v m hm
        obtain ⟨k, hk, hw⟩ := (h6 m.id).mp (List.mem_map.mpr ⟨m, ((h7 v m).mp hm).1, rfl⟩)
        rw [hid'] at hw
        obtain ⟨j, hj, hp⟩ := within_path hinv hroot' k v m' ((hinv.node_eq _ _).mp hm') hw
        refine ⟨j, ?_, hp⟩
        rcases hk with hk | hk
        · exact Or.inl hk
        · exact Or.inr (Int.le_trans (Int.ofNat_le.mpr hj) hk)
      · rintro ⟨k, hk, hp⟩
        obtain ⟨m, hm, hw⟩ := path_within hroot' hp
        obtain ⟨x, hx, hxi⟩ := List.mem_map.mp ((h6 m.id).mpr ⟨k, hk, hw⟩)
        refine ⟨x, (h7 v x).mpr ⟨hx, ?_⟩⟩
        have h8 := h5 x hx
        have h9 := hinv.toID _ _ hm
        rw [hxi, h9] at h8
        exact (Option.some.inj h8).symm
    · intro hnu v m hm
      have hx := wgExact_reach hnu
      obtain ⟨hm1, hm2⟩ := (h7 v m).mp hm
      have hk : m.key = v.str := hm2
      rw [hinv.node_eq, ← hk]
      rcases h4 m hm1 with rfl | hm'
      · rw [hinv.keyOf _ _ hroot']; exact hroot'
      · exact (hx.same m).mpr hm'
    · intro o
      have := c17_agree_partial h8 o
      exact ⟨this.1, this.2.1⟩

/-- **C28.** The subgraph of a disciplined graph has an edge from `x` to `y` exactly when both are in
it and the source has one. -/
theorem c28_edges {d : Bool} {s : St} (hr : Reach Disciplined d s) (ora : SubOracle) (u : Uid)
    (depth : Int) (opts : List Opt) (sg : WG) (h' : Heap)
    (hsg : subGraph ora s.heap s.g u depth opts = (.ok sg, h')) (x y : Uid) :
    (∃ e, edge sg x y = .ok e) ↔
      (∃ m, node sg x = .ok m) ∧ (∃ m, node sg y = .ok m) ∧ ∃ e, edge s.g x y = .ok e := by
  have hinv := wgInv_reach hr
  cases hroot : s.g.nodes.get? u.str with
  | none => unfold subGraph at hsg; rw [hroot] at hsg; cases hsg
  | some root =>
    obtain ⟨sg2, h2, vs, h1, -, -, -, h5, -, h7, -, -, h10, h11⟩ :=
      subGraph_spec hr ora u depth opts root ((hinv.node_eq _ _).mpr hroot)
    rw [hsg] at h1
    cases h1
    have hfind : ∀ m ∈ vs, ∃ m', s.g.nodes.get? m.key = some m' ∧ m'.id = m.id := by
      intro m hm
      exact hinv.ofID _ _ (h5 m hm)
    constructor
    · rintro ⟨e, he⟩
      obtain ⟨⟨a, ha, b, hb, hak, hbk, hS⟩, -⟩ := h11 x y e he
      obtain ⟨e', he'⟩ := Option.isSome_iff_exists.mp hS
      obtain ⟨a', ha', hai⟩ := hfind a ha
      obtain ⟨b', hb', hbi⟩ := hfind b hb
      refine ⟨⟨a, (h7 x a).mpr ⟨ha, hak⟩⟩, ⟨b, (h7 y b).mpr ⟨hb, hbk⟩⟩, e', ?_⟩
      exact edge_ok.mpr ⟨a', b', hak ▸ ha', hbk ▸ hb', by rw [hai, hbi]; exact he'⟩
    · rintro ⟨⟨a, ha⟩, ⟨b, hb⟩, e, he⟩
      obtain ⟨ha1, ha2⟩ := (h7 x a).mp ha
      obtain ⟨hb1, hb2⟩ := (h7 y b).mp hb
      obtain ⟨f, t, hf, ht, hw⟩ := edge_ok.mp he
      obtain ⟨a', ha', hai⟩ := hfind a ha1
      obtain ⟨b', hb', hbi⟩ := hfind b hb1
      have hak : a.key = x.str := ha2
      have hbk : b.key = y.str := hb2
      rw [hak, hf] at ha'
      rw [hbk, ht] at hb'
      cases ha'
      cases hb'
      obtain ⟨e', he'⟩ := h10 a ha1 b hb1 (by rw [← hai, ← hbi, hw]; rfl)
      exact ⟨e', by rw [← edge_str ha2 hb2]; exact he'⟩

/-! ## C29 -/

/-- C29 as stated. -/
def SubGraphKeepsWeights : Prop :=
  ∀ (d : Bool) (s : St), Reach Disciplined d s → ∀ ora u depth opts sg h',
    subGraph ora s.heap s.g u depth opts = (.ok sg, h') →
    ∀ x y e e', edge sg x y = .ok e → edge s.g x y = .ok e' →
      e.weight = e'.weight ∧ ∀ k, (h'.read e.attrs).get? k = (s.heap.read e'.attrs).get? k

/-- Choices for the examples: stored orders, edge UIDs numbered. -/
def exOra : SubOracle :=
  { graphUid := ⟨50, "sub"⟩, bfs := fun _ => Order.id, nodes := Order.id, peers := fun _ => Order.id,
    edges := fun _ _ => EdgeOrder.id, copy := fun _ => Order.id,
    edgeUid := fun i => ⟨1000 + i, "edge"⟩ }

/-- The subgraph of the example graph rooted in `a`, without bound. -/
def exSub : Res Err WG × Heap := subGraph exOra (exSt true).heap (exSt true).g uA (-1) []

/-- The weight of an edge, for the examples. -/
def weightOf (g : WG) (x y : Uid) : Option Int := (edge g x y).toOption.map Edge.weight

/-- **C29 fails**: every edge of the subgraph gets the attributes and weight of the first edge of the
source's edge enumeration. Here a–b weighs 7 in the source and 9, the weight of b–c, in the
subgraph. -/
theorem c29_violated : ¬ SubGraphKeepsWeights := by
  intro h
  have hsub : exSub.1.toOption.bind (fun sg => weightOf sg uA uB) = some 9 := by decide
  have hsrc : weightOf (exSt true).g uA uB = some 7 := by decide
  cases hx : exSub with
  | mk r h' =>
    rw [hx] at hsub
    cases r with
    | err e => cases hsub
    | panic => cases hsub
    | ok sg =>
      have hsub' : weightOf sg uA uB = some 9 := hsub
      unfold weightOf at hsub' hsrc
      cases he : edge sg uA uB with
      | err e => rw [he] at hsub'; cases hsub'
      | panic => rw [he] at hsub'; cases hsub'
      | ok e =>
        cases he' : edge (exSt true).g uA uB with
        | err e => rw [he'] at hsrc; cases hsrc
        | panic => rw [he'] at hsrc; cases hsrc
        | ok e' =>
          have := (h true (exSt true) (reach_exSt' true) exOra uA (-1) [] sg h' hx uA uB e e' he
            he').1
          rw [he] at hsub'
          rw [he'] at hsrc
          simp only [Res.toOption, Option.map_some, Option.some.injEq] at hsub' hsrc
          rw [hsub', hsrc] at this
          exact absurd this (by decide)

/-- **C29, what holds**: each subgraph edge has the weight, and a copy of the attributes, of some edge
of the source. In particular if all edges of the source agree on both, they are kept. -/
theorem c29_some_edge_partial {d : Bool} {s : St} (hr : Reach Disciplined d s) (ora : SubOracle)
    (u : Uid) (depth : Int) (opts : List Opt) (sg : WG) (h' : Heap)
    (hsg : subGraph ora s.heap s.g u depth opts = (.ok sg, h')) (x y : Uid) (e : Edge)
    (he : edge sg x y = .ok e) :
    ∃ o, ∃ e₀ ∈ edgesList s.g o, e.weight = e₀.weight ∧
      (s.heap.Valid e₀.attrs → ∀ k, (h'.read e.attrs).get? k = (s.heap.read e₀.attrs).get? k) := by
  have hinv := wgInv_reach hr
  cases hroot : s.g.nodes.get? u.str with
  | none => unfold subGraph at hsg; rw [hroot] at hsg; cases hsg
  | some root =>
    obtain ⟨sg2, h2, vs, h1, -, -, -, -, -, -, -, -, -, h11⟩ :=
      subGraph_spec hr ora u depth opts root ((hinv.node_eq _ _).mpr hroot)
    rw [hsg] at h1
    cases h1
    exact (h11 x y e he).2.2.2

/-- **C30.** `SubGraph` only adds attribute sets: every attribute set that existed keeps its contents.
The attribute sets of the subgraph's edges did not exist before, so no later writes to them change
one that did (in particular those of the source's edges), nor the reverse. (The call has no way to
change the nodes or edges of the source: the model's `subGraph`, like the code, only reads `g`.) -/
theorem c30_source_untouched {d : Bool} {s : St} (hr : Reach Disciplined d s) (ora : SubOracle)
    (u : Uid) (depth : Int) (opts : List Opt) (sg : WG) (h' : Heap)
    (hsg : subGraph ora s.heap s.g u depth opts = (.ok sg, h')) :
    (∀ r, s.heap.Valid r → h'.Valid r ∧ h'.read r = s.heap.read r) ∧
    (∀ o, ∀ e ∈ edgesList sg o, ¬ s.heap.Valid e.attrs ∧ h'.Valid e.attrs) ∧
    (∀ (o : EdgeOrder) (ws : List Attrs.Write),
      (∀ w ∈ ws, ∃ e ∈ edgesList sg o, w.ref = e.attrs) →
      ∀ r, s.heap.Valid r → (Attrs.run h' ws).read r = s.heap.read r) ∧
    (∀ (o : EdgeOrder) (ws : List Attrs.Write), (∀ w ∈ ws, s.heap.Valid w.ref) →
      ∀ e ∈ edgesList sg o, (Attrs.run h' ws).read e.attrs = h'.read e.attrs) := by
  have hinv := wgInv_reach hr
  cases hroot : s.g.nodes.get? u.str with
  | none => unfold subGraph at hsg; rw [hroot] at hsg; cases hsg
  | some root =>
    obtain ⟨sg2, h2, vs, h1, -, -, -, -, -, -, h8, h9, -, h11⟩ :=
      subGraph_spec hr ora u depth opts root ((hinv.node_eq _ _).mpr hroot)
    rw [hsg] at h1
    cases h1
    have hfresh : ∀ o, ∀ e ∈ edgesList sg o, ¬ s.heap.Valid e.attrs ∧ h'.Valid e.attrs := by
      intro o e he
      have := (c25_edges (h8.mono NoReplace.disciplined) o).1 e he
      have := (h11 _ _ e this).2
      exact ⟨this.1, this.2.1⟩
    refine ⟨fun r hr => ⟨h9.valid hr, h9.read hr⟩, hfresh, ?_, ?_⟩
    · intro o ws hws r hv
      rw [Attrs.read_run_ne, h9.read hv]
      intro w hw hwr
      obtain ⟨e, he, hwe⟩ := hws w hw
      exact (hfresh o e he).1 (by rw [← hwe, hwr]; exact hv)
    · intro o ws hws e he
      refine Attrs.read_run_ne _ _ _ ?_
      intro w hw hwr
      exact (hfresh o e he).1 (by rw [← hwr]; exact hws w hw)

/-- Non-vacuity of C27–C30: depth 1 from `a` reaches `b` but not `c`, and keeps the edge a–b; a
negative depth reaches all. -/
example :
    let r := subGraph exOra (exSt true).heap (exSt true).g uA 1 []
    r.1.toOption.map (fun sg => (nodesList sg Order.id).map Node.id) = some [1, 0] ∧
    r.1.toOption.map (fun sg => (edgesList sg EdgeOrder.id).map (fun e => (e.src.id, e.dst.id))) =
      some [(0, 1)] ∧
    exSub.1.toOption.map (fun sg => (nodesList sg Order.id).map Node.id) = some [1, 0, 2] ∧
    exSub.1.toOption.map (fun sg => (edgesList sg EdgeOrder.id).map
      (fun e => (e.src.id, e.dst.id, e.attrs))) = some [(1, 2, 2), (0, 1, 4)] ∧
    (exSt true).heap.cells.length = 2 := by decide

/-- Non-vacuity of C27: paths in the example graph. -/
example : Path (exSt true).g uA 2 uC :=
  .hop 1 uB uC ⟨⟨101, "e2"⟩, 1, exNode 1 "b", exNode 2 "c", "e2", 9⟩
    (.hop 0 uA uB ⟨⟨100, "e1"⟩, 0, exNode 0 "a", exNode 1 "b", "e1", 7⟩ (.here uA rfl) (by decide))
    (by decide)

end Netscrape.Props
