import Verif.Props.Graph

/-!
# C19–C26, C31: edges of the in-memory graph
-/

namespace Netscrape.Props
open Netscrape Netscrape.Graph Netscrape.Spec.Graph
open Netscrape.Gonum (EdgeOrder)

/-! ## C19, C20 -/

theorem link_missing {h : Heap} {g : WG} {f t : Uid} (fresh : Uid) (a : Nat)
    (opts : List Opt)
    (hm : node g f = .err .nodeNotFound ∨ node g t = .err .nodeNotFound) :
    link h g fresh a f t opts = (.err .nodeNotFound, g, h) := by
  have hn : ∀ u : Uid, node g u = .err .nodeNotFound → g.nodes.get? u.str = none := by
    intro u hu
    unfold node at hu
    split at hu
    · cases hu
    · assumption
  unfold link linkLookup edge
  rcases hm with hm | hm
  · rw [hn _ hm]
  · rw [hn _ hm]
    cases g.nodes.get? f.str <;> rfl

private theorem link_exists {h : Heap} {g : WG} {f t : Uid} {e : Edge} (fresh : Uid) (a : Nat)
    (opts : List Opt) (he : edge g f t = .ok e) :
    link h g fresh a f t opts = (.ok e, g, h) := by
  unfold link linkLookup
  rw [he]

private theorem link_new {h : Heap} {g : WG} {f t : Uid} (fresh : Uid) (a : Nat)
    (opts : List Opt) {x y : Node} (hx : g.nodes.get? f.str = some x)
    (hy : g.nodes.get? t.str = some y) (he : edge g f t = .err .edgeNotExist) :
    link h g fresh a f t opts = linkApply h g fresh a x y opts := by
  unfold link linkLookup
  rw [he, hx, hy]

/-- **C19.** `Link` with distinct UIDs: if an end is missing it reports that and changes nothing; an
existing edge is returned and nothing changes; otherwise it returns a new edge between the two nodes
with the option's weight and attribute set (a new empty one if none is given), which `Edge` returns
from then on (swapped from the other side of an undirected graph), while all lookups and all other
pairs stay as they were. -/
theorem c19_link {d : Bool} {s : St} (hr : Reach Disciplined d s) (fresh : Uid) (a : Nat)
    (f t : Uid) (hft : f.str ≠ t.str) (opts : List Opt) :
    ((node s.g f = .err .nodeNotFound ∨ node s.g t = .err .nodeNotFound) →
      link s.heap s.g fresh a f t opts = (.err .nodeNotFound, s.g, s.heap)) ∧
    (∀ e, edge s.g f t = .ok e → link s.heap s.g fresh a f t opts = (.ok e, s.g, s.heap)) ∧
    (∀ x y, node s.g f = .ok x → node s.g t = .ok y → (∀ e, edge s.g f t ≠ .ok e) →
      ∃ e g' h', link s.heap s.g fresh a f t opts = (.ok e, g', h') ∧
        e.src = x ∧ e.dst = y ∧ e.weight = weightOption opts ∧
        (match attrsOption opts with
          | some r => e.attrs = r ∧ h' = s.heap
          | none => (e.attrs, h') = s.heap.alloc GoMap.empty) ∧
        edge g' f t = .ok e ∧
        (d = false → edge g' t f = .ok e.rev) ∧
        (∀ u, node g' u = node s.g u) ∧
        (∀ p q : Uid, ¬ (p.str = f.str ∧ q.str = t.str) →
          ¬ (d = false ∧ p.str = t.str ∧ q.str = f.str) → edge g' p q = edge s.g p q)) := by
  have hinv := wgInv_reach hr
  obtain ⟨-, hdir⟩ := gonumInv_reach hr
  refine ⟨link_missing fresh a opts, fun e he => link_exists fresh a opts he, ?_⟩
  intro x y hx hy hno
  have hx' := (hinv.node_eq _ _).mp hx
  have hy' := (hinv.node_eq _ _).mp hy
  have hne : x.id ≠ y.id := fun h => hft ((hinv.id_inj hx' hy').mp h)
  have hw : s.g.b.weightedEdge x.id y.id = none := by
    cases hw : s.g.b.weightedEdge x.id y.id with
    | none => rfl
    | some e => exact absurd (edge_ok.mpr ⟨x, y, hx', hy', hw⟩) (hno e)
  have he : edge s.g f t = .err .edgeNotExist := by
    unfold edge; rw [hx', hy']; simp only [hw]
  rw [link_new fresh a opts hx' hy' he]
  obtain ⟨hs, hd⟩ := mkEdge_ends s.heap fresh a x y opts
  obtain ⟨b', hb'⟩ := Gonum.setWeightedEdge_some (b := s.g.b)
    (e := (mkEdge s.heap fresh a x y opts).1) (by rw [hs, hd]; exact hne)
  have hset := Gonum.weightedEdge_set hb'
  rw [hs, hd, hdir] at hset
  refine ⟨(mkEdge s.heap fresh a x y opts).1, { s.g with b := b' },
    (mkEdge s.heap fresh a x y opts).2, ?_, hs, hd, ?_, ?_, ?_, ?_, ?_, ?_⟩
  · unfold linkApply
    simp only [hb']
  · exact (applyAll_fields opts).2.2.2
  · simp only [mkEdge, attrsOrNew, (applyAll_fields opts).2.2.1]
    cases attrsOption opts <;> simp
  · exact edge_ok.mpr ⟨x, y, hx', hy', by rw [hset, if_pos ⟨rfl, rfl⟩]⟩
  · intro hdf
    refine edge_ok.mpr ⟨y, x, hy', hx', ?_⟩
    rw [hset, if_neg (fun h => hne h.2), if_pos ⟨hdf, rfl, rfl⟩]
  · intro u; rfl
  · intro p q h1 h2
    refine edge_congr rfl rfl ?_
    intro x' y' hx2 hy2
    rw [hset, if_neg, if_neg]
    · rintro ⟨hdf, h3, h4⟩
      exact h2 ⟨hdf, (hinv.id_inj hx2 hy').mp h3, (hinv.id_inj hy2 hx').mp h4⟩
    · rintro ⟨h3, h4⟩
      exact h1 ⟨(hinv.id_inj hx2 hx').mp h3, (hinv.id_inj hy2 hy').mp h4⟩

/-- Non-vacuity of C19: a missing end, an existing edge, and two unlinked nodes. -/
example (d : Bool) : Reach Disciplined d (exSt d) ∧
    node (exSt d).g ⟨9, "z"⟩ = .err .nodeNotFound ∧
    (∃ e, edge (exSt d).g uA uB = .ok e ∧ e.weight = 7) ∧
    node (exSt d).g uA = .ok (exNode 0 "a") ∧ node (exSt d).g uC = .ok (exNode 2 "c") ∧
    edge (exSt d).g uA uC = .err .edgeNotExist := by
  refine ⟨reach_exSt' d, ?_, ⟨⟨⟨100, "e1"⟩, 0, exNode 0 "a", exNode 1 "b", "e1", 7⟩, ?_, rfl⟩,
    ?_, ?_, ?_⟩ <;> cases d <;> decide

/-- **C20 fails**: linking a node of the graph to itself panics. -/
theorem c20_violated : ¬ ∀ (d : Bool) (s : St), Reach Disciplined d s → ∀ fresh a f t opts,
    (link s.heap s.g fresh a f t opts).1 ≠ .panic := by
  intro h
  exact h true (exSt true) (reach_exSt' true) ⟨100, "e"⟩ 200 uA uA [] (by decide)

/-- **C20, exactly when it holds**: `Link` panics precisely when both UIDs name one node of the
graph. -/
theorem c20_link_panic_partial {d : Bool} {s : St} (hr : Reach Disciplined d s) (fresh : Uid)
    (a : Nat) (f t : Uid) (opts : List Opt) :
    (link s.heap s.g fresh a f t opts).1 = .panic ↔ f.str = t.str ∧ ∃ n, node s.g f = .ok n := by
  constructor
  · intro hp
    by_cases hft : f.str = t.str
    · refine ⟨hft, ?_⟩
      cases hn : s.g.nodes.get? f.str with
      | some n => exact ⟨n, by unfold node; rw [hn]⟩
      | none =>
        rw [link_missing fresh a opts (Or.inl (by unfold node; rw [hn]))] at hp
        cases hp
    · exfalso
      obtain ⟨h1, h2, h3⟩ := c19_link hr fresh a f t hft opts
      cases hx : node s.g f with
      | err e =>
        have : e = .nodeNotFound := by
          unfold node at hx
          split at hx
          · cases hx
          · cases hx; rfl
        subst this
        rw [h1 (Or.inl hx)] at hp
        cases hp
      | panic => unfold node at hx; split at hx <;> cases hx
      | ok x =>
        cases hy : node s.g t with
        | err e =>
          have : e = .nodeNotFound := by
            unfold node at hy
            split at hy
            · cases hy
            · cases hy; rfl
          subst this
          rw [h1 (Or.inr hy)] at hp
          cases hp
        | panic => unfold node at hy; split at hy <;> cases hy
        | ok y =>
          by_cases hex : ∃ e, edge s.g f t = .ok e
          · obtain ⟨e, he⟩ := hex
            rw [h2 e he] at hp
            cases hp
          · obtain ⟨e, g', h', hl, -⟩ := h3 x y hx hy (fun e he => hex ⟨e, he⟩)
            rw [hl] at hp
            cases hp
  · rintro ⟨hft, n, hn⟩
    have hinv := wgInv_reach hr
    have hn' := (hinv.node_eq _ _).mp hn
    have hw : s.g.b.weightedEdge n.id n.id = none := by
      cases hw : s.g.b.weightedEdge n.id n.id with
      | none => rfl
      | some e => exact absurd rfl (Gonum.weightedEdge_ends hinv.gonum hw).2.2.ne
    have he : edge s.g f t = .err .edgeNotExist := by
      unfold edge; rw [← hft, hn']; simp only [hw]
    rw [link_new fresh a opts hn' (hft ▸ hn') he]
    obtain ⟨hs, hd⟩ := mkEdge_ends s.heap fresh a n n opts
    unfold linkApply
    have : s.g.b.setWeightedEdge (mkEdge s.heap fresh a n n opts).1 = none := by
      unfold Gonum.Builder.setWeightedEdge
      rw [if_pos (by rw [hs, hd])]
    simp only [this]

/-! ## C21 -/

/-- **C21.** `Unlink` removes the edge between the two nodes (both directions of an undirected
graph), leaves all node lookups, `Nodes` and all other pairs as they were; doing it again changes
nothing; if an end is missing nothing changes. -/
theorem c21_unlink {d : Bool} {s : St} (hr : Reach Disciplined d s) (f t : Uid) :
    (∀ e, edge (unlink s.g f t) f t ≠ .ok e) ∧
    (d = false → ∀ e, edge (unlink s.g f t) t f ≠ .ok e) ∧
    (∀ u, node (unlink s.g f t) u = node s.g u) ∧
    (∀ o, nodesList (unlink s.g f t) o = nodesList s.g o) ∧
    (∀ p q : Uid, ¬ (p.str = f.str ∧ q.str = t.str) →
      ¬ (d = false ∧ p.str = t.str ∧ q.str = f.str) →
      edge (unlink s.g f t) p q = edge s.g p q) ∧
    (∀ p q, edge (unlink (unlink s.g f t) f t) p q = edge (unlink s.g f t) p q) ∧
    ((node s.g f = .err .nodeNotFound ∨ node s.g t = .err .nodeNotFound) →
      unlink s.g f t = s.g) := by
  have hinv := wgInv_reach hr
  obtain ⟨-, hdir⟩ := gonumInv_reach hr
  have hnodes : ∀ g : WG, (unlink g f t).nodes = g.nodes := by
    intro g; unfold unlink; split <;> rfl
  have hgn : (unlink s.g f t).b.nodes = s.g.b.nodes := by
    unfold unlink; split
    · rfl
    · exact Gonum.removeEdge_nodes _ _ _
  have hunlink : ∀ (g : WG) x y, g.nodes.get? f.str = some x → g.nodes.get? t.str = some y →
      (unlink g f t).b = g.b.removeEdge x.id y.id := by
    intro g x y hx hy
    unfold unlink unlinkLookup; rw [hx, hy]; rfl
  have hnone : ∀ g : WG, g.nodes.get? f.str = none ∨ g.nodes.get? t.str = none →
      unlink g f t = g := by
    intro g hg
    unfold unlink unlinkLookup
    rcases hg with hg | hg
    · rw [hg]
    · rw [hg]; cases g.nodes.get? f.str <;> rfl
  have hun := hunlink s.g
  have hrem := fun a b => Gonum.weightedEdge_removeEdge hinv.gonum a b
  rw [hdir] at hrem
  have hother : ∀ p q : Uid, ¬ (p.str = f.str ∧ q.str = t.str) →
      ¬ (d = false ∧ p.str = t.str ∧ q.str = f.str) →
      edge (unlink s.g f t) p q = edge s.g p q := by
    intro p q h1 h2
    refine edge_congr (by rw [hnodes]) (by rw [hnodes]) ?_
    intro a b ha hb
    cases hx : s.g.nodes.get? f.str with
    | none => unfold unlink unlinkLookup; rw [hx]
    | some x =>
      cases hy : s.g.nodes.get? t.str with
      | none => unfold unlink unlinkLookup; rw [hx, hy]
      | some y =>
        rw [hun x y hx hy, hrem, if_neg]
        rintro (⟨h3, h4⟩ | ⟨hdf, h3, h4⟩)
        · exact h1 ⟨(hinv.id_inj ha hx).mp h3, (hinv.id_inj hb hy).mp h4⟩
        · exact h2 ⟨hdf, (hinv.id_inj ha hy).mp h3, (hinv.id_inj hb hx).mp h4⟩
  have hgone : ∀ e, edge (unlink s.g f t) f t ≠ .ok e := by
    intro e he
    obtain ⟨x, y, hx, hy, hw⟩ := edge_ok.mp he
    rw [hnodes] at hx hy
    rw [hun x y hx hy, hrem, if_pos (Or.inl ⟨rfl, rfl⟩)] at hw
    cases hw
  have hgone' : d = false → ∀ e, edge (unlink s.g f t) t f ≠ .ok e := by
    intro hdf e he
    obtain ⟨y, x, hy, hx, hw⟩ := edge_ok.mp he
    rw [hnodes] at hx hy
    rw [hun x y hx hy, hrem, if_pos (Or.inr ⟨hdf, rfl, rfl⟩)] at hw
    cases hw
  refine ⟨hgone, hgone', ?_, ?_, hother, ?_, ?_⟩
  · intro u; unfold node; rw [hnodes]
  · intro o
    unfold nodesList Gonum.Builder.allNodes; rw [hgn]
  · intro p q
    refine edge_congr (by rw [hnodes (unlink s.g f t)]) (by rw [hnodes (unlink s.g f t)]) ?_
    intro a b ha hb
    rw [hnodes] at ha hb
    cases hx : s.g.nodes.get? f.str with
    | none =>
      rw [hnone _ (Or.inl (by rw [hnodes, hx]))]
    | some x =>
      cases hy : s.g.nodes.get? t.str with
      | none =>
        rw [hnone _ (Or.inr (by rw [hnodes, hy]))]
      | some y =>
        have h2 := hunlink (unlink s.g f t) x y (by rw [hnodes, hx]) (by rw [hnodes, hy])
        have hi : Gonum.Inv (unlink s.g f t).b := by
          rw [hun x y hx hy]; exact Gonum.removeEdge_inv hinv.gonum _ _
        have hd2 : (unlink s.g f t).b.isDirected = d := by
          rw [hun x y hx hy, Gonum.removeEdge_isDirected, hdir]
        rw [h2, Gonum.weightedEdge_removeEdge hi, hd2]
        split
        · rename_i hc
          rw [hun x y hx hy, hrem, if_pos hc]
        · rfl
  · intro hm
    have hn : ∀ u : Uid, node s.g u = .err .nodeNotFound → s.g.nodes.get? u.str = none := by
      intro u hu
      unfold node at hu
      split at hu
      · cases hu
      · assumption
    exact hnone _ (hm.imp (hn f) (hn t))

/-- Non-vacuity of C21: unlinking a linked pair leaves the other edge. -/
example (d : Bool) : Reach Disciplined d (exSt d) ∧
    edge (unlink (exSt d).g uA uB) uA uB = .err .edgeNotExist ∧
    (∃ e, edge (exSt d).g uA uB = .ok e) ∧ (∃ e, edge (unlink (exSt d).g uA uB) uB uC = .ok e) := by
  refine ⟨reach_exSt' d, by cases d <;> decide,
    ⟨⟨⟨100, "e1"⟩, 0, exNode 0 "a", exNode 1 "b", "e1", 7⟩, by cases d <;> decide⟩,
    ⟨⟨⟨101, "e2"⟩, 1, exNode 1 "b", exNode 2 "c", "e2", 9⟩, by cases d <;> decide⟩⟩

/-! ## C22 -/

/-- **C22.** `RemoveNode u`: `u` is not found, no pair with `u` is linked and no listed edge or node
has `u`'s UID; every other lookup, listed node and pair is as before; an absent `u` changes
nothing. -/
theorem c22_removeNode {d : Bool} {s : St} (hr : Reach Disciplined d s) (u : Uid) :
    node (removeNode s.g u) u = .err .nodeNotFound ∧
    (∀ o, ∀ e ∈ edgesList (removeNode s.g u) o, e.src.uid.str ≠ u.str ∧ e.dst.uid.str ≠ u.str) ∧
    (∀ v e, edge (removeNode s.g u) u v ≠ .ok e ∧ edge (removeNode s.g u) v u ≠ .ok e) ∧
    (∀ v : Uid, v.str ≠ u.str → node (removeNode s.g u) v = node s.g v) ∧
    (∀ o n, n ∈ nodesList (removeNode s.g u) o ↔ n ∈ nodesList s.g o ∧ n.uid.str ≠ u.str) ∧
    (∀ p q : Uid, p.str ≠ u.str → q.str ≠ u.str →
      edge (removeNode s.g u) p q = edge s.g p q) ∧
    (node s.g u = .err .nodeNotFound → removeNode s.g u = s.g) := by
  have hinv := wgInv_reach hr
  have hinv' : WGInv (removeNode s.g u) := wgInv_step (op := .removeNode u) hinv trivial
  have hget : ∀ k, (removeNode s.g u).nodes.get? k =
      if k = u.str then none else s.g.nodes.get? k := by
    intro k
    unfold removeNode removeLookup
    cases hu : s.g.nodes.get? u.str with
    | none =>
      simp only
      split
      · rename_i h; rw [h, hu]
      · rfl
    | some n => simp only [removeApply, GoMap.get?_del]
  have hnode : node (removeNode s.g u) u = .err .nodeNotFound := by
    unfold node; rw [hget, if_pos rfl]
  have hlisted : ∀ o, ∀ n ∈ nodesList (removeNode s.g u) o, n.uid.str ≠ u.str := by
    intro o n hn hk
    obtain ⟨i, hi⟩ := (Gonum.mem_allNodes _ _ _).mp hn
    obtain ⟨m, hm, -⟩ := hinv'.ofID i n.key (by simp [keyAt, hi])
    have hk' : n.key = u.str := hk
    rw [hk', hget, if_pos rfl] at hm
    cases hm
  refine ⟨hnode, ?_, ?_, ?_, ?_, ?_, ?_⟩
  · intro o e he
    have hw := Gonum.weightedEdges_sound hinv'.gonum o he
    obtain ⟨h1, h2⟩ := hinv'.edgeKeys _ _ _ hw
    constructor
    · intro hk
      obtain ⟨m, hm, -⟩ := hinv'.ofID _ _ h1
      have hk' : e.src.key = u.str := hk
      rw [hk', hget, if_pos rfl] at hm
      cases hm
    · intro hk
      obtain ⟨m, hm, -⟩ := hinv'.ofID _ _ h2
      have hk' : e.dst.key = u.str := hk
      rw [hk', hget, if_pos rfl] at hm
      cases hm
  · intro v e
    constructor
    · intro he
      obtain ⟨x, y, hx, -⟩ := edge_ok.mp he
      rw [hget, if_pos rfl] at hx
      cases hx
    · intro he
      obtain ⟨x, y, -, hy, -⟩ := edge_ok.mp he
      rw [hget, if_pos rfl] at hy
      cases hy
  · intro v hv
    unfold node; rw [hget, if_neg hv]
  · intro o n
    refine ⟨fun hn => ⟨?_, hlisted o n hn⟩, ?_⟩
    · unfold nodesList at hn ⊢
      rw [Gonum.mem_allNodes] at hn ⊢
      obtain ⟨i, hi⟩ := hn
      refine ⟨i, ?_⟩
      unfold removeNode removeLookup at hi
      cases hu : s.g.nodes.get? u.str with
      | none => rw [hu] at hi; exact hi
      | some x =>
        rw [hu] at hi
        simp only [removeApply, Gonum.removeNode_nodes] at hi
        split at hi
        · cases hi
        · exact hi
    · rintro ⟨hn, hk⟩
      unfold nodesList at hn ⊢
      rw [Gonum.mem_allNodes] at hn ⊢
      obtain ⟨i, hi⟩ := hn
      refine ⟨i, ?_⟩
      unfold removeNode removeLookup
      cases hu : s.g.nodes.get? u.str with
      | none => exact hi
      | some x =>
        simp only [removeApply, Gonum.removeNode_nodes]
        rw [if_neg, hi]
        rintro rfl
        have := hinv.toID _ _ hu
        simp only [keyAt, hi, Option.map_some, Option.some.injEq] at this
        exact hk this
  · intro p q hp hq
    refine edge_congr (by rw [hget, if_neg hp]) (by rw [hget, if_neg hq]) ?_
    intro x y hx hy
    unfold removeNode removeLookup
    cases hu : s.g.nodes.get? u.str with
    | none => rfl
    | some n =>
      simp only [removeApply]
      rw [Gonum.weightedEdge_removeNode hinv.gonum, if_neg]
      rintro (h | h)
      · exact hp ((hinv.id_inj hx hu).mp h)
      · exact hq ((hinv.id_inj hy hu).mp h)
  · intro hu
    have : s.g.nodes.get? u.str = none := by
      unfold node at hu
      split at hu
      · cases hu
      · assumption
    unfold removeNode removeLookup; rw [this]

/-- Calls that do not link `u`. -/
def NotLinking (u : Uid) : Op → Prop
  | .link _ _ f t _ => f.str ≠ u.str ∧ t.str ≠ u.str
  | _ => True

/-- Histories of disciplined calls. -/
def AllDisciplined : St → List Op → Prop
  | _, [] => True
  | s, op :: ops => Disciplined s op ∧ AllDisciplined (step s op).1 ops

private def NoEdgeAt (k : String) (g : WG) : Prop :=
  ∀ a b e, g.b.weightedEdge a b = some e → e.src.key ≠ k ∧ e.dst.key ≠ k

private theorem noEdgeAt_step {u : Uid} {s : St} {op : Op} (h : WGInv s.g)
    (hno : NoEdgeAt u.str s.g) (hn : NotLinking u op) : NoEdgeAt u.str (step s op).1.g := by
  cases op with
  | newNode o e opts => exact hno
  | addNode n opts =>
    have : (step s (.addNode n opts)).1.g.b.edges = s.g.b.edges := by
      simp only [step, addNode]
      split
      · split
        · split <;> rfl
        · rfl
      · cases ha : s.g.b.addNode n with
        | none => rfl
        | some b' => exact (Gonum.addNode_eq ha).2.1
    intro a b e he
    rw [Gonum.weightedEdge_congr this] at he
    exact hno a b e he
  | addForeign => exact hno
  | removeNode v =>
    intro a b e he
    simp only [step, removeNode] at he
    split at he
    · exact hno a b e he
    · simp only [removeApply] at he
      rw [Gonum.weightedEdge_removeNode h.gonum] at he
      split at he
      · cases he
      · exact hno a b e he
  | link fresh ad f t opts =>
    intro a b e he
    simp only [step, link] at he
    split at he
    · exact hno a b e he
    · rename_i x y hl
      obtain ⟨hx, hy, -⟩ := linkLookup_create hl
      simp only [linkApply] at he
      obtain ⟨hs, hd⟩ := mkEdge_ends s.heap fresh ad x y opts
      split at he
      · exact hno a b e he
      · rename_i b' hb'
        have hxk := h.keyOf _ _ hx
        have hyk := h.keyOf _ _ hy
        simp only [Gonum.weightedEdge_set hb'] at he
        split at he
        · cases he
          rw [hs, hd, hxk, hyk]
          exact hn
        · split at he
          · cases he
            show (mkEdge s.heap fresh ad x y opts).1.dst.key ≠ _ ∧
              (mkEdge s.heap fresh ad x y opts).1.src.key ≠ _
            rw [hs, hd, hxk, hyk]
            exact ⟨hn.2, hn.1⟩
          · exact hno a b e he
  | unlink f t =>
    intro a b e he
    simp only [step, unlink] at he
    split at he
    · exact hno a b e he
    · simp only [unlinkApply] at he
      rw [Gonum.weightedEdge_removeEdge h.gonum] at he
      split at he
      · cases he
      · exact hno a b e he
  | env h => exact hno

/-- **C22** (no resurrection). After `RemoveNode u`, whatever disciplined calls follow, including
adding `u` again, no edge at `u` exists until one is linked. -/
theorem c22_no_resurrection {d : Bool} {s : St} (hr : Reach Disciplined d s) (u : Uid)
    (ops : List Op) :
    let s' : St := ⟨s.heap, removeNode s.g u⟩
    AllDisciplined s' ops → (∀ op ∈ ops, NotLinking u op) →
    ∀ v e, edge (run s' ops).g u v ≠ .ok e ∧ edge (run s' ops).g v u ≠ .ok e := by
  intro s' hd hn
  have hinv : WGInv s'.g := wgInv_step (op := .removeNode u) (wgInv_reach hr) trivial
  have hno : NoEdgeAt u.str s'.g := by
    intro a b e he
    obtain ⟨h1, h2⟩ := hinv.edgeKeys _ _ _ he
    have hnone : s'.g.nodes.get? u.str = none := by
      have := (c22_removeNode hr u).1
      unfold node at this
      split at this
      · cases this
      · assumption
    constructor
    · intro hk
      obtain ⟨m, hm, -⟩ := hinv.ofID _ _ h1
      rw [hk, hnone] at hm; cases hm
    · intro hk
      obtain ⟨m, hm, -⟩ := hinv.ofID _ _ h2
      rw [hk, hnone] at hm; cases hm
  have key : ∀ (ops : List Op) (s : St), WGInv s.g → NoEdgeAt u.str s.g → AllDisciplined s ops →
      (∀ op ∈ ops, NotLinking u op) → WGInv (run s ops).g ∧ NoEdgeAt u.str (run s ops).g := by
    intro ops
    induction ops with
    | nil => intro s h1 h2 _ _; exact ⟨h1, h2⟩
    | cons op ops ih =>
      intro s h1 h2 h3 h4
      exact ih (step s op).1 (wgInv_step h1 h3.1)
        (noEdgeAt_step h1 h2 (h4 op List.mem_cons_self)) h3.2
        (fun o ho => h4 o (List.mem_cons_of_mem _ ho))
  obtain ⟨k1, k2⟩ := key ops s' hinv hno hd hn
  intro v e
  constructor
  · intro he
    obtain ⟨x, y, hx, hy, hw⟩ := edge_ok.mp he
    have := (k1.edgeKeys _ _ _ hw).1
    rw [k1.toID _ _ hx] at this
    exact (k2 _ _ _ hw).1 (Option.some.inj this).symm
  · intro he
    obtain ⟨x, y, hx, hy, hw⟩ := edge_ok.mp he
    have := (k1.edgeKeys _ _ _ hw).2
    rw [k1.toID _ _ hy] at this
    exact (k2 _ _ _ hw).2 (Option.some.inj this).symm

/-- Non-vacuity of C22: the middle node, with its two edges, is removed, added again under its old ID,
and the other nodes linked. -/
example (d : Bool) : Reach Disciplined d (exSt d) ∧
    let s' : St := ⟨(exSt d).heap, removeNode (exSt d).g uB⟩
    let ops := [.addNode (exNode 1 "b") [], .link ⟨102, "e3"⟩ 202 uA uC []]
    AllDisciplined s' ops ∧ (∀ op ∈ ops, NotLinking uB op) ∧
    node (run s' ops).g uB = .ok (exNode 1 "b") ∧
    (∃ e, edge (run s' ops).g uA uC = .ok e) := by
  refine ⟨reach_exSt' d, ⟨fits_of_entries ?_, trivial, trivial⟩, ?_, ?_, ?_⟩
  · cases d <;> decide
  · intro op hop
    simp only [List.mem_cons, List.not_mem_nil, or_false] at hop
    rcases hop with rfl | rfl
    · trivial
    · exact ⟨by decide, by decide⟩
  · cases d <;> decide
  · exact ⟨⟨⟨102, "e3"⟩, 2, exNode 0 "a", exNode 2 "c", "e3", 0⟩, by cases d <;> decide⟩

/-! ## C23 -/

/-- **C23** (undirected, all histories). Seen from the other end an edge has its ends swapped and the
same UID, attribute set, weight and DOT ID. -/
theorem c23_undirected {s : St} (hr : Reach Any false s) (u v : Uid) (e : Edge)
    (he : edge s.g u v = .ok e) :
    ∃ e', edge s.g v u = .ok e' ∧ e'.src = e.dst ∧ e'.dst = e.src ∧ e'.uid = e.uid ∧
      e'.attrs = e.attrs ∧ e'.weight = e.weight ∧ e'.dotid = e.dotid := by
  obtain ⟨hinv, hd⟩ := gonumInv_reach hr
  obtain ⟨f, t, hf, ht, hw⟩ := edge_ok.mp he
  refine ⟨e.rev, edge_ok.mpr ⟨t, f, ht, hf, ?_⟩, rfl, rfl, rfl, rfl, rfl, rfl⟩
  rw [Gonum.weightedEdge_symm hinv hd, hw]
  rfl

/-- **C23** (directed, all histories). Linking `u` to `v` leaves the pair `(v, u)` exactly as it
was. -/
theorem c23_directed {s : St} (hr : Reach Any true s) (fresh : Uid) (a : Nat) (u v : Uid)
    (opts : List Opt) :
    edge (link s.heap s.g fresh a u v opts).2.1 v u = edge s.g v u := by
  obtain ⟨hinv, hd⟩ := gonumInv_reach hr
  unfold link
  split
  · rfl
  · rename_i x y hl
    obtain ⟨hx, hy, -⟩ := linkLookup_create hl
    obtain ⟨hs, hd'⟩ := mkEdge_ends s.heap fresh a x y opts
    simp only [linkApply]
    split
    · rfl
    · rename_i b' hb'
      refine edge_congr rfl rfl ?_
      intro f t hf ht
      rw [hy] at hf
      rw [hx] at ht
      cases hf
      cases ht
      have hne := (Gonum.setWeightedEdge_eq hb').1
      rw [hs, hd'] at hne
      simp only [Gonum.weightedEdge_set hb', hs, hd', hd]
      rw [if_neg (fun h => hne h.2), if_neg (by simp)]

/-- Non-vacuity of C23. -/
example : Reach Any false (exSt false) ∧ Reach Any true (exSt true) ∧
    (∃ e, edge (exSt false).g uB uA = .ok e ∧ e.src = exNode 1 "b" ∧ e.weight = 7) ∧
    edge (exSt true).g uB uA = .err .edgeNotExist :=
  ⟨(reach_exSt false).mono fun _ _ _ => trivial, (reach_exSt true).mono fun _ _ _ => trivial,
    ⟨⟨⟨100, "e1"⟩, 0, exNode 1 "b", exNode 0 "a", "e1", 7⟩, by decide, rfl, rfl⟩, by decide⟩

/-! ## C24 -/

/-- **C24.** `From u` lists, for each UID linked from `u`, one node with that UID, and nothing else;
the nodes are ones `Nodes` lists. -/
theorem c24_from {d : Bool} {s : St} (hr : Reach Disciplined d s) (o : Order (Int × Edge))
    (o' : Order (Int × Node)) (u : Uid) :
    (∀ v : Uid, (∃ n ∈ fromList s.g o u, n.uid.str = v.str) ↔ ∃ e, edge s.g u v = .ok e) ∧
    ((fromList s.g o u).map (fun n => n.uid.str)).Nodup ∧
    (∀ n ∈ fromList s.g o u, n ∈ nodesList s.g o') ∧
    (node s.g u = .err .nodeNotFound → fromList s.g o u = []) := by
  have hinv := wgInv_reach hr
  cases hu : s.g.nodes.get? u.str with
  | none =>
    have hf : fromList s.g o u = [] := by unfold fromList; rw [hu]
    rw [hf]
    refine ⟨?_, by simp, by simp, fun _ => rfl⟩
    intro v
    simp only [List.not_mem_nil, false_and, exists_false, false_iff]
    rintro ⟨e, he⟩
    obtain ⟨x, y, hx, -⟩ := edge_ok.mp he
    rw [hu] at hx; cases hx
  | some x =>
    have hf : fromList s.g o u = s.g.b.fromNodes o x.id := by unfold fromList; rw [hu]
    rw [hf]
    have hmem := fun n => Gonum.mem_fromNodes hinv.gonum o x.id n
    refine ⟨?_, ?_, ?_, ?_⟩
    · intro v
      constructor
      · rintro ⟨n, hn, hk⟩
        obtain ⟨h1, h2⟩ := (hmem n).mp hn
        obtain ⟨e, he⟩ := Option.isSome_iff_exists.mp h2
        obtain ⟨m, hm, hid⟩ := hinv.ofID n.id n.key (by simp [keyAt, h1])
        have hk' : n.key = v.str := hk
        rw [hk'] at hm
        exact ⟨e, edge_ok.mpr ⟨x, m, hu, hm, by rw [hid]; exact he⟩⟩
      · rintro ⟨e, he⟩
        obtain ⟨x', y, hx, hy, hw⟩ := edge_ok.mp he
        rw [hu] at hx
        cases hx
        have := hinv.toID _ _ hy
        unfold keyAt at this
        obtain ⟨n, hn, hk⟩ := Option.map_eq_some_iff.mp this
        have hid := hinv.gonum.nodeID _ _ hn
        exact ⟨n, (hmem n).mpr ⟨by rw [hid]; exact hn, by rw [hid, hw]; rfl⟩, hk⟩
    · have hids := Gonum.nodup_fromNodes_ids hinv.gonum o x.id
      rw [List.nodup_iff_pairwise_ne, List.pairwise_map]
      have := List.Pairwise.of_map (f := Node.id) (S := (· ≠ ·))
        (R := fun a b : Node => a.id ≠ b.id) (fun a b hab => hab) hids
      refine List.Pairwise.imp_of_mem ?_ this
      intro a b ha hb hab hk
      obtain ⟨h1, -⟩ := (hmem a).mp ha
      obtain ⟨h2, -⟩ := (hmem b).mp hb
      obtain ⟨m, hm, hid⟩ := hinv.ofID a.id a.key (by simp [keyAt, h1])
      obtain ⟨m', hm', hid'⟩ := hinv.ofID b.id b.key (by simp [keyAt, h2])
      have hk' : a.key = b.key := hk
      rw [hk', hm'] at hm
      cases hm
      exact hab (hid.symm.trans hid')
    · intro n hn
      exact (Gonum.mem_allNodes _ _ _).mpr ⟨_, ((hmem n).mp hn).1⟩
    · intro hn
      unfold node at hn; rw [hu] at hn; cases hn

/-- **C24** without upsert: the nodes `From` lists are exactly the nodes `Node` returns for the UIDs
linked from `u`, each once. -/
theorem c24_from_exact {d : Bool} {s : St} (hr : Reach NoReplace d s) (o : Order (Int × Edge))
    (u : Uid) :
    (∀ n, n ∈ fromList s.g o u ↔ node s.g n.uid = .ok n ∧ ∃ e, edge s.g u n.uid = .ok e) ∧
    (fromList s.g o u).Nodup := by
  obtain ⟨h1, h2, h3, -⟩ := c24_from (hr.mono NoReplace.disciplined) o Order.id u
  have hnodes := (c17_agree_partial hr Order.id).1
  refine ⟨?_, List.Pairwise.of_map _ (fun a b hab e => hab (e ▸ rfl)) h2⟩
  intro n
  constructor
  · intro hn
    exact ⟨(hnodes n).mp (h3 n hn), (h1 n.uid).mp ⟨n, hn, rfl⟩⟩
  · rintro ⟨hn, he⟩
    obtain ⟨m, hm, hk⟩ := (h1 n.uid).mpr he
    have hm' := (hnodes m).mp (h3 m hm)
    unfold node at hm' hn
    rw [hk] at hm'
    rw [hm'] at hn
    cases hn
    exact hm

/-- Non-vacuity of C24. -/
example : (fromList (exSt false).g Order.rev uB).map Node.id = [0, 2] ∧
    (fromList (exSt true).g Order.rev uB).map Node.id = [2] ∧
    fromList (exSt true).g Order.rev ⟨9, "z"⟩ = [] := by decide

/-! ## C25, C26 -/

/-- **C25.** Every edge `Edges` lists is the one `Edge` returns for its ends; every edge `Edge`
returns is listed (in an undirected graph, as seen from one of its ends); no ordered (directed) or
unordered (undirected) pair of UIDs is listed twice. -/
theorem c25_edges {d : Bool} {s : St} (hr : Reach Disciplined d s) (o : EdgeOrder) :
    (∀ e ∈ edgesList s.g o, edge s.g e.src.uid e.dst.uid = .ok e) ∧
    (∀ u v e, edge s.g u v = .ok e → (e.src.uid.str = u.str ∧ e.dst.uid.str = v.str) ∧
      (e ∈ edgesList s.g o ∨ (d = false ∧ e.rev ∈ edgesList s.g o))) ∧
    (edgesList s.g o).Pairwise (fun e e' =>
      ¬ (e.src.uid.str = e'.src.uid.str ∧ e.dst.uid.str = e'.dst.uid.str) ∧
      (d = false → ¬ (e.src.uid.str = e'.dst.uid.str ∧ e.dst.uid.str = e'.src.uid.str))) := by
  have hinv := wgInv_reach hr
  obtain ⟨-, hdir⟩ := gonumInv_reach hr
  have hends : ∀ a b e, s.g.b.weightedEdge a b = some e →
      ∃ x y, s.g.nodes.get? e.src.key = some x ∧ x.id = a ∧
        s.g.nodes.get? e.dst.key = some y ∧ y.id = b := by
    intro a b e he
    obtain ⟨h1, h2⟩ := hinv.edgeKeys _ _ _ he
    obtain ⟨x, hx, hxi⟩ := hinv.ofID _ _ h1
    obtain ⟨y, hy, hyi⟩ := hinv.ofID _ _ h2
    exact ⟨x, y, hx, hxi, hy, hyi⟩
  refine ⟨?_, ?_, ?_⟩
  · intro e he
    have hw := Gonum.weightedEdges_sound hinv.gonum o he
    obtain ⟨x, y, hx, hxi, hy, hyi⟩ := hends _ _ _ hw
    exact edge_ok.mpr ⟨x, y, hx, hy, by rw [hxi, hyi]; exact hw⟩
  · intro u v e he
    obtain ⟨x, y, hx, hy, hw⟩ := edge_ok.mp he
    obtain ⟨h1, h2⟩ := hinv.edgeKeys _ _ _ hw
    rw [hinv.toID _ _ hx] at h1
    rw [hinv.toID _ _ hy] at h2
    refine ⟨⟨(Option.some.inj h1).symm, (Option.some.inj h2).symm⟩, ?_⟩
    rcases Gonum.weightedEdges_complete hinv.gonum o hw with h | ⟨h, h'⟩
    · exact Or.inl h
    · exact Or.inr ⟨hdir ▸ h, h'⟩
  · have hp := Gonum.weightedEdges_pairwise hinv.gonum o
    refine List.Pairwise.imp_of_mem ?_ hp
    intro e e' he he' hne
    rw [hdir] at hne
    have hids : ∀ e ∈ edgesList s.g o, ∃ x y, s.g.nodes.get? e.src.key = some x ∧
        x.id = e.src.id ∧ s.g.nodes.get? e.dst.key = some y ∧ y.id = e.dst.id := by
      intro e he
      exact hends _ _ _ (Gonum.weightedEdges_sound hinv.gonum o he)
    obtain ⟨x, y, hx, hxi, hy, hyi⟩ := hids e he
    obtain ⟨x', y', hx', hxi', hy', hyi'⟩ := hids e' he'
    constructor
    · rintro ⟨h1, h2⟩
      refine hne.1 ⟨?_, ?_⟩
      · rw [← hxi, ← hxi']; exact (hinv.id_inj hx hx').mpr h1
      · rw [← hyi, ← hyi']; exact (hinv.id_inj hy hy').mpr h2
    · rintro hd ⟨h1, h2⟩
      refine hne.2 hd ⟨?_, ?_⟩
      · rw [← hxi, ← hyi']; exact (hinv.id_inj hx hy').mpr h1
      · rw [← hyi, ← hxi']; exact (hinv.id_inj hy hx').mpr h2

/-- Non-vacuity of C25: two edges, whatever the order. -/
example : (edgesList (exSt false).g EdgeOrder.id).map (fun e => (e.src.id, e.dst.id)) =
    [(1, 2), (0, 1)] ∧
    (edgesList (exSt true).g EdgeOrder.id).map (fun e => (e.src.id, e.dst.id)) =
    [(1, 2), (0, 1)] := by decide

/-- C26 for all histories. -/
def NoDangling : Prop := ∀ (d : Bool) (s : St), Reach Any d s → ∀ o o', ∀ e ∈ edgesList s.g o,
  (e.src ∈ nodesList s.g o' ∨ ∃ n, node s.g e.src.uid = .ok n) ∧
  (e.dst ∈ nodesList s.g o' ∨ ∃ n, node s.g e.dst.uid = .ok n)

/-- **C26 fails** when nodes reuse IDs of others: `a` is added again under a new ID (accepted, see
`c18_violated_new_id`) and removed, and `c` added under `a`'s old ID and linked. `Edges` then still
has the edge from `a`, which neither `Nodes` nor `Node` knows. -/
theorem c26_violated : ¬ NoDangling := by
  intro h
  have := h true (run (exInit true) [.addNode (exNode 0 "a") [], .addNode (exNode 1 "b") [],
    .link ⟨100, "e1"⟩ 200 uA uB [], .addNode (exNode 2 "a") [], .removeNode uA,
    .addNode (exNode 0 "c") [], .addNode (exNode 4 "d") [], .link ⟨101, "e2"⟩ 201 uC ⟨4, "d"⟩ []])
    (reach_run_any _ (reach_exInit _ _)) EdgeOrder.id Order.id
    ⟨⟨100, "e1"⟩, 0, exNode 0 "a", exNode 1 "b", "e1", 0⟩ (by decide)
  rcases this.1 with h1 | ⟨n, h1⟩
  · revert h1; decide
  · have h2 : node (run (exInit true) [.addNode (exNode 0 "a") [], .addNode (exNode 1 "b") [],
      .link ⟨100, "e1"⟩ 200 uA uB [], .addNode (exNode 2 "a") [], .removeNode uA,
      .addNode (exNode 0 "c") [], .addNode (exNode 4 "d") [],
      .link ⟨101, "e2"⟩ 201 uC ⟨4, "d"⟩ []]).g (exNode 0 "a").uid = .err .nodeNotFound := by decide
    have h1' : Res.err Err.nodeNotFound = Res.ok n := h2.symm.trans h1
    cases h1'

/-- **C26, what holds** in all histories: the IDs of both ends of every edge, listed or looked up,
are IDs of listed nodes, and differ. -/
theorem c26_ids_partial {d : Bool} {s : St} (hr : Reach Any d s) (o : EdgeOrder)
    (o' : Order (Int × Node)) (e : Edge)
    (he : e ∈ edgesList s.g o ∨ ∃ u v, edge s.g u v = .ok e) :
    (∃ n ∈ nodesList s.g o', n.id = e.src.id) ∧ (∃ n ∈ nodesList s.g o', n.id = e.dst.id) ∧
      e.src.id ≠ e.dst.id := by
  obtain ⟨hinv, -⟩ := gonumInv_reach hr
  have hw : s.g.b.weightedEdge e.src.id e.dst.id = some e := by
    rcases he with he | ⟨u, v, he⟩
    · exact Gonum.weightedEdges_sound hinv o he
    · obtain ⟨f, t, -, -, hw⟩ := edge_ok.mp he
      obtain ⟨h1, h2, -⟩ := Gonum.weightedEdge_ends hinv hw
      rw [h1, h2]; exact hw
  obtain ⟨-, -, hne, ⟨n, hn⟩, m, hm⟩ := Gonum.weightedEdge_ends hinv hw
  exact ⟨⟨n, (Gonum.mem_allNodes _ _ _).mpr ⟨_, hn⟩, hinv.nodeID _ _ hn⟩,
    ⟨m, (Gonum.mem_allNodes _ _ _).mpr ⟨_, hm⟩, hinv.nodeID _ _ hm⟩, hne⟩

/-- **C26, what holds** in disciplined histories: both ends of every listed edge are found by UID,
under the same ID, and without upsert they are the very nodes listed. -/
theorem c26_nodes_partial {d : Bool} {s : St} (hr : Reach Disciplined d s) (o : EdgeOrder)
    (e : Edge) (he : e ∈ edgesList s.g o) :
    (∃ n, node s.g e.src.uid = .ok n ∧ n.id = e.src.id) ∧
    (∃ n, node s.g e.dst.uid = .ok n ∧ n.id = e.dst.id) ∧
    (Reach NoReplace d s → ∀ o', e.src ∈ nodesList s.g o' ∧ e.dst ∈ nodesList s.g o') := by
  have hinv := wgInv_reach hr
  have hw := Gonum.weightedEdges_sound hinv.gonum o he
  obtain ⟨h1, h2⟩ := hinv.edgeKeys _ _ _ hw
  obtain ⟨x, hx, hxi⟩ := hinv.ofID _ _ h1
  obtain ⟨y, hy, hyi⟩ := hinv.ofID _ _ h2
  refine ⟨⟨x, (hinv.node_eq _ _).mpr hx, hxi⟩, ⟨y, (hinv.node_eq _ _).mpr hy, hyi⟩, ?_⟩
  intro hr' o'
  obtain ⟨h3, h4⟩ := (wgExact_reach hr').ends _ _ _ hw
  exact ⟨(Gonum.mem_allNodes _ _ _).mpr ⟨_, h3⟩, (Gonum.mem_allNodes _ _ _).mpr ⟨_, h4⟩⟩

/-- Non-vacuity of C26. -/
example : Reach NoReplace true (exSt true) ∧
    (⟨⟨100, "e1"⟩, 0, exNode 0 "a", exNode 1 "b", "e1", 7⟩ : Edge) ∈
      edgesList (exSt true).g EdgeOrder.id :=
  ⟨reach_exSt true, by decide⟩

/-! ## C31 -/

/-- **C31** (edges). For every option list: with a non-empty DOTID option the edge's DOTID and UID
string are that option; otherwise the UID is the UID option, or else the fresh one, and the DOTID its
string; the weight is the weight option or zero; the attribute set is the option's, or a new empty
one that no earlier reference names. -/
theorem c31_edge_identity (h : Heap) (fresh : Uid) (a : Nat) (f t : Node) (opts : List Opt) :
    let e := (mkEdge h fresh a f t opts).1
    let h' := (mkEdge h fresh a f t opts).2
    (dotOption opts ≠ "" → e.dotid = dotOption opts ∧ e.uid.str = dotOption opts) ∧
    (dotOption opts = "" → e.uid = (uidOption opts).getD fresh ∧ e.dotid = e.uid.str) ∧
    e.weight = weightOption opts ∧ e.src = f ∧ e.dst = t ∧
    (∀ r, attrsOption opts = some r → e.attrs = r ∧ h' = h) ∧
    (attrsOption opts = none → (e.attrs, h') = h.alloc GoMap.empty) := by
  obtain ⟨h1, h2, h3, h4⟩ := applyAll_fields opts
  intro e h'
  refine ⟨?_, ?_, ?_, rfl, rfl, ?_, ?_⟩
  · intro hne
    show (mkEdge h fresh a f t opts).1.dotid = _ ∧ (mkEdge h fresh a f t opts).1.uid.str = _
    simp [mkEdge, h1, hne]
  · intro he
    show (mkEdge h fresh a f t opts).1.uid = _ ∧ (mkEdge h fresh a f t opts).1.dotid = _
    simp [mkEdge, h1, he, h2, e]
  · exact h4
  · intro r hr
    show (mkEdge h fresh a f t opts).1.attrs = _ ∧ (mkEdge h fresh a f t opts).2 = _
    simp [mkEdge, h3, hr, attrsOrNew]
  · intro hr
    show ((mkEdge h fresh a f t opts).1.attrs, (mkEdge h fresh a f t opts).2) = _
    simp [mkEdge, h3, hr, attrsOrNew]

/-- **C31** (nodes). For every option list and entity: the node's DOTID is the DOTID option, else the
entity's own DOTID when it has one, else the entity's UID string; the node's UID and type are its
entity's; its attribute set is the option's or a new empty one. -/
theorem c31_node_identity (h : Heap) (id : Int) (x : Ent) (opts : List Opt) :
    let n := (mkNode h id x opts).1
    let h' := (mkNode h id x opts).2
    n.id = id ∧ n.uid = x.uid ∧ n.ent.typ = x.typ ∧
    (dotOption opts ≠ "" → n.dotid = dotOption opts) ∧
    (dotOption opts = "" → ∀ s, x.dot = some s → n.dotid = s) ∧
    (dotOption opts = "" → x.dot = none → n.dotid = x.uid.str) ∧
    (∀ r, attrsOption opts = some r → n.attrs = r ∧ h' = h) ∧
    (attrsOption opts = none → (n.attrs, h') = h.alloc GoMap.empty) := by
  obtain ⟨h1, h2, h3, h4⟩ := applyAll_fields opts
  intro n h'
  refine ⟨rfl, rfl, rfl, ?_, ?_, ?_, ?_, ?_⟩
  · intro hne
    show (mkNode h id x opts).1.dotid = _
    simp [mkNode, h1, hne]
  · intro he s hs
    show (mkNode h id x opts).1.dotid = _
    simp [mkNode, h1, he, hs]
  · intro he hs
    show (mkNode h id x opts).1.dotid = _
    simp [mkNode, h1, he, hs]
  · intro r hr
    show (mkNode h id x opts).1.attrs = _ ∧ (mkNode h id x opts).2 = _
    simp [mkNode, h3, hr, attrsOrNew]
  · intro hr
    show ((mkNode h id x opts).1.attrs, (mkNode h id x opts).2) = _
    simp [mkNode, h3, hr, attrsOrNew]

/-- Non-vacuity of C31: options given twice, the last wins; a nil UID option. -/
example :
    let opts : List Opt := [.withDOTID "x", .withWeight 3, .withDOTID "y", .withUID none]
    dotOption opts = "y" ∧ uidOption opts = none ∧ attrsOption opts = none ∧
      weightOption opts = 3 ∧
    (mkEdge Heap.empty ⟨1, "fresh"⟩ 2 (exNode 0 "a") (exNode 1 "b") opts).1.uid = ⟨2, "y"⟩ := by
  decide

end Netscrape.Props
