import Verif.Lemmas.GraphPtrWalk

/-!
# Which edges a sub graph over objects has
-/

namespace Netscrape.GraphPtr
open Netscrape.Spec.GraphPtr
open Netscrape.Graph (Opt Err)

/-- The graph has an edge between two IDs. -/
def Has (g : WG) (i j : Int) : Prop := (stored g.b i j).isSome

theorem edge_has (m : Mem) (g : WG) (u v : Uid) : (∃ e, (edge m g u v).1 = .ok e) ↔
    ∃ f t, g.nodes.get? u.str = some f ∧ g.nodes.get? v.str = some t ∧ Has g (m.id f) (m.id t) := by
  unfold edge Builder.weightedEdge Has stored
  cases g.nodes.get? u.str with
  | none => simp
  | some f =>
    cases g.nodes.get? v.str with
    | none => simp
    | some t =>
      cases g.b.edges with
      | directed fr to =>
        cases h : fr.at (m.id f) (m.id t) <;> simp [h]
      | undirected ed =>
        cases h : ed.at (m.id f) (m.id t) with
        | none => simp [h]
        | some e =>
          by_cases hs : m.id (m.edge e).src = m.id f <;> simp [h, hs]

theorem put_at (a : Adj) (i j : Int) (e : EPtr) (i' j' : Int) :
    (a.put i j e).at i' j' = if i' = i ∧ j' = j then some e else a.at i' j' := by
  unfold Adj.put Adj.at Adj.row
  rw [GoMap.get?_set]
  by_cases hi : i' = i
  · subst hi
    rw [if_pos rfl, Option.getD_some, GoMap.get?_set]
    by_cases hj : j' = j <;> simp [hj]
  · simp [hi]

theorem id_nodes {m m₀ : Mem} (h : m.nodes = m₀.nodes) (p : NPtr) : m.id p = m₀.id p := by
  unfold Mem.id Mem.node; rw [h]

/-- What linking keeps. -/
structure Lk (m₀ : Mem) (ns : GoMap String NPtr) (m : Mem) (sg : WG) : Prop where
  mem : m.nodes = m₀.nodes
  nodes : sg.nodes = ns
  directed : ∃ fr to, sg.b.edges = .directed fr to

theorem link_has {m₀ m : Mem} {ns : GoMap String NPtr} {sg : WG} (hl : Lk m₀ ns m sg) {fresh : Uid} {a : Nat} {f t : Uid}
    {opts : List Opt} {e : EPtr} {sg' : WG} {m' : Mem} (h : link m sg fresh a f t opts = (.ok e, sg', m'))
    {p q : NPtr} (hp : ns.get? f.str = some p) (hq : ns.get? t.str = some q) :
    Lk m₀ ns m' sg' ∧ ∀ i j, Has sg' i j ↔ Has sg i j ∨ (i = m₀.id p ∧ j = m₀.id q) := by
  obtain ⟨fr, to, hd⟩ := hl.directed
  rcases link_cases m sg fresh a f t opts with ⟨r, -, hr, -, he⟩ | ⟨p', q', -, -, hp', hq', he⟩
  · rw [h] at he
    have h1 : r = .ok e := (congrArg (·.1) he).symm
    have h2 : sg' = sg := congrArg (·.2.1) he
    have h3 : m' = m := (congrArg (·.2.2) he).trans (edge_directed m sg hd f t).1
    subst h1 h2 h3
    refine ⟨hl, fun i j => ⟨.inl, ?_⟩⟩
    rintro (h | ⟨rfl, rfl⟩)
    · exact h
    · obtain ⟨f', t', hf, ht, hh⟩ := (edge_has m' sg' f t).mp ⟨e, hr⟩
      rw [hl.nodes, hp] at hf
      rw [hl.nodes, hq] at ht
      cases hf; cases ht
      rw [← id_nodes hl.mem, ← id_nodes hl.mem]
      exact hh
  · rw [hl.nodes, hp] at hp'
    rw [hl.nodes, hq] at hq'
    cases hp'; cases hq'
    rw [h] at he
    have hm : (makeEdge m fresh a p q opts).2.nodes = m₀.nodes := (moreEdges_makeEdge m fresh a p q opts).nodes.trans hl.mem
    have hnew := makeEdge_new m fresh a p q opts
    cases hb : sg.b.setWeightedEdge (makeEdge m fresh a p q opts).2 (makeEdge m fresh a p q opts).1 with
    | none => rw [hb] at he; cases he
    | some b' =>
      rw [hb] at he
      obtain ⟨h1, -⟩ := setWeightedEdge_eq hb
      rw [hnew.2.2.1, hd] at h1
      have h2 : sg' = { sg with b := b' } := congrArg (·.2.1) he
      have h3 : m' = (makeEdge m fresh a p q opts).2 := congrArg (·.2.2) he
      subst h2 h3
      refine ⟨⟨hm, hl.nodes, _, _, h1⟩, fun i j => ?_⟩
      unfold Has stored
      rw [h1, hd]
      simp only [Edges.put, put_at, id_nodes hm]
      by_cases hij : i = m₀.id p ∧ j = m₀.id q <;> simp [hij]

theorem linkAll_has {m₀ : Mem} {ns : GoMap String NPtr} (ora : SubOracle) (x y : Uid) {p q : NPtr}
    (hp : ns.get? x.str = some p) (hq : ns.get? y.str = some q) (es : List EPtr) :
    ∀ {m : Mem} {sg : WG}, Lk m₀ ns m sg → ∀ {sg' m'}, linkAll ora x y es sg m = (.ok sg', m') →
      Lk m₀ ns m' sg' ∧ ∀ i j, Has sg' i j ↔ Has sg i j ∨ (es ≠ [] ∧ i = m₀.id p ∧ j = m₀.id q) := by
  induction es with
  | nil => intro m sg h sg' m' he; cases he; exact ⟨h, fun i j => by simp⟩
  | cons e es ih =>
    intro m sg h sg' m' he
    unfold linkAll at he
    simp only [] at he
    cases hr : link { m with heap := (Attrs.newCopyFrom m.heap (ora.copy m.heap.cells.length) (m.edge e).attrs).2 } sg
      (ora.edgeUid m.heap.cells.length) 0 x y
      [.withAttrs (some (Attrs.newCopyFrom m.heap (ora.copy m.heap.cells.length) (m.edge e).attrs).1),
        .withWeight (m.edge e).weight] with
    | mk r r2 =>
      obtain ⟨sg1, m1⟩ := r2
      rw [hr] at he
      cases r with
      | ok e' =>
        have h0 : Lk m₀ ns { m with heap := (Attrs.newCopyFrom m.heap (ora.copy m.heap.cells.length) (m.edge e).attrs).2 } sg :=
          ⟨h.mem, h.nodes, h.directed⟩
        obtain ⟨h1, h2⟩ := link_has h0 hr hp hq
        obtain ⟨h3, h4⟩ := ih h1 he
        refine ⟨h3, fun i j => ?_⟩
        rw [h4, h2]
        constructor
        · rintro ((h | h) | h)
          · exact .inl h
          · exact .inr ⟨by simp, h⟩
          · exact .inr ⟨by simp, h.2⟩
        · rintro (h | h)
          · exact .inl (.inl h)
          · exact .inl (.inr h.2)
      | err _ => cases he
      | panic => cases he

/-- The collected nodes are in the sub graph, perhaps as other objects with the same ID. -/
def Named (m₀ : Mem) (ns : GoMap String NPtr) (c : GoMap Int NPtr) : Prop :=
  ∀ i p, c.get? i = some p → m₀.id p = i ∧ ∃ p', ns.get? (m₀.key p) = some p' ∧ m₀.id p' = i

theorem linkPeers_has {m₀ : Mem} {ns : GoMap String NPtr} (ora : SubOracle) (g : WG) {c : GoMap Int NPtr}
    (hc : Named m₀ ns c) {id : Int} {x : NPtr} (hx : c.get? id = some x) (ps : List NPtr)
    (hes : ∀ m : Mem, m.nodes = m₀.nodes → ps ≠ [] → ∀ o, g.b.weightedEdges m o ≠ []) :
    ∀ {m : Mem} {sg : WG}, Lk m₀ ns m sg → ∀ {sg' m'}, linkPeers ora g c id x ps sg m = (.ok sg', m') →
      Lk m₀ ns m' sg' ∧ ∀ i j, Has sg' i j ↔
        Has sg i j ∨ (i = id ∧ (∃ p ∈ ps, m₀.id p = j) ∧ (c.get? j).isSome) := by
  induction ps with
  | nil => intro m sg h sg' m' he; cases he; exact ⟨h, fun i j => by simp⟩
  | cons p ps ih =>
    intro m sg h sg' m' he
    have ih := @ih (fun m hm _ => hes m hm (by simp))
    unfold linkPeers at he
    cases hto : c.get? (m.id p) with
    | none =>
      rw [hto] at he
      obtain ⟨h1, h2⟩ := ih h he
      refine ⟨h1, fun i j => ?_⟩
      rw [h2]
      refine or_congr_right (and_congr_right fun _ => ?_)
      constructor
      · rintro ⟨⟨p', hp', hj⟩, hs⟩; exact ⟨⟨p', .tail _ hp', hj⟩, hs⟩
      · rintro ⟨⟨p', hp', hj⟩, hs⟩
        rcases List.mem_cons.mp hp' with rfl | hp'
        · rw [id_nodes h.mem, hj] at hto; rw [hto] at hs; cases hs
        · exact ⟨⟨p', hp', hj⟩, hs⟩
    | some to =>
      rw [hto] at he
      simp only [] at he
      cases hl : linkAll ora (m.node x).uid (m.node to).uid (g.b.weightedEdges m (ora.edges id (m.id p))) sg m with
      | mk r m1 =>
        rw [hl] at he
        cases r with
        | ok sg1 =>
          obtain ⟨-, x', hx1, hx2⟩ := hc id x hx
          obtain ⟨-, t', ht1, ht2⟩ := hc _ to hto
          have hk : ∀ r : NPtr, (m.node r).uid.str = m₀.key r := fun r => by
            unfold Mem.key Mem.node; rw [h.mem]; rfl
          obtain ⟨h1, h2⟩ := linkAll_has (m₀ := m₀) (ns := ns) ora _ _ (by rw [hk]; exact hx1) (by rw [hk]; exact ht1) _ h hl
          obtain ⟨h3, h4⟩ := ih h1 he
          refine ⟨h3, fun i j => ?_⟩
          rw [h4, h2, hx2, ht2]
          have hne := hes m h.mem (by simp) (ora.edges id (m.id p))
          constructor
          · rintro ((h' | ⟨-, rfl, rfl⟩) | ⟨rfl, ⟨p', hp', hj⟩, hs⟩)
            · exact .inl h'
            · exact .inr ⟨rfl, ⟨p, .head _, (id_nodes h.mem p).symm⟩, by rw [hto]; rfl⟩
            · exact .inr ⟨rfl, ⟨p', .tail _ hp', hj⟩, hs⟩
          · rintro (h' | ⟨rfl, ⟨p', hp', hj⟩, hs⟩)
            · exact .inl (.inl h')
            · rcases List.mem_cons.mp hp' with rfl | hp'
              · exact .inl (.inr ⟨hne, rfl, by rw [id_nodes h.mem, hj]⟩)
              · exact .inr ⟨rfl, ⟨p', hp', hj⟩, hs⟩
        | err _ => cases he
        | panic => cases he

theorem linkNodes_has {m₀ : Mem} {ns : GoMap String NPtr} (ora : SubOracle) (g : WG) {c : GoMap Int NPtr}
    (hc : Named m₀ ns c)
    (hes : ∀ m : Mem, m.nodes = m₀.nodes → ∀ i o, g.b.fromNodes o i ≠ [] → ∀ o, g.b.weightedEdges m o ≠ [])
    (l : List (Int × NPtr)) (hl : ∀ i p, (i, p) ∈ l → c.get? i = some p) :
    ∀ {m : Mem} {sg : WG}, Lk m₀ ns m sg → ∀ {sg' m'}, linkNodes ora g c l sg m = (.ok sg', m') →
      Lk m₀ ns m' sg' ∧ ∀ i j, Has sg' i j ↔ Has sg i j ∨
        ((∃ x, (i, x) ∈ l) ∧ (∃ p ∈ g.b.fromNodes (ora.peers i) i, m₀.id p = j) ∧ (c.get? j).isSome) := by
  induction l with
  | nil => intro m sg h sg' m' he; cases he; exact ⟨h, fun i j => by simp⟩
  | cons a l ih =>
    obtain ⟨id, x⟩ := a
    intro m sg h sg' m' he
    unfold linkNodes at he
    cases hp : linkPeers ora g c id x (g.b.fromNodes (ora.peers id) id) sg m with
    | mk r m1 =>
      rw [hp] at he
      cases r with
      | ok sg1 =>
        obtain ⟨h1, h2⟩ := linkPeers_has (m₀ := m₀) (ns := ns) ora g hc (hl id x (.head _)) _
          (fun m hm hne o => hes m hm _ _ hne o) h hp
        obtain ⟨h3, h4⟩ := ih (fun i p hi => hl i p (.tail _ hi)) h1 he
        refine ⟨h3, fun i j => ?_⟩
        rw [h4, h2]
        constructor
        · rintro ((h | ⟨rfl, h⟩) | ⟨⟨x', hx'⟩, h⟩)
          · exact .inl h
          · exact .inr ⟨⟨x, .head _⟩, h⟩
          · exact .inr ⟨⟨x', .tail _ hx'⟩, h⟩
        · rintro (h | ⟨⟨x', hx'⟩, h⟩)
          · exact .inl (.inl h)
          · rcases List.mem_cons.mp hx' with hx' | hx'
            · cases hx'; exact .inl (.inr ⟨rfl, h⟩)
            · exact .inr ⟨⟨x', hx'⟩, h⟩
      | err _ => cases he
      | panic => cases he

/-- The source has a node with the key and the ID of `p`, perhaps another object. -/
def Known (m : Mem) (g : WG) (p : NPtr) : Prop := ∃ p', g.nodes.get? (m.key p) = some p' ∧ m.id p' = m.id p

theorem known_same {m : Mem} {g : WG} {p q : NPtr} (hp : Known m g p) (hq : Known m g q) (h : m.key p = m.key q) :
    m.id p = m.id q := by
  obtain ⟨p', h1, h2⟩ := hp
  obtain ⟨q', h3, h4⟩ := hq
  rw [h, h3] at h1
  cases h1
  exact h2.symm.trans h4

section
variable {m : Mem} {g : WG} (hv : Graph.WGInv (absG m g))
include hv

theorem known_table {i : Int} {p : NPtr} (h : g.b.nodes.get? i = some p) : m.id p = i ∧ Known m g p := by
  have h1 : (absG m g).b.nodes.get? i = some (absN m p) := by
    show (g.b.nodes.mapVals (absN m)).get? i = _
    rw [GoMap.get?_mapVals, h]; rfl
  have hi : m.id p = i := hv.gonum.nodeID i (absN m p) h1
  obtain ⟨n, hn, hni⟩ := hv.ofID i (m.key p) (by unfold Graph.keyAt; rw [h1]; rfl)
  have hn' : (g.nodes.mapVals (absN m)).get? (m.key p) = some n := hn
  rw [GoMap.get?_mapVals] at hn'
  obtain ⟨p', hp', rfl⟩ := Option.map_eq_some_iff.mp hn'
  exact ⟨hi, p', hp', hni.trans hi.symm⟩

theorem known_named {k : String} {p : NPtr} (h : g.nodes.get? k = some p) : m.key p = k ∧ Known m g p := by
  have hk : m.key p = k := hv.keyOf k (absN m p) (by
    show (g.nodes.mapVals (absN m)).get? k = _
    rw [GoMap.get?_mapVals, h]; rfl)
  exact ⟨hk, p, by rw [hk]; exact h, rfl⟩

theorem stored_ends {i j : Int} (h : Has g i j) :
    (∃ p, g.b.nodes.get? i = some p) ∧ ∃ p, g.b.nodes.get? j = some p := by
  have h1 : ∃ x, (absG m g).b.weightedEdge i j = some x := by
    unfold Has stored at h
    show ∃ x, (absB m g.b).weightedEdge i j = some x
    unfold Gonum.Builder.weightedEdge absB
    cases hb : g.b.edges with
    | directed fr to =>
      rw [hb] at h
      obtain ⟨e, he⟩ := Option.isSome_iff_exists.mp h
      simp [absEdges, absAdj_at, he]
    | undirected ed =>
      rw [hb] at h
      obtain ⟨e, he⟩ := Option.isSome_iff_exists.mp h
      simp only [absEdges, absAdj_at, he, Option.map_some]
      split <;> exact ⟨_, rfl⟩
  obtain ⟨x, hx⟩ := h1
  obtain ⟨k1, k2⟩ := hv.edgeKeys i j x hx
  have hk : ∀ i k, Graph.keyAt (absG m g).b i = some k → ∃ p, g.b.nodes.get? i = some p := by
    intro i k hk
    unfold Graph.keyAt at hk
    have hk' : ((g.b.nodes.mapVals (absN m)).get? i).map Graph.Node.key = some k := hk
    rw [GoMap.get?_mapVals] at hk'
    cases hg : g.b.nodes.get? i with
    | none => rw [hg] at hk'; cases hk'
    | some p => exact ⟨p, rfl⟩
  exact ⟨hk _ _ k1, hk _ _ k2⟩

omit hv in
theorem row_has {i j : Int} {e : EPtr} : (j, e) ∈ (g.b.fromRow i).entries ↔ stored g.b i j = some e := by
  rw [← GoMap.get?_eq_some]
  unfold Builder.fromRow stored Adj.at
  cases g.b.edges <;> rfl

theorem peers_has (o : Order (Int × EPtr)) (i j : Int) : (∃ p ∈ g.b.fromNodes o i, m.id p = j) ↔ Has g i j := by
  unfold Builder.fromNodes
  constructor
  · rintro ⟨p, hp, rfl⟩
    obtain ⟨⟨k, e⟩, hk, hn⟩ := List.mem_filterMap.mp hp
    have hk := row_has.mp ((o.perm _).mem_iff.mp hk)
    rw [(known_table hv hn).1]
    unfold Has; rw [hk]; rfl
  · intro h
    obtain ⟨-, p, hp⟩ := stored_ends hv h
    obtain ⟨e, he⟩ := Option.isSome_iff_exists.mp h
    exact ⟨p, List.mem_filterMap.mpr ⟨(j, e), (o.perm _).mem_iff.mpr (row_has.mpr he), hp⟩, (known_table hv hp).1⟩

theorem weightedEdges_ne {m' : Mem} (hm : m'.nodes = m.nodes) {i : Int} {o : Order (Int × EPtr)}
    (h : g.b.fromNodes o i ≠ []) (o' : EdgeOrder) : g.b.weightedEdges m' o' ≠ [] := by
  obtain ⟨p, hp⟩ := List.exists_mem_of_ne_nil _ h
  have hh := (peers_has hv o i (m.id p)).mp ⟨p, hp, rfl⟩
  obtain ⟨e, he⟩ := Option.isSome_iff_exists.mp hh
  obtain ⟨⟨n, hn⟩, -⟩ := stored_ends hv hh
  unfold Builder.weightedEdges
  unfold stored at he
  cases hb : g.b.edges with
  | directed fr to =>
    rw [hb] at he
    have hi : m'.id n = i := by rw [id_nodes hm]; exact (known_table hv hn).1
    refine List.ne_nil_of_mem (a := e) (List.mem_flatMap.mpr ⟨(i, n), ?_, List.mem_map.mpr ⟨(m.id p, e), ?_, rfl⟩⟩)
    · exact (o'.nodes.perm _).mem_iff.mpr ((GoMap.get?_eq_some _ _ _).mp hn)
    · refine (Order.perm _ _).mem_iff.mpr ?_
      show _ ∈ (fr.row (m'.id n)).entries
      rw [hi]
      exact (GoMap.get?_eq_some _ _ _).mp he
  | undirected ed =>
    rw [hb] at he
    have hd : ∀ l : List EPtr, l ≠ [] → dedup m' l [] ≠ [] := by
      intro l hl
      cases l with
      | nil => exact absurd rfl hl
      | cons a l => simp [dedup]
    refine hd _ ?_
    have he' : ((ed.get? i).getD GoMap.empty).get? (m.id p) = some e := he
    cases hr : ed.get? i with
    | none => rw [hr] at he'; simp at he'
    | some r =>
      rw [hr] at he'
      refine List.ne_nil_of_mem (a := e) (List.mem_flatMap.mpr ⟨(i, r), ?_, List.mem_map.mpr ⟨(m.id p, e), ?_, rfl⟩⟩)
      · exact (o'.rows.perm _).mem_iff.mpr ((GoMap.get?_eq_some _ _ _).mp hr)
      · exact (Order.perm _ _).mem_iff.mpr ((GoMap.get?_eq_some _ _ _).mp he')
end

/-! ## Linking succeeds -/

theorem link_ok {m₀ m : Mem} {ns : GoMap String NPtr} {sg : WG} (hl : Lk m₀ ns m sg) (fresh : Uid) (a : Nat) {f t : Uid}
    (opts : List Opt) {p q : NPtr} (hp : ns.get? f.str = some p) (hq : ns.get? t.str = some q) (hne : m₀.id p ≠ m₀.id q) :
    ∃ e sg' m', link m sg fresh a f t opts = (.ok e, sg', m') := by
  obtain ⟨fr, to, hd⟩ := hl.directed
  rcases link_cases m sg fresh a f t opts with ⟨r, -, hr, hr', he⟩ | ⟨p', q', -, -, hp', hq', he⟩
  · unfold edge Builder.weightedEdge at hr
    rw [hl.nodes, hp, hq, hd] at hr
    simp only [] at hr
    cases hat : fr.at (m.id p) (m.id q) with
    | none => rw [hat] at hr; exact absurd hr.symm hr'
    | some e => rw [hat] at hr; subst hr; exact ⟨e, _, _, he⟩
  · rw [hl.nodes, hp] at hp'
    rw [hl.nodes, hq] at hq'
    cases hp'; cases hq'
    have hm : (makeEdge m fresh a p q opts).2.nodes = m₀.nodes := (moreEdges_makeEdge m fresh a p q opts).nodes.trans hl.mem
    have hnew := makeEdge_new m fresh a p q opts
    cases hb : sg.b.setWeightedEdge (makeEdge m fresh a p q opts).2 (makeEdge m fresh a p q opts).1 with
    | none =>
      unfold Builder.setWeightedEdge at hb
      simp only [hnew.2.2.1, id_nodes hm, hne, if_false] at hb
      cases hb
    | some b' => rw [hb] at he; exact ⟨_, _, _, he⟩

theorem linkAll_ok {m₀ : Mem} {ns : GoMap String NPtr} (ora : SubOracle) (x y : Uid) {p q : NPtr}
    (hp : ns.get? x.str = some p) (hq : ns.get? y.str = some q) (hne : m₀.id p ≠ m₀.id q) (es : List EPtr) :
    ∀ {m : Mem} {sg : WG}, Lk m₀ ns m sg → ∃ sg' m', linkAll ora x y es sg m = (.ok sg', m') := by
  induction es with
  | nil => intro m sg _; exact ⟨_, _, rfl⟩
  | cons e es ih =>
    intro m sg h
    have h0 : Lk m₀ ns { m with heap := (Attrs.newCopyFrom m.heap (ora.copy m.heap.cells.length) (m.edge e).attrs).2 } sg :=
      ⟨h.mem, h.nodes, h.directed⟩
    obtain ⟨e', sg1, m1, hr⟩ := link_ok h0 (ora.edgeUid m.heap.cells.length) 0
      [.withAttrs (some (Attrs.newCopyFrom m.heap (ora.copy m.heap.cells.length) (m.edge e).attrs).1),
        .withWeight (m.edge e).weight] hp hq hne
    obtain ⟨sg2, m2, h2⟩ := ih (link_has h0 hr hp hq).1
    refine ⟨sg2, m2, ?_⟩
    unfold linkAll
    simp only [hr, h2]

theorem linkPeers_ok {m₀ : Mem} {ns : GoMap String NPtr} (ora : SubOracle) (g : WG) {c : GoMap Int NPtr}
    (hc : Named m₀ ns c) {id : Int} {x : NPtr} (hx : c.get? id = some x) (ps : List NPtr)
    (hne : ∀ p ∈ ps, id ≠ m₀.id p) :
    ∀ {m : Mem} {sg : WG}, Lk m₀ ns m sg → ∃ sg' m', linkPeers ora g c id x ps sg m = (.ok sg', m') := by
  induction ps with
  | nil => intro m sg _; exact ⟨_, _, rfl⟩
  | cons p ps ih =>
    intro m sg h
    have ih := @ih (fun p hp => hne p (.tail _ hp))
    unfold linkPeers
    cases hto : c.get? (m.id p) with
    | none => exact ih h
    | some to =>
      simp only []
      obtain ⟨-, x', hx1, hx2⟩ := hc id x hx
      obtain ⟨-, t', ht1, ht2⟩ := hc _ to hto
      have hk : ∀ r : NPtr, (m.node r).uid.str = m₀.key r := fun r => by
        unfold Mem.key Mem.node; rw [h.mem]; rfl
      have hx3 : ns.get? (m.node x).uid.str = some x' := by rw [hk]; exact hx1
      have ht3 : ns.get? (m.node to).uid.str = some t' := by rw [hk]; exact ht1
      obtain ⟨sg1, m1, h1⟩ := linkAll_ok (m₀ := m₀) ora _ _ hx3 ht3
        (by rw [hx2, ht2, id_nodes h.mem]; exact hne p (.head _))
        (g.b.weightedEdges m (ora.edges id (m.id p))) h
      rw [h1]
      exact ih (linkAll_has ora _ _ hx3 ht3 _ h h1).1

theorem linkNodes_ok {m₀ : Mem} {ns : GoMap String NPtr} (ora : SubOracle) (g : WG) {c : GoMap Int NPtr}
    (hc : Named m₀ ns c) (hne : ∀ i o, ∀ p ∈ g.b.fromNodes o i, i ≠ m₀.id p)
    (hes : ∀ m : Mem, m.nodes = m₀.nodes → ∀ i o, g.b.fromNodes o i ≠ [] → ∀ o, g.b.weightedEdges m o ≠ [])
    (l : List (Int × NPtr)) (hl : ∀ i p, (i, p) ∈ l → c.get? i = some p) :
    ∀ {m : Mem} {sg : WG}, Lk m₀ ns m sg → ∃ sg' m', linkNodes ora g c l sg m = (.ok sg', m') := by
  induction l with
  | nil => intro m sg _; exact ⟨_, _, rfl⟩
  | cons a l ih =>
    obtain ⟨id, x⟩ := a
    intro m sg h
    have hx := hl id x (.head _)
    obtain ⟨sg1, m1, h1⟩ := linkPeers_ok (m₀ := m₀) ora g hc hx _ (hne id (ora.peers id)) h
    obtain ⟨sg2, m2, h2⟩ := ih (fun i p hi => hl i p (.tail _ hi))
      (linkPeers_has ora g hc hx _ (fun m hm hne o => hes m hm _ _ hne o) h h1).1
    refine ⟨sg2, m2, ?_⟩
    unfold linkNodes
    simp only [h1, h2]

/-- What the walk has collected. -/
structure Got (m : Mem) (g : WG) (c : Collect) : Prop where
  names : c.err = none → ∀ i p, c.nodes.get? i = some p →
    Known m g p ∧ m.id p = i ∧ ∃ p', c.sg.nodes.get? (m.key p) = some p' ∧ m.id p' = i
  back : ∀ k p, c.sg.nodes.get? k = some p → Known m g p ∧ m.key p = k ∧ (c.nodes.get? (m.id p)).isSome
  none : ∃ fr to, c.sg.b.edges = .directed fr to ∧ ∀ i j, fr.at i j = none

theorem got_collect {m : Mem} {g : WG} {c : Collect} {p : NPtr} (hp : Known m g p) (h : Got m g c) :
    Got m g (collect m c p) := by
  have hset : ∀ b : Builder, b.edges = c.sg.b.edges →
      Got m g { c with sg := { c.sg with b := b, nodes := c.sg.nodes.set (m.key p) p }, nodes := c.nodes.set (m.id p) p } := by
    intro b hb
    refine ⟨fun he i q hq => ?_, fun k q hq => ?_, ?_⟩
    · simp only [GoMap.get?_set] at hq ⊢
      by_cases hi : i = m.id p
      · rw [if_pos hi] at hq
        cases hq
        exact ⟨hp, hi.symm, p, by rw [if_pos rfl], hi.symm⟩
      · rw [if_neg hi] at hq
        obtain ⟨h1, h2, p', h3, h4⟩ := h.names he i q hq
        refine ⟨h1, h2, p', ?_, h4⟩
        rw [if_neg fun hk => hi (h2.symm.trans (known_same h1 hp hk))]
        exact h3
    · simp only [GoMap.get?_set] at hq ⊢
      by_cases hk : k = m.key p
      · rw [if_pos hk] at hq
        cases hq
        exact ⟨hp, hk.symm, by simp⟩
      · rw [if_neg hk] at hq
        obtain ⟨h1, h2, h3⟩ := h.back k q hq
        refine ⟨h1, h2, ?_⟩
        split
        · rfl
        · exact h3
    · obtain ⟨fr, to, h1, h2⟩ := h.none
      exact ⟨fr, to, hb.trans h1, h2⟩
  unfold collect addNode
  cases hb : c.sg.b.nodes.get? (m.id p) with
  | some _ =>
    simp only []
    cases c.sg.nodes.get? (m.key p) with
    | some _ => exact ⟨fun he => (nomatch he), h.back, h.none⟩
    | none => exact hset c.sg.b rfl
  | none =>
    simp only [Builder.addNode, hb]
    exact hset _ rfl

theorem got_walk {ora : SubOracle} {m : Mem} {g : WG} (hv : Graph.WGInv (absG m g)) {u : Uid} {depth : Int}
    {opts : List Opt} {root : NPtr} (hroot : g.nodes.get? u.str = some root) {w : Bfs Collect}
    (hw : Bfs.walk m g.b ora.bfs (collect m) (fun _ d => d == depth) root
      ⟨new true ora.graphUid opts, GoMap.empty, none⟩ = some w) : Got m g w.acc := by
  have h0 : Got m g ⟨new true ora.graphUid opts, GoMap.empty, none⟩ := by
    refine ⟨fun _ i p hp => ?_, fun k p hp => ?_, GoMap.empty, GoMap.empty, rfl, fun i j => ?_⟩
    · simp at hp
    · simp [new] at hp
    · simp [Adj.at, Adj.row]
  exact bfs_inv (Got m g) (Known m g) m g.b (fun i p hi => (known_table hv hi).2) ora.bfs
    (collect m) (fun c p => got_collect) _ _ (w := ⟨[root], [m.id root], 0, 0, 1, _⟩)
    (got_collect (known_named hv hroot).2 h0) hw

theorem no_loop {m : Mem} {g : WG} (hv : Graph.WGInv (absG m g)) {i : Int} (h : Has g i i) : False := by
  have hi := hv.gonum.edges
  unfold Has stored at h
  revert hi
  show Gonum.EdgesInv _ (absEdges m g.b.edges) → False
  cases hb : g.b.edges with
  | directed fr to =>
    rw [hb] at h
    simp only [] at h
    obtain ⟨e, he⟩ := Option.isSome_iff_exists.mp h
    intro hi
    exact (hi.2 i i (absE m e) (by rw [absAdj_at, he]; rfl)).2.2.1 rfl
  | undirected ed =>
    rw [hb] at h
    simp only [] at h
    obtain ⟨e, he⟩ := Option.isSome_iff_exists.mp h
    intro hi
    exact (hi.2 i i (absE m e) (by rw [absAdj_at, he]; rfl)).2.1 rfl

/-- The sub graph over objects is made when one over values is. -/
theorem subGraph_ok (ora : SubOracle) {m : Mem} {g : WG} (hv : Graph.WGInv (absG m g)) (u : Uid) (depth : Int)
    (opts : List Opt) (hval : ∀ ora', ∃ sg' h', Graph.subGraph ora' m.heap (absG m g) u depth opts = (.ok sg', h')) :
    ∃ sg m', subGraph ora m g u depth opts = (.ok sg, m') := by
  obtain ⟨sg', h', h2⟩ := hval ⟨ora.graphUid, absOrd m g.b ora.bfs, Order.id, fun _ => Order.id,
    fun _ _ => Gonum.EdgeOrder.id, ora.copy, ora.edgeUid⟩
  unfold Graph.subGraph at h2
  unfold subGraph
  have hn : (absG m g).nodes.get? u.str = (g.nodes.get? u.str).map (absN m) := GoMap.get?_mapVals ..
  rw [hn] at h2
  cases hroot : g.nodes.get? u.str with
  | none => rw [hroot] at h2; cases h2
  | some root =>
    rw [hroot] at h2
    simp only [Option.map_some] at h2 ⊢
    have hw := absW_walk (absC_collect m) g.b ora.bfs (fun d => d == depth) root ⟨new true ora.graphUid opts, GoMap.empty, none⟩
    have hc : absC m ⟨new true ora.graphUid opts, GoMap.empty, none⟩ = ⟨Graph.new true ora.graphUid opts, GoMap.empty, none⟩ := by
      unfold absC; rw [absG_new]; rfl
    rw [hc] at hw
    rw [show (absG m g).b = absB m g.b from rfl, hw] at h2
    cases hwalk : Bfs.walk m g.b ora.bfs (collect m) (fun _ d => d == depth) root ⟨new true ora.graphUid opts, GoMap.empty, none⟩ with
    | none => rw [hwalk] at h2; cases h2
    | some w =>
      rw [hwalk] at h2
      simp only [Option.map_some] at h2 ⊢
      have he : (absW m (absC m) w).acc.err = w.acc.err := rfl
      rw [he] at h2
      cases herr : w.acc.err with
      | some e => rw [herr] at h2; cases h2
      | none =>
        have hg := got_walk hv hroot hwalk
        obtain ⟨fr, to, hd, -⟩ := hg.none
        exact linkNodes_ok (m₀ := m) (ns := w.acc.sg.nodes) ora g (c := w.acc.nodes)
          (fun i p hi => (hg.names herr i p hi).2)
          (fun i o p hp hi => no_loop hv ((peers_has hv o i i).mp ⟨p, hp, hi.symm⟩))
          (fun m1 hm i o hne o' => weightedEdges_ne hv hm hne o') _
          (fun i p hi => (GoMap.get?_eq_some _ _ _).mpr ((ora.nodes.perm _).mem_iff.mp hi)) ⟨rfl, rfl, fr, to, hd⟩

/-- The edges of the sub graph over objects. -/
theorem subGraph_links {ora : SubOracle} {m : Mem} {g : WG} (hv : Graph.WGInv (absG m g)) {u : Uid} {depth : Int}
    {opts : List Opt} {sg : WG} {m' : Mem} (h : subGraph ora m g u depth opts = (.ok sg, m')) (x y : Uid) :
    (∃ e, (edge m' sg x y).1 = .ok e) ↔
      (∃ p, node sg x = .ok p) ∧ (∃ p, node sg y = .ok p) ∧ ∃ e, (edge m g x y).1 = .ok e := by
  unfold subGraph at h
  cases hroot : g.nodes.get? u.str with
  | none => rw [hroot] at h; cases h
  | some root =>
    rw [hroot] at h
    simp only [] at h
    cases hw : Bfs.walk m g.b ora.bfs (collect m) (fun _ d => d == depth) root ⟨new true ora.graphUid opts, GoMap.empty, none⟩ with
    | none => rw [hw] at h; cases h
    | some w =>
      rw [hw] at h
      simp only [] at h
      cases herr : w.acc.err with
      | some e => rw [herr] at h; cases h
      | none =>
        rw [herr] at h
        have hg := got_walk hv hroot hw
        obtain ⟨fr, to, hd, hnone⟩ := hg.none
        obtain ⟨hl, hH⟩ := linkNodes_has (m₀ := m) (ns := w.acc.sg.nodes) ora g (c := w.acc.nodes)
          (fun i p hi => (hg.names herr i p hi).2) (fun m1 hm i o hne o' => weightedEdges_ne hv hm hne o') _
          (fun i p hi => (GoMap.get?_eq_some _ _ _).mpr ((ora.nodes.perm _).mem_iff.mp hi)) ⟨rfl, rfl, fr, to, hd⟩ h
        have hH' : ∀ i j, Has sg i j ↔ (w.acc.nodes.get? i).isSome ∧ Has g i j ∧ (w.acc.nodes.get? j).isSome := by
          intro i j
          rw [hH, peers_has hv]
          have h1 : ¬ Has w.acc.sg i j := by unfold Has stored; rw [hd]; simp [hnone]
          have h2 : (∃ p, (i, p) ∈ ora.nodes.run w.acc.nodes.entries) ↔ (w.acc.nodes.get? i).isSome := by
            rw [Option.isSome_iff_exists]
            exact exists_congr fun p => (ora.nodes.perm _).mem_iff.trans (GoMap.get?_eq_some _ _ _).symm
          rw [h2]
          exact ⟨fun h => h.resolve_left h1, .inr⟩
        have hn : ∀ z : Uid, (∃ p, node sg z = .ok p) ↔ ∃ p, w.acc.sg.nodes.get? z.str = some p := by
          intro z
          unfold node
          rw [hl.nodes]
          cases w.acc.sg.nodes.get? z.str <;> simp
        rw [hn, hn, edge_has, edge_has, hl.nodes]
        constructor
        · rintro ⟨f, t, hf, ht, hh⟩
          rw [id_nodes hl.mem, id_nodes hl.mem] at hh
          obtain ⟨⟨f', hf1, hf2⟩, hf3, -⟩ := hg.back _ _ hf
          obtain ⟨⟨t', ht1, ht2⟩, ht3, -⟩ := hg.back _ _ ht
          refine ⟨⟨f, hf⟩, ⟨t, ht⟩, f', t', hf3 ▸ hf1, ht3 ▸ ht1, ?_⟩
          rw [hf2, ht2]
          exact ((hH' _ _).mp hh).2.1
        · rintro ⟨⟨f, hf⟩, ⟨t, ht⟩, f0, t0, hf0, ht0, hh⟩
          obtain ⟨⟨f', hf1, hf2⟩, hf3, hf4⟩ := hg.back _ _ hf
          obtain ⟨⟨t', ht1, ht2⟩, ht3, ht4⟩ := hg.back _ _ ht
          rw [hf3, hf0] at hf1
          rw [ht3, ht0] at ht1
          cases hf1; cases ht1
          refine ⟨f, t, hf, ht, ?_⟩
          rw [id_nodes hl.mem, id_nodes hl.mem]
          exact (hH' _ _).mpr ⟨hf4, by rw [← hf2, ← ht2]; exact hh, ht4⟩

end Netscrape.GraphPtr
