import Verif.Lemmas.Bfs
import Verif.Lemmas.Attrs
import Verif.Props.Edge

/-!
# The two phases of SubGraph
-/

namespace Netscrape.Graph
open Netscrape.Spec.Graph
open Netscrape.Gonum (Builder EdgeOrder Bfs)

/-! ## Collecting nodes -/

/-- What `visit` has built after visiting the nodes of `vs`. -/
structure Collected (h : Heap) (c : Collect) (vs : List Node) : Prop where
  reach : Reach NoReplace true ⟨h, c.sg⟩
  noErr : c.err = none
  nodes : ∀ i m, c.nodes.get? i = some m ↔ m ∈ vs ∧ m.id = i
  sgNodes : ∀ k m, c.sg.nodes.get? k = some m ↔ m ∈ vs ∧ m.key = k
  noEdge : ∀ a b, c.sg.b.weightedEdge a b = none

theorem collected_step {h : Heap} {c : Collect} {vs : List Node} (hc : Collected h c vs) (n : Node)
    (hid : n.id ∉ vs.map Node.id) (hkey : n.key ∉ vs.map Node.key) :
    Collected h (collect c n) (vs ++ [n]) := by
  have hfit : Fits c.sg n := by
    intro u m hm
    have hinv := (wgExact_reach hc.reach).inv
    have hm' := (hc.sgNodes _ _).mp ((hinv.node_eq u m).mp hm)
    constructor
    · intro hk
      exact absurd (List.mem_map.mpr ⟨m, hm'.1, hk⟩) hkey
    · intro hi
      exact absurd (List.mem_map.mpr ⟨m, hm'.1, hi⟩) hid
  have hreach := Reach.step (allowed := NoReplace) (directed := true) ⟨h, c.sg⟩ (.addNode n [])
    hc.reach ⟨hfit, by simp⟩
  have hbn : c.sg.b.nodes.get? n.id = none := by
    cases hb : c.sg.b.nodes.get? n.id with
    | none => rfl
    | some m =>
      have hx := wgExact_reach hc.reach
      have hmi := hx.inv.gonum.nodeID _ _ hb
      have hm' := (hc.sgNodes _ _).mp ((hx.same m).mpr (by rw [hmi]; exact hb))
      exact absurd (List.mem_map.mpr ⟨m, hm'.1, hmi⟩) hid
  have hadd : ∃ b', c.sg.b.addNode n = some b' := by
    unfold Gonum.Builder.addNode; rw [hbn]; exact ⟨_, rfl⟩
  obtain ⟨b', hb'⟩ := hadd
  have haddNode : addNode c.sg n [] =
      (.ok (), { c.sg with b := b', nodes := c.sg.nodes.set n.key n }) := by
    unfold addNode Gonum.Builder.node?
    rw [hbn]
    simp only [hb']
  simp only [step, haddNode] at hreach
  have hcol : collect c n = { c with sg := { c.sg with b := b', nodes := c.sg.nodes.set n.key n },
                                     nodes := c.nodes.set n.id n } := by
    unfold collect; rw [haddNode]
  rw [hcol]
  refine ⟨hreach, hc.noErr, ?_, ?_, ?_⟩
  · intro i m
    simp only [GoMap.get?_set, List.mem_append, List.mem_singleton]
    split
    · rename_i hi
      constructor
      · intro h; cases h; exact ⟨Or.inr rfl, hi.symm⟩
      · rintro ⟨hm | rfl, hmi⟩
        · exact absurd (List.mem_map.mpr ⟨m, hm, hmi.trans hi⟩) hid
        · rfl
    · rename_i hi
      rw [hc.nodes]
      constructor
      · rintro ⟨h1, h2⟩; exact ⟨Or.inl h1, h2⟩
      · rintro ⟨hm | rfl, hmi⟩
        · exact ⟨hm, hmi⟩
        · exact absurd hmi.symm hi
  · intro k m
    simp only [GoMap.get?_set, List.mem_append, List.mem_singleton]
    split
    · rename_i hi
      constructor
      · intro h; cases h; exact ⟨Or.inr rfl, hi.symm⟩
      · rintro ⟨hm | rfl, hmi⟩
        · exact absurd (List.mem_map.mpr ⟨m, hm, hmi.trans hi⟩) hkey
        · rfl
    · rename_i hi
      rw [hc.sgNodes]
      constructor
      · rintro ⟨h1, h2⟩; exact ⟨Or.inl h1, h2⟩
      · rintro ⟨hm | rfl, hmi⟩
        · exact ⟨hm, hmi⟩
        · exact absurd hmi.symm hi
  · intro a b
    exact (Gonum.weightedEdge_congr (Gonum.addNode_eq hb').2.1 a b).trans (hc.noEdge a b)

theorem collected_foldl {h : Heap} (ns : List Node) : ∀ {c : Collect} {vs : List Node},
    Collected h c vs → ((vs ++ ns).map Node.id).Nodup → ((vs ++ ns).map Node.key).Nodup →
    Collected h (ns.foldl collect c) (vs ++ ns) := by
  induction ns with
  | nil => intro c vs hc _ _; simpa using hc
  | cons n ns ih =>
    intro c vs hc hid hkey
    have happ : vs ++ n :: ns = (vs ++ [n]) ++ ns := by simp
    have hone : ∀ {β : Type} (f : Node → β), ((vs ++ n :: ns).map f).Nodup → f n ∉ vs.map f := by
      intro β f hf hmem
      rw [List.map_append, List.nodup_append] at hf
      exact hf.2.2 _ hmem _ List.mem_cons_self rfl
    rw [happ] at hid hkey ⊢
    refine ih (collected_step hc n ?_ ?_) hid hkey
    · rw [← happ] at hid; exact hone _ hid
    · rw [← happ] at hkey; exact hone _ hkey

theorem collected_new (h : Heap) (u : Uid) (opts : List Opt) :
    Collected h ⟨new true u opts, GoMap.empty, none⟩ [] := by
  refine ⟨Reach.init _ _ _, rfl, ?_, ?_, ?_⟩
  · intro i m; simp
  · intro k m; simp [new, newWG]
  · intro a b
    simp [new, newWG, Gonum.Builder.weightedEdge, Gonum.newDirected]

/-! ## Linking -/

theorem inj_of_nodup_map {α β : Type} (f : α → β) {l : List α} (h : (l.map f).Nodup) :
    ∀ a ∈ l, ∀ b ∈ l, f a = f b → a = b := by
  induction l with
  | nil => simp
  | cons c l ih =>
    rw [List.map_cons, List.nodup_cons] at h
    intro a ha b hb hab
    rcases List.mem_cons.mp ha with rfl | ha' <;> rcases List.mem_cons.mp hb with rfl | hb'
    · rfl
    · exact absurd (List.mem_map.mpr ⟨b, hb', hab.symm⟩) h.1
    · exact absurd (List.mem_map.mpr ⟨a, ha', hab⟩) h.1
    · exact ih h.2 a ha' b hb' hab

theorem edge_str {g : WG} {p q x y : Uid} (hp : p.str = x.str) (hq : q.str = y.str) :
    edge g p q = edge g x y := by
  unfold edge; rw [hp, hq]

theorem linkAll_spec (ora : SubOracle) (x y : Uid) (hne : x.str ≠ y.str) (es : List Edge) :
    ∀ (sg : WG) (h : Heap), Reach NoReplace true ⟨h, sg⟩ → (∃ n, node sg x = .ok n) →
      (∃ n, node sg y = .ok n) →
    ∃ sg' h', linkAll ora x y es sg h = (.ok sg', h') ∧ Reach NoReplace true ⟨h', sg'⟩ ∧
      h'.Extends h ∧ (∀ u, node sg' u = node sg u) ∧
      (∀ p q : Uid, ¬ (p.str = x.str ∧ q.str = y.str) → edge sg' p q = edge sg p q) ∧
      (∀ e, edge sg x y = .ok e → edge sg' x y = .ok e) ∧
      ((∀ e, edge sg x y ≠ .ok e) → ∀ e₀ rest, es = e₀ :: rest →
        ∃ e, edge sg' x y = .ok e ∧ e.weight = e₀.weight ∧ ¬ h.Valid e.attrs ∧
          h'.Valid e.attrs ∧ ∀ k, (h'.read e.attrs).get? k = (h.read e₀.attrs).get? k) := by
  induction es with
  | nil =>
    intro sg h hr _ _
    exact ⟨sg, h, rfl, hr, Heap.Extends.refl h, fun _ => rfl, fun _ _ _ => rfl, fun _ he => he,
      fun _ e₀ rest h => by cases h⟩
  | cons e₀ es ih =>
    intro sg h hr hx hy
    obtain ⟨nx, hnx⟩ := hx
    obtain ⟨ny, hny⟩ := hy
    have hr1 : Reach NoReplace true
        ⟨(Attrs.newCopyFrom h (ora.copy h.cells.length) e₀.attrs).2, sg⟩ :=
      Reach.step (allowed := NoReplace) ⟨h, sg⟩
        (.env (Attrs.newCopyFrom h (ora.copy h.cells.length) e₀.attrs).2) hr trivial
    have hext1 : (Attrs.newCopyFrom h (ora.copy h.cells.length) e₀.attrs).2.Extends h :=
      Heap.Extends.alloc _ _
    have hread : ∀ k, ((Attrs.newCopyFrom h (ora.copy h.cells.length) e₀.attrs).2.read
        (Attrs.newCopyFrom h (ora.copy h.cells.length) e₀.attrs).1).get? k =
        (h.read e₀.attrs).get? k := by
      intro k
      unfold Attrs.newCopyFrom
      rw [Heap.read_alloc_new, Attrs.get?_copyLoop]
    have hvalid : (Attrs.newCopyFrom h (ora.copy h.cells.length) e₀.attrs).2.Valid
        (Attrs.newCopyFrom h (ora.copy h.cells.length) e₀.attrs).1 := Heap.valid_alloc_new _ _
    have hfresh : ¬ h.Valid (Attrs.newCopyFrom h (ora.copy h.cells.length) e₀.attrs).1 :=
      Heap.alloc_fresh _ _
    unfold linkAll
    generalize hc : Attrs.newCopyFrom h (ora.copy h.cells.length) e₀.attrs = c at *
    obtain ⟨a, h1⟩ := c
    simp only at hr1 hext1 hread hvalid hfresh ⊢
    obtain ⟨-, hex, hnew⟩ := Props.c19_link (hr1.mono NoReplace.disciplined)
      (ora.edgeUid h.cells.length) 0 x y hne [.withAttrs (some a), .withWeight e₀.weight]
    simp only at hex hnew
    by_cases hedge : ∃ e, edge sg x y = .ok e
    · obtain ⟨e, he⟩ := hedge
      rw [hex e he]
      obtain ⟨sg', h', i1, i2, i3, i4, i5, i6, -⟩ := ih sg h1 hr1 ⟨nx, hnx⟩ ⟨ny, hny⟩
      refine ⟨sg', h', i1, i2, i3.trans hext1, i4, i5, i6, ?_⟩
      intro hno
      exact absurd he (hno e)
    · have hno : ∀ e, edge sg x y ≠ .ok e := fun e he => hedge ⟨e, he⟩
      obtain ⟨e, sg2, h2, hl, -, -, hw, hattrs, hE, -, hN, hO⟩ := hnew nx ny hnx hny hno
      have hat : attrsOption [Opt.withAttrs (some a), Opt.withWeight e₀.weight] = some a := rfl
      rw [hat] at hattrs
      obtain ⟨hea, rfl⟩ := hattrs
      have hr2 : Reach NoReplace true ⟨h2, sg2⟩ := by
        have := Reach.step (allowed := NoReplace) ⟨h2, sg⟩
          (.link (ora.edgeUid h.cells.length) 0 x y
            [.withAttrs (some a), .withWeight e₀.weight]) hr1 trivial
        simp only [step, hl] at this
        exact this
      rw [hl]
      obtain ⟨sg', h', i1, i2, i3, i4, i5, i6, -⟩ := ih sg2 h2 hr2
        ⟨nx, (hN x).trans hnx⟩ ⟨ny, (hN y).trans hny⟩
      refine ⟨sg', h', i1, i2, i3.trans hext1, fun u => (i4 u).trans (hN u), ?_, ?_, ?_⟩
      · intro p q hpq
        rw [i5 p q hpq]
        exact hO p q hpq (by simp)
      · intro e' he'; exact absurd he' (hno e')
      · intro _ e₀' rest hes
        cases hes
        refine ⟨e, i6 e hE, ?_, ?_, ?_, ?_⟩
        · rw [hw]; rfl
        · rw [hea]; exact hfresh
        · rw [hea]; exact i3.valid hvalid
        · intro k
          rw [hea, i3.read hvalid, hread]

/-- What the linking phase keeps true of the subgraph under construction: `h₀`, `sg₀` are the heap and
the unlinked subgraph at its start, `vs` the collected nodes, `g` the source. -/
structure Linking (g : WG) (vs : List Node) (h₀ : Heap) (sg₀ : WG) (sg : WG) (h : Heap) : Prop where
  reach : Reach NoReplace true ⟨h, sg⟩
  ext : h.Extends h₀
  node : ∀ u, node sg u = node sg₀ u
  edge : ∀ p q e, edge sg p q = .ok e →
    (∃ x ∈ vs, ∃ y ∈ vs, x.key = p.str ∧ y.key = q.str ∧ (g.b.weightedEdge x.id y.id).isSome) ∧
    ¬ h₀.Valid e.attrs ∧ h.Valid e.attrs ∧
    ∃ o, ∃ e₀ ∈ edgesList g o, e.weight = e₀.weight ∧
      (h₀.Valid e₀.attrs → ∀ k, (h.read e.attrs).get? k = (h₀.read e₀.attrs).get? k)

/-- The pair is linked in `sg`. -/
def Done (sg : WG) (x y : Node) : Prop := ∃ e, edge sg x.uid y.uid = .ok e

theorem linkPeers_spec {ora : SubOracle} {g : WG} (hg : Gonum.Inv g.b) {vs : List Node} {h₀ : Heap}
    {sg₀ : WG} {c : Collect} (hids : (vs.map Node.id).Nodup) (hkeys : (vs.map Node.key).Nodup)
    (hcol : Collected h₀ c vs) (hsg : sg₀ = c.sg) (x : Node) (hx : x ∈ vs)
    (ps : List Node) (hps : ∀ p ∈ ps, (g.b.weightedEdge x.id p.id).isSome) :
    ∀ (sg : WG) (h : Heap), Linking g vs h₀ sg₀ sg h →
    ∃ sg' h', linkPeers ora g c.nodes x.id x ps sg h = (.ok sg', h') ∧
      Linking g vs h₀ sg₀ sg' h' ∧ (∀ a b, Done sg a b → Done sg' a b) ∧
      ∀ p ∈ ps, ∀ y ∈ vs, y.id = p.id → Done sg' x y := by
  have hinj : ∀ {β : Type} (f : Node → β), (vs.map f).Nodup → ∀ a ∈ vs, ∀ b ∈ vs, f a = f b →
      a = b := fun f hf => inj_of_nodup_map f hf
  induction ps with
  | nil =>
    intro sg h hl
    exact ⟨sg, h, rfl, hl, fun _ _ hd => hd, by simp⟩
  | cons p ps ih =>
    intro sg h hl
    have ih' := ih (fun p hp => hps p (List.mem_cons_of_mem _ hp))
    unfold linkPeers
    cases hto : c.nodes.get? p.id with
    | none =>
      simp only
      obtain ⟨sg', h', i1, i2, i3, i4⟩ := ih' sg h hl
      refine ⟨sg', h', i1, i2, i3, ?_⟩
      intro q hq y hy hyq
      rcases List.mem_cons.mp hq with rfl | hq
      · rw [(hcol.nodes _ y).mpr ⟨hy, hyq⟩] at hto; cases hto
      · exact i4 q hq y hy hyq
    | some to =>
      simp only
      obtain ⟨hto1, hto2⟩ := (hcol.nodes _ _).mp hto
      have hS : (g.b.weightedEdge x.id to.id).isSome := by
        rw [hto2]; exact hps p List.mem_cons_self
      obtain ⟨e, he⟩ := Option.isSome_iff_exists.mp hS
      have hidne : x.id ≠ to.id := (Gonum.weightedEdge_ends hg he).2.2.ne
      have hkne : x.uid.str ≠ to.uid.str := by
        intro hk
        exact hidne (by rw [hinj Node.key hkeys x hx to hto1 hk])
      have hnode : ∀ m ∈ vs, ∃ n, node sg m.uid = .ok n := by
        intro m hm
        refine ⟨m, ?_⟩
        rw [hl.node, hsg]
        unfold node
        have := (hcol.sgNodes m.uid.str m).mpr ⟨hm, rfl⟩
        rw [this]
      obtain ⟨sg1, h1, l1, l2, l3, l4, l5, l6, l7⟩ := linkAll_spec ora x.uid to.uid hkne
        (g.b.weightedEdges (ora.edges x.id p.id)) sg h hl.reach (hnode x hx) (hnode to hto1)
      rw [l1]
      simp only
      have hdone : ∀ a b, Done sg a b → Done sg1 a b := by
        rintro a b ⟨e', he'⟩
        by_cases hab : a.uid.str = x.uid.str ∧ b.uid.str = to.uid.str
        · refine ⟨e', ?_⟩
          rw [edge_str hab.1 hab.2]
          exact l6 e' (by rw [← edge_str hab.1 hab.2]; exact he')
        · exact ⟨e', by rw [l5 _ _ hab]; exact he'⟩
      -- the edge list is not empty
      obtain ⟨e₀, rest, hes⟩ : ∃ e₀ rest, g.b.weightedEdges (ora.edges x.id p.id) = e₀ :: rest := by
        cases hes : g.b.weightedEdges (ora.edges x.id p.id) with
        | cons e₀ rest => exact ⟨e₀, rest, rfl⟩
        | nil =>
          exfalso
          rcases Gonum.weightedEdges_complete hg (ora.edges x.id p.id) he with h | ⟨-, h⟩ <;>
            rw [hes] at h <;> cases h
      have hdone1 : Done sg1 x to := by
        by_cases hex : ∃ e', edge sg x.uid to.uid = .ok e'
        · obtain ⟨e', he'⟩ := hex
          exact ⟨e', l6 e' he'⟩
        · obtain ⟨e', he', -⟩ := l7 (fun e' he' => hex ⟨e', he'⟩) e₀ rest hes
          exact ⟨e', he'⟩
      have hl1 : Linking g vs h₀ sg₀ sg1 h1 := by
        refine ⟨l2, l3.trans hl.ext, fun u => (l4 u).trans (hl.node u), ?_⟩
        intro a b e' he'
        have hold : edge sg a b = .ok e' →
            (∃ x ∈ vs, ∃ y ∈ vs, x.key = a.str ∧ y.key = b.str ∧
              (g.b.weightedEdge x.id y.id).isSome) ∧
            ¬ h₀.Valid e'.attrs ∧ h1.Valid e'.attrs ∧
            ∃ o, ∃ e₀ ∈ edgesList g o, e'.weight = e₀.weight ∧
              (h₀.Valid e₀.attrs →
                ∀ k, (h1.read e'.attrs).get? k = (h₀.read e₀.attrs).get? k) := by
          intro hold
          obtain ⟨q1, q2, q3, o, f, hf, q4, q5⟩ := hl.edge a b e' hold
          exact ⟨q1, q2, l3.valid q3, o, f, hf, q4, fun hv k => by rw [l3.read q3, q5 hv k]⟩
        by_cases hab : a.str = x.uid.str ∧ b.str = to.uid.str
        · by_cases hex : ∃ e'', edge sg x.uid to.uid = .ok e''
          · obtain ⟨e'', he''⟩ := hex
            have h2 := l6 e'' he''
            rw [edge_str hab.1 hab.2, h2] at he'
            cases he'
            exact hold (by rw [edge_str hab.1 hab.2]; exact he'')
          · obtain ⟨e'', he'', r1, r2, r3, r4⟩ := l7 (fun e' he' => hex ⟨e', he'⟩) e₀ rest hes
            rw [edge_str hab.1 hab.2, he''] at he'
            cases he'
            refine ⟨⟨x, hx, to, hto1, hab.1.symm, hab.2.symm, hS⟩, ?_, r3, ora.edges x.id p.id, e₀,
              ?_, r1, ?_⟩
            · intro hv; exact r2 (hl.ext.valid hv)
            · unfold edgesList; rw [hes]; exact List.mem_cons_self
            · intro hv k
              rw [r4, hl.ext.read hv]
        · rw [l5 a b hab] at he'
          exact hold he'
      obtain ⟨sg', h', i1, i2, i3, i4⟩ := ih' sg1 h1 hl1
      refine ⟨sg', h', i1, i2, fun a b hd => i3 a b (hdone a b hd), ?_⟩
      intro q hq y hy hyq
      rcases List.mem_cons.mp hq with rfl | hq
      · have : y = to := hinj Node.id hids y hy to hto1 (hyq.trans hto2.symm)
        subst this
        exact i3 _ _ hdone1
      · exact i4 q hq y hy hyq

theorem linkNodes_spec {ora : SubOracle} {g : WG} (hg : Gonum.Inv g.b) {vs : List Node} {h₀ : Heap}
    {sg₀ : WG} {c : Collect} (hids : (vs.map Node.id).Nodup) (hkeys : (vs.map Node.key).Nodup)
    (hcol : Collected h₀ c vs) (hsg : sg₀ = c.sg) (l : List (Int × Node))
    (hlist : ∀ kx ∈ l, kx.2 ∈ vs ∧ kx.2.id = kx.1) :
    ∀ (sg : WG) (h : Heap), Linking g vs h₀ sg₀ sg h →
    ∃ sg' h', linkNodes ora g c.nodes l sg h = (.ok sg', h') ∧
      Linking g vs h₀ sg₀ sg' h' ∧ (∀ a b, Done sg a b → Done sg' a b) ∧
      ∀ kx ∈ l, ∀ y ∈ vs, (g.b.weightedEdge kx.1 y.id).isSome → Done sg' kx.2 y := by
  induction l with
  | nil =>
    intro sg h hl
    exact ⟨sg, h, rfl, hl, fun _ _ hd => hd, by simp⟩
  | cons kx l ih =>
    intro sg h hl
    obtain ⟨i, x⟩ := kx
    obtain ⟨hx, hxi⟩ := hlist (i, x) List.mem_cons_self
    simp only at hx hxi
    subst hxi
    obtain ⟨sg1, h1, p1, p2, p3, p4⟩ := linkPeers_spec (ora := ora) hg hids hkeys hcol hsg x hx
      (g.b.fromNodes (ora.peers x.id) x.id)
      (fun p hp => ((Gonum.mem_fromNodes hg _ _ _).mp hp).2) sg h hl
    obtain ⟨sg', h', i1, i2, i3, i4⟩ := ih (fun kx hk => hlist kx (List.mem_cons_of_mem _ hk))
      sg1 h1 p2
    refine ⟨sg', h', ?_, i2, fun a b hd => i3 a b (p3 a b hd), ?_⟩
    · unfold linkNodes
      simp only [p1]
      exact i1
    · intro kx hk y hy hS
      rcases List.mem_cons.mp hk with rfl | hk
      · obtain ⟨e, he⟩ := Option.isSome_iff_exists.mp hS
        obtain ⟨m, hm⟩ := (Gonum.weightedEdge_ends hg he).2.2.right
        have hmi := hg.nodeID _ _ hm
        refine i3 _ _ (p4 m ?_ y hy hmi.symm)
        exact (Gonum.mem_fromNodes hg _ _ _).mpr ⟨by rw [hmi]; exact hm, by rw [hmi]; exact hS⟩
      · exact i4 kx hk y hy hS

/-- The whole call, for a disciplined source: it succeeds with a graph that holds the visited nodes
`vs`, among them the root, and links exactly those linked in the source. -/
theorem subGraph_spec_root {d : Bool} {s : St} (hr : Reach Disciplined d s) (ora : SubOracle) (u : Uid)
    (depth : Int) (opts : List Opt) (root : Node) (hroot : node s.g u = .ok root) :
    ∃ (sg : WG) (h' : Heap) (vs : List Node), subGraph ora s.heap s.g u depth opts = (.ok sg, h') ∧
      (vs.map Node.id).Nodup ∧ (vs.map Node.key).Nodup ∧
      (∀ m ∈ vs, m = root ∨ s.g.b.nodes.get? m.id = some m) ∧
      (∀ m ∈ vs, keyAt s.g.b m.id = some m.key) ∧
      (∀ i, i ∈ vs.map Node.id ↔
        ∃ k : Nat, (depth < 0 ∨ (k : Int) ≤ depth) ∧ Gonum.Within s.g.b root.id k i) ∧
      (∀ v m, node sg v = .ok m ↔ m ∈ vs ∧ m.uid.str = v.str) ∧
      Reach NoReplace true ⟨h', sg⟩ ∧ h'.Extends s.heap ∧
      (∀ x ∈ vs, ∀ y ∈ vs, (s.g.b.weightedEdge x.id y.id).isSome → Done sg x y) ∧
      (∀ p q e, edge sg p q = .ok e →
        (∃ x ∈ vs, ∃ y ∈ vs, x.key = p.str ∧ y.key = q.str ∧
          (s.g.b.weightedEdge x.id y.id).isSome) ∧
        ¬ s.heap.Valid e.attrs ∧ h'.Valid e.attrs ∧
        ∃ o, ∃ e₀ ∈ edgesList s.g o, e.weight = e₀.weight ∧
          (s.heap.Valid e₀.attrs →
            ∀ k, (h'.read e.attrs).get? k = (s.heap.read e₀.attrs).get? k)) ∧
      root ∈ vs := by
  have hinv := wgInv_reach hr
  have hroot' := (hinv.node_eq _ _).mp hroot
  obtain ⟨w, vs, hwalk, hacc, hids, ⟨tl, htl, hreg⟩, hmem⟩ := Gonum.walk_spec hinv.gonum ora.bfs
    collect root ⟨new true ora.graphUid opts, GoMap.empty, none⟩ depth
  have hvs : ∀ m ∈ vs, m = root ∨ s.g.b.nodes.get? m.id = some m := by
    intro m hm
    rw [htl] at hm
    rcases List.mem_cons.mp hm with rfl | hm
    · exact Or.inl rfl
    · exact Or.inr (hreg m hm)
  have hkeyAt : ∀ m ∈ vs, keyAt s.g.b m.id = some m.key := by
    intro m hm
    rcases hvs m hm with rfl | hm'
    · rw [hinv.toID _ _ hroot', hinv.keyOf _ _ hroot']
    · simp [keyAt, hm']
  have hkeys : (vs.map Node.key).Nodup := by
    rw [List.nodup_iff_pairwise_ne, List.pairwise_map]
    have := List.Pairwise.of_map (f := Node.id) (S := (· ≠ ·)) (R := fun a b : Node => a.id ≠ b.id)
      (fun a b hab => hab) hids
    refine List.Pairwise.imp_of_mem ?_ this
    intro a b ha hb hab hk
    obtain ⟨m, hm, hid⟩ := hinv.ofID _ _ (hkeyAt a ha)
    obtain ⟨m', hm', hid'⟩ := hinv.ofID _ _ (hkeyAt b hb)
    rw [hk, hm'] at hm
    cases hm
    exact hab (hid.symm.trans hid')
  have hcol : Collected s.heap w.acc vs := by
    rw [hacc]
    have := collected_foldl vs (collected_new s.heap ora.graphUid opts) (by simpa using hids)
      (by simpa using hkeys)
    simpa using this
  have hnoEdge : ∀ p q e, edge w.acc.sg p q ≠ .ok e := by
    intro p q e he
    obtain ⟨f, t, -, -, hw⟩ := edge_ok.mp he
    rw [hcol.noEdge] at hw
    cases hw
  have hl0 : Linking s.g vs s.heap w.acc.sg w.acc.sg s.heap :=
    ⟨hcol.reach, Heap.Extends.refl _, fun _ => rfl, fun p q e he => absurd he (hnoEdge p q e)⟩
  obtain ⟨sg, h', l1, l2, -, l4⟩ := linkNodes_spec (ora := ora) hinv.gonum hids hkeys hcol rfl
    (ora.nodes.run w.acc.nodes.entries) (by
      intro kx hk
      have hk' : (kx.1, kx.2) ∈ w.acc.nodes.entries := by simpa using hk
      exact (hcol.nodes _ _).mp ((GoMap.get?_eq_some _ _ _).mpr hk')) w.acc.sg s.heap hl0
  refine ⟨sg, h', vs, ?_, hids, hkeys, hvs, hkeyAt, hmem, ?_, l2.reach, l2.ext, ?_, l2.edge, by rw [htl]; exact .head _⟩
  · unfold subGraph
    rw [hroot']
    simp only [hwalk, hcol.noErr]
    exact l1
  · intro v m
    rw [l2.node]
    unfold node
    cases hg : w.acc.sg.nodes.get? v.str with
    | none =>
      simp only [reduceCtorEq, false_iff]
      intro hm
      rw [(hcol.sgNodes v.str m).mpr hm] at hg
      cases hg
    | some m' =>
      simp only [Res.ok.injEq]
      constructor
      · rintro rfl; exact (hcol.sgNodes _ _).mp hg
      · intro hm
        rw [(hcol.sgNodes v.str m).mpr hm] at hg
        exact (Option.some.inj hg).symm
  · intro x hx y hy hS
    refine l4 (x.id, x) ?_ y hy hS
    have : (x.id, x) ∈ w.acc.nodes.entries :=
      (GoMap.get?_eq_some _ _ _).mp ((hcol.nodes _ _).mpr ⟨hx, rfl⟩)
    simpa using this

/-- The whole call, for a disciplined source: it succeeds with a graph that holds the visited nodes
`vs` and links exactly those linked in the source. -/
theorem subGraph_spec {d : Bool} {s : St} (hr : Reach Disciplined d s) (ora : SubOracle) (u : Uid)
    (depth : Int) (opts : List Opt) (root : Node) (hroot : node s.g u = .ok root) :
    ∃ (sg : WG) (h' : Heap) (vs : List Node), subGraph ora s.heap s.g u depth opts = (.ok sg, h') ∧
      (vs.map Node.id).Nodup ∧ (vs.map Node.key).Nodup ∧
      (∀ m ∈ vs, m = root ∨ s.g.b.nodes.get? m.id = some m) ∧
      (∀ m ∈ vs, keyAt s.g.b m.id = some m.key) ∧
      (∀ i, i ∈ vs.map Node.id ↔
        ∃ k : Nat, (depth < 0 ∨ (k : Int) ≤ depth) ∧ Gonum.Within s.g.b root.id k i) ∧
      (∀ v m, node sg v = .ok m ↔ m ∈ vs ∧ m.uid.str = v.str) ∧
      Reach NoReplace true ⟨h', sg⟩ ∧ h'.Extends s.heap ∧
      (∀ x ∈ vs, ∀ y ∈ vs, (s.g.b.weightedEdge x.id y.id).isSome → Done sg x y) ∧
      (∀ p q e, edge sg p q = .ok e →
        (∃ x ∈ vs, ∃ y ∈ vs, x.key = p.str ∧ y.key = q.str ∧
          (s.g.b.weightedEdge x.id y.id).isSome) ∧
        ¬ s.heap.Valid e.attrs ∧ h'.Valid e.attrs ∧
        ∃ o, ∃ e₀ ∈ edgesList s.g o, e.weight = e₀.weight ∧
          (s.heap.Valid e₀.attrs →
            ∀ k, (h'.read e.attrs).get? k = (s.heap.read e₀.attrs).get? k)) := by
  obtain ⟨sg, h', vs, h1, h2, h3, h4, h5, h6, h7, h8, h9, h10, h11, -⟩ :=
    subGraph_spec_root hr ora u depth opts root hroot
  exact ⟨sg, h', vs, h1, h2, h3, h4, h5, h6, h7, h8, h9, h10, h11⟩

end Netscrape.Graph
