import Verif.Lemmas.GraphAttrs

/-!
# A graph and its attributes used at once: `SubGraph`, `DOT` and the attribute calls
-/

namespace Netscrape.GraphAttrs
open Netscrape Netscrape.Conc Netscrape.Graph Netscrape.Spec Netscrape.Spec.GraphAttrs
open Netscrape.Spec.AttrsConc (Held Had)
open Netscrape.Spec.Graph (Pointwise)
open Netscrape.Gonum (Builder Bfs)

/-! ## What calls return -/

/-- `e'` is a copy of an edge of a graph in `P`, made since `h`. -/
def CopyOf (h : Heap) (W : Ref → String → String → Prop) (P : St → Prop) (e' : Edge) (d : Heap) : Prop :=
  d.Valid e'.attrs ∧ ∃ s₁ i j e, P s₁ ∧ s₁.g.b.weightedEdge i j = some e ∧ e'.weight = e.weight ∧
    (h.Valid e.attrs → (∀ k v, ¬ W e'.attrs k v) → Copied h W e.attrs (d.read e'.attrs))

def EdgesOK (h : Heap) (W : Ref → String → String → Prop) (sg : WG) (m : Moment St) : Prop :=
  ∀ i j e', sg.b.weightedEdge i j = some e' → CopyOf h W m.past e' m.st.heap

/-- Neither the panic in `Keys` nor a graph or document. -/
def Plain : Out → Prop
  | .index => False
  | .doc _ => False
  | .graph (.graph _) => False
  | _ => True

/-- Why `Keys` panicked. -/
def Added (W : Ref → String → String → Prop) (P : St → Prop) : Prop :=
  ∃ s₁ r, P s₁ ∧ Uses s₁.g r ∧ Adds W s₁ r

def SubPost (h : Heap) (W : Ref → String → String → Prop) (out : Out) (m : Moment St) : Prop :=
  (out = .index → Added W m.past) ∧ (∀ sg, out = .graph (.graph (.ok sg)) → EdgesOK h W sg m) ∧
    ∀ d, out ≠ .doc d

def DotPost (h : Heap) (W : Ref → String → String → Prop) (o : DotOrder) (out : Out) (m : Moment St) : Prop :=
  (out = .index ∧ Added W m.past) ∨ ∃ d s₁, out = .doc d ∧ m.past s₁ ∧ Pictures h W o s₁.g d

def Post (h : Heap) (W : Ref → String → String → Prop) : GraphAttrs.Op → Out → Moment St → Prop
  | .graph (.subGraph ..), out, m => SubPost h W out m
  | .graph .dot, out, m => DotPost h W .id out m
  | .dot o, out, m => DotPost h W o out m
  | _, out, _ => Plain out

variable {h : Heap} {W : Ref → String → String → Prop}

theorem EdgesOK.later {sg : WG} {m m' : Moment St} (he : EdgesOK h W sg m) (hr : Lat W m m') :
    EdgesOK h W sg m' := by
  intro i j e' he'
  obtain ⟨h1, s₁, x, y, e, h2, h3, h4, h5⟩ := he i j e' he'
  refine ⟨hr.rel.valid h1, s₁, x, y, e, hr.past s₁ h2, h3, h4, fun hv hf => ?_⟩
  rw [hr.rel.frozen _ h1 hf]
  exact h5 hv hf

theorem post_stable (op : GraphAttrs.Op) (out : Out) (a b : St) (P : St → Prop) (hp : Post h W op out ⟨a, P⟩)
    (hr : GRel W a b) : Post h W op out ⟨b, P⟩ := by
  unfold Post at hp ⊢
  split at hp
  · exact ⟨hp.1, fun sg hsg => (hp.2.1 sg hsg).later ⟨hr, fun _ h => h⟩, hp.2.2⟩
  all_goals exact hp

/-! ## `SubGraph` -/

theorem link_copy (d : Heap) (sg : WG) (u : Uid) (x y : Uid) (a : Ref) (w : Int) :
    (link d sg u 0 x y [.withAttrs (some a), .withWeight w]).2.2 = d ∧
    ∀ i j e', (link d sg u 0 x y [.withAttrs (some a), .withWeight w]).2.1.b.weightedEdge i j = some e' →
      sg.b.weightedEdge i j = some e' ∨ (e'.attrs = a ∧ e'.weight = w) := by
  unfold link
  split
  · exact ⟨rfl, fun _ _ _ he => .inl he⟩
  · next f t _ =>
    have h1 : (mkEdge d u 0 f t [.withAttrs (some a), .withWeight w]).1.attrs = a := rfl
    have h2 : (mkEdge d u 0 f t [.withAttrs (some a), .withWeight w]).1.weight = w := rfl
    have h3 : (mkEdge d u 0 f t [.withAttrs (some a), .withWeight w]).2 = d := rfl
    unfold linkApply
    revert h1 h2 h3
    generalize mkEdge d u 0 f t [.withAttrs (some a), .withWeight w] = m
    obtain ⟨e₀, d'⟩ := m
    rintro h1 h2 h3
    dsimp only at h1 h2 h3 ⊢
    split
    · exact ⟨h3, fun _ _ _ he => .inl he⟩
    · next b' hb =>
      refine ⟨h3, fun i j e' he => ?_⟩
      dsimp only at he
      rw [Gonum.weightedEdge_set hb] at he
      split at he
      · cases he; exact .inr ⟨h1, h2⟩
      · split at he
        · cases he; exact .inr ⟨h1, h2⟩
        · exact .inl he

theorem copyLink_heap (ora : SubOracle) (x y : Uid) (e : Edge) (sg : WG) (l : List (String × String)) (d : Heap) :
    (copyLink ora x y e sg l d).2.2 = (d.alloc (ofPairs l)).2 := (link_copy _ _ _ _ _ _ _).1

theorem copyLink_edges (ora : SubOracle) (x y : Uid) (e : Edge) (sg : WG) (l : List (String × String)) (d : Heap)
    {i j : Int} {e' : Edge} (he : (copyLink ora x y e sg l d).2.1.b.weightedEdge i j = some e') :
    sg.b.weightedEdge i j = some e' ∨ (e'.attrs = (d.alloc (ofPairs l)).1 ∧ e'.weight = e.weight) :=
  (link_copy _ _ _ _ _ _ _).2 i j e' he

theorem rgm_linkAllA (ora : SubOracle) (x y : Uid) {m₁ : Moment St} (hJ : m₁.past m₁.st) {k : WG → AProg Out}
    (hk : ∀ sg m, GInv h W m.st → Lat W m₁ m → EdgesOK h W sg m → Does h W (SubPost h W) (k sg) m)
    (es : List Edge) : ∀ (sg : WG) (m : Moment St), GInv h W m.st → Lat W m₁ m → EdgesOK h W sg m →
      (∀ e ∈ es, ∃ i j, m₁.st.g.b.weightedEdge i j = some e) →
      Does h W (SubPost h W) (linkAllA ora x y es sg k) m := by
  induction es with
  | nil => exact fun sg m h1 h2 h3 _ => hk sg m h1 h2 h3
  | cons e es ih =>
    intro sg m _ h2 h3 h4 s hs1 hs2 _
    obtain ⟨i, j, he⟩ := h4 e List.mem_cons_self
    refine rgm_copyThen _ _ s ?_ ?_
    · intro s' hs3 hs4 hadd
      have hl := Lat.trans h2 (Lat.trans hs1 hs3)
      exact ⟨fun _ => ⟨m₁.st, e.attrs, hl.past _ hJ, .inr ⟨i, j, e, he, rfl⟩,
        Adds.back (Lat.trans h2 hs1).rel hadd⟩, nofun, nofun⟩
    · intro s' l hs3 hs4 hl s'' hs5 hs6 _
      have hx : (copyLink ora x y e sg l s''.st.heap).2.2.Extends s''.st.heap := by
        rw [copyLink_heap]; exact .alloc _ _
      have hrel : GRel W s''.st ⟨(copyLink ora x y e sg l s''.st.heap).2.2, s''.st.g⟩ := gRel_extends hx
      have hinv : GInv h W ⟨(copyLink ora x y e sg l s''.st.heap).2.2, s''.st.g⟩ := gInv_extends hs6 hx hs6.b
      refine ⟨hinv, hrel, ?_⟩
      have hlat : Lat W s'' ⟨⟨(copyLink ora x y e sg l s''.st.heap).2.2, s''.st.g⟩, s''.past⟩ :=
        ⟨hrel, fun _ h => h⟩
      have hall := Lat.trans h2 (Lat.trans hs1 (Lat.trans hs3 (Lat.trans hs5 hlat)))
      have hok : EdgesOK h W (copyLink ora x y e sg l s''.st.heap).2.1
          ⟨⟨(copyLink ora x y e sg l s''.st.heap).2.2, s''.st.g⟩, s''.past⟩ := by
        intro i' j' e' he'
        rcases copyLink_edges ora x y e sg l s''.st.heap he' with h5 | ⟨h5, h6⟩
        · exact (h3.later (Lat.trans hs1 (Lat.trans hs3 (Lat.trans hs5 hlat)))) i' j' e' h5
        · dsimp only
          rw [copyLink_heap]
          refine ⟨?_, m₁.st, i, j, e, hall.past _ hJ, he, h6, fun hv _ => ?_⟩
          · rw [h5]; exact Heap.valid_alloc_new _ _
          · rw [h5, Heap.read_alloc_new]; exact listed_copied (hl hv)
      dsimp only
      split
      · exact ih _ _ hinv hall hok fun e' he' => h4 e' (List.mem_cons_of_mem _ he')
      · exact ⟨nofun, nofun, nofun⟩
      · exact ⟨nofun, nofun, nofun⟩

theorem mem_weightedEdges_any {b : Builder} {o : Gonum.EdgeOrder} (hb : Gonum.Inv b) {e : Edge}
    (he : e ∈ b.weightedEdges o) : ∃ i j, b.weightedEdge i j = some e := ⟨_, _, Gonum.weightedEdges_sound hb o he⟩

theorem rgm_linkPeersA (ora : SubOracle) (sgNodes : GoMap Int Node) (id : Int) (x : Node) {k : WG → AProg Out}
    (hk : ∀ sg m, GInv h W m.st → EdgesOK h W sg m → Does h W (SubPost h W) (k sg) m)
    (ps : List Node) : ∀ (sg : WG) (m : Moment St), GInv h W m.st → EdgesOK h W sg m →
      Does h W (SubPost h W) (linkPeersA ora sgNodes id x ps sg k) m := by
  induction ps with
  | nil => exact hk
  | cons p ps ih =>
    intro sg m h1 h2
    unfold linkPeersA
    split
    · exact ih sg m h1 h2
    · intro s hs1 hs2 hJ
      exact rgm_linkAllA ora _ _ hJ (fun sg' s' h3 _ h4 => ih sg' s' h3 h4) _ sg s hs2 (.refl _) (h2.later hs1)
        fun e he => mem_weightedEdges_any hs2.b he

theorem rgm_linkNodesA (ora : SubOracle) (sgNodes : GoMap Int Node) (l : List (Int × Node)) :
    ∀ (sg : WG) (m : Moment St), GInv h W m.st → EdgesOK h W sg m →
      Does h W (SubPost h W) (linkNodesA ora sgNodes l sg) m := by
  induction l with
  | nil =>
    intro sg m _ h2
    refine ⟨nofun, fun sg' hsg => ?_, nofun⟩
    cases hsg
    exact h2
  | cons a l ih =>
    obtain ⟨id, x⟩ := a
    intro sg m h1 h2 s hs1 hs2 _
    exact rgm_linkPeersA ora sgNodes id x ih _ sg s hs2 (h2.later hs1)

theorem walk_acc {σ : Type} {b : Builder} {ord : Int → Order (Int × Edge)} {visit : σ → Node → σ}
    {stop : Node → Int → Bool} {P : σ → Prop} (hv : ∀ a n, P a → P (visit a n)) {root : Node} {acc : σ} (ha : P acc)
    {w : Bfs σ} (hw : Bfs.walk b ord visit stop root acc = some w) : P w.acc := by
  have hmeet : ∀ (l : List Node) (w : Bfs σ), P w.acc → P (l.foldl (Bfs.meet visit) w).acc := by
    intro l
    induction l with
    | nil => exact fun _ h => h
    | cons n l ih =>
      intro w hw
      refine ih _ ?_
      unfold Bfs.meet
      split
      · exact hw
      · exact hv _ _ hw
  have hloop : ∀ (fuel : Nat) (w w' : Bfs σ), P w.acc → Bfs.loop b ord visit stop fuel w = some w' → P w'.acc := by
    intro fuel
    induction fuel with
    | zero => intro w w' _ hl; cases hl
    | succ fuel ih =>
      intro w w' hw hl
      unfold Bfs.loop at hl
      split at hl
      · cases hl; exact hw
      · split at hl
        · cases hl; exact hw
        · refine ih _ _ ?_ hl
          unfold Bfs.level
          split <;> exact hmeet _ _ hw
  exact hloop _ _ _ (hv _ _ ha) hw

theorem collect_noEdges (c : Collect) (n : Node) (hc : ∀ i j, c.sg.b.weightedEdge i j = none) :
    ∀ i j, (collect c n).sg.b.weightedEdge i j = none := by
  have ha : ∀ i j, (addNode c.sg n []).2.b.weightedEdge i j = none := by
    intro i j
    unfold addNode
    split
    · split
      · split <;> exact hc i j
      · exact hc i j
    · split
      · exact hc i j
      · next b' hb =>
        unfold Builder.addNode at hb
        split at hb
        · cases hb
        · cases hb
          exact hc i j
  intro i j
  unfold collect
  split
  all_goals
    next heq => rw [heq] at ha; exact ha i j

theorem new_noEdges (d : Bool) (u : Uid) (opts : List Opt) (i j : Int) :
    (new d u opts).b.weightedEdge i j = none := by
  cases d <;> rfl

theorem rgm_subGraphA (ora : SubOracle) (u : Uid) (depth : Int) (opts : List Opt) (m : Moment St) :
    Does h W (SubPost h W) (subGraphA ora u depth opts) m := by
  intro s _ _ _
  dsimp only
  split
  · exact ⟨nofun, nofun, nofun⟩
  · intro s' _ hs' _
    dsimp only [Does, RGM]
    split
    · exact ⟨nofun, nofun, nofun⟩
    · next w hw =>
      split
      · exact ⟨nofun, nofun, nofun⟩
      · refine rgm_linkNodesA ora _ _ _ s' hs' ?_
        intro i j e' he'
        have := walk_acc (P := fun c : Collect => ∀ i j, c.sg.b.weightedEdge i j = none) collect_noEdges
          (new_noEdges true ora.graphUid opts) hw
        rw [this i j] at he'
        cases he'

/-! ## `DOT` -/

theorem pointwise_snoc {α β : Type} {R : α → β → Prop} {l : List α} {l' : List β} {a : α} {b : β}
    (hp : Pointwise R l l') (hab : R a b) : Pointwise R (l ++ [a]) (l' ++ [b]) := by
  induction hp with
  | nil => exact .cons hab .nil
  | cons h1 _ ih => exact .cons h1 ih

theorem rgm_nodeStmts {Q : Out → Moment St → Prop} (o : DotOrder) (bad : AProg Out) {m₁ : Moment St}
    (hbad : ∀ m r, Lat W m₁ m → Uses m₁.st.g r → Adds W m₁.st r → Does h W Q bad m) {all : List Node}
    {k : List (String × DotAttrs) → AProg Out}
    (hk : ∀ acc m, GInv h W m.st → Lat W m₁ m →
      Pointwise (fun n x => x.1 = n.dotid ∧ (h.Valid n.attrs → Listed h W n.attrs x.2)) all acc →
      Does h W Q (k acc) m) (ns : List Node) :
    ∀ (done : List Node) (acc : List (String × DotAttrs)) (m : Moment St), GInv h W m.st → Lat W m₁ m →
      all = done ++ ns → (∀ n ∈ ns, ∃ i, m₁.st.g.b.nodes.get? i = some n) →
      Pointwise (fun n x => x.1 = n.dotid ∧ (h.Valid n.attrs → Listed h W n.attrs x.2)) done acc →
      Does h W Q (nodeStmts o bad ns acc k) m := by
  induction ns with
  | nil =>
    intro done acc m h1 h2 h3 _ h5
    rw [List.append_nil] at h3
    subst h3
    exact hk acc m h1 h2 h5
  | cons n ns ih =>
    intro done acc m h1 h2 h3 h4 h5
    obtain ⟨i, hi⟩ := h4 n List.mem_cons_self
    refine rgm_copyThen _ _ m ?_ ?_
    · exact fun s hs _ hadd => hbad s n.attrs (Lat.trans h2 hs) (.inl ⟨i, n, hi, rfl⟩) (Adds.back h2.rel hadd)
    · intro s l hs1 hs2 hl
      exact ih (done ++ [n]) _ s hs2 (Lat.trans h2 hs1) (by rw [h3, List.append_assoc]; rfl)
        (fun m hm => h4 m (List.mem_cons_of_mem _ hm)) (pointwise_snoc h5 ⟨rfl, hl⟩)

/-- An edge statement for the nodes and edge `p`. -/
def EdgeStmt (h : Heap) (W : Ref → String → String → Prop) (p : Node × Node × Edge)
    (x : (String × String) × DotAttrs) : Prop :=
  x.1 = (p.1.dotid, p.2.1.dotid) ∧ (h.Valid p.2.2.attrs → Listed h W p.2.2.attrs x.2)

theorem rgm_edgeStmts {Q : Out → Moment St → Prop} (o : DotOrder) (bad : AProg Out) {m₁ : Moment St}
    (hbad : ∀ m r, Lat W m₁ m → Uses m₁.st.g r → Adds W m₁.st r → Does h W Q bad m) {all : List (Node × Node)}
    {k : List ((String × String) × DotAttrs) → AProg Out}
    (hk : ∀ (es : List (Node × Node × Edge)) acc m, GInv h W m.st → Lat W m₁ m →
      es.map (fun p => (p.1, p.2.1)) = all →
      (∀ p ∈ es, m₁.st.g.b.weightedEdge p.1.id p.2.1.id = some p.2.2) → Pointwise (EdgeStmt h W) es acc →
      Does h W Q (k acc) m) (ps : List (Node × Node)) :
    ∀ (es : List (Node × Node × Edge)) (acc : List ((String × String) × DotAttrs)) (m : Moment St),
      GInv h W m.st → Lat W m₁ m → all = es.map (fun p => (p.1, p.2.1)) ++ ps →
      (∀ x ∈ ps, ∃ e, m₁.st.g.b.weightedEdge x.1.id x.2.id = some e) →
      (∀ p ∈ es, m₁.st.g.b.weightedEdge p.1.id p.2.1.id = some p.2.2) → Pointwise (EdgeStmt h W) es acc →
      Does h W Q (edgeStmts o bad m₁.st.g.b ps acc k) m := by
  induction ps with
  | nil =>
    intro es acc m h1 h2 h3 _ h5 h6
    rw [List.append_nil] at h3
    exact hk es acc m h1 h2 h3.symm h5 h6
  | cons p ps ih =>
    obtain ⟨n, t⟩ := p
    intro es acc m h1 h2 h3 h4 h5 h6
    obtain ⟨e, he⟩ := h4 (n, t) List.mem_cons_self
    dsimp only at he
    unfold edgeStmts
    split
    · next hn => rw [hn] at he; cases he
    · next e' he' =>
      rw [he] at he'
      cases he'
      refine rgm_copyThen _ _ m ?_ ?_
      · exact fun s hs _ hadd => hbad s e.attrs (Lat.trans h2 hs) (.inr ⟨_, _, e, he, rfl⟩) (Adds.back h2.rel hadd)
      · intro s l hs1 hs2 hl
        refine ih (es ++ [(n, t, e)]) _ s hs2 (Lat.trans h2 hs1) (by simp [h3])
          (fun m hm => h4 m (List.mem_cons_of_mem _ hm)) ?_ (pointwise_snoc h6 ⟨rfl, hl⟩)
        intro p hp
        rcases List.mem_append.mp hp with hp | hp
        · exact h5 p hp
        · rw [List.mem_singleton] at hp
          subst hp
          exact he

theorem rgm_dotA (o : DotOrder) (m : Moment St) : Does h W (DotPost h W o) (dotA o) m := by
  intro s _ hs hJ
  have hbad : ∀ (s' : Moment St) (r : Ref), Lat W s s' → Uses s.st.g r → Adds W s.st r →
      Does h W (DotPost h W o) (.rlock () <| .ret .index : AProg Out) s' :=
    fun s' r h0 h1 h2 => .inl ⟨rfl, s.st, r, h0.past _ hJ, h1, h2⟩
  refine rgm_nodeStmts o _ hbad (all := dotNodes s.st.g.b o) ?_ _ [] [] s hs (.refl _) rfl ?_ .nil
  · intro ns s' hs' hr hns
    refine rgm_edgeStmts o _ hbad (all := dotPairs s.st.g.b o) ?_ _ [] [] s' hs' hr ?_ ?_ ?_ .nil
    · intro es acc s'' _ hlat h1 h2 h3
      have hmem : ∀ p ∈ es, (p.1, p.2.1) ∈ dotPairs s.st.g.b o := by
        intro p hp
        rw [← h1]
        exact List.mem_map.mpr ⟨p, hp, rfl⟩
      refine .inr ⟨_, s.st, rfl, hlat.past _ hJ, ?_⟩
      have hall : ∀ p ∈ es, s.st.g.b.nodes.get? p.1.id = some p.1 ∧ s.st.g.b.nodes.get? p.2.1.id = some p.2.1 ∧
          s.st.g.b.weightedEdge p.1.id p.2.1.id = some p.2.2 :=
        fun p hp => ⟨(mem_dotPairs hs.b (hmem p hp)).1, (mem_dotPairs hs.b (hmem p hp)).2.1, h2 p hp⟩
      refine ⟨?_, ?_, ?_, ⟨dotNodes s.st.g.b o, ?_, ?_, hns⟩, es, hall, ?_, h3⟩
      · intro h'
        rw [dot_eq]
        rfl
      · intro h'
        rw [dot_eq]
        have := pointwise_eq_map (f := fun n : Node => n.dotid) (g := Prod.fst) hns fun _ _ hh => hh.1
        simp only [List.map_map, Function.comp_def]
        exact this
      · intro h'
        rw [dot_eq]
        have := pointwise_eq_map (f := fun p : Node × Node × Edge => (p.1.dotid, p.2.1.dotid)) (g := Prod.fst) h3
          fun _ _ hh => hh.1
        simp only [List.map_map, Function.comp_def, ← h1]
        exact this
      · exact (dotNodes_strict hs.b o).imp fun hlt he => by rw [he] at hlt; exact Int.lt_irrefl _ hlt
      · intro n
        rw [mem_dotNodes hs.b]
        constructor
        · exact fun hn => ⟨_, hn⟩
        · rintro ⟨i, hi⟩
          rw [hs.b.nodeID i n hi]; exact hi
      · intro i j e he
        obtain ⟨y, hy, hy'⟩ := dotPairs_covers hs.b o he
        rw [← h1] at hy
        obtain ⟨p, hp, rfl⟩ := List.mem_map.mp hy
        refine ⟨p, hp, hy'.imp id fun hh => ⟨fun h' => ?_, hh.2⟩⟩
        rw [dot_eq]
        exact hh.1
    · exact (List.nil_append (dotPairs s.st.g.b o)).symm
    · exact fun x hx => (mem_dotPairs hs.b hx).2.2
    · exact fun _ hp => nomatch hp
  · intro n hn
    exact ⟨_, (mem_dotNodes hs.b o n).mp hn⟩

/-! ## Attribute calls -/

theorem ofGraph_bind {ρ τ : Type} (p : GProg Unit ρ) (f : ρ → τ) (k : τ → AProg Out) :
    ofGraph (p.bind fun r => .ret (f r)) k = ofGraph p fun r => k (f r) := by
  induction p with
  | ret a => rfl
  | lock m p ih => exact congrArg (Prog.lock m) ih
  | acquire m p ih => exact congrArg (Prog.acquire m) ih
  | unlock m p ih => exact congrArg (Prog.unlock m) ih
  | rlock m p ih => exact congrArg (Prog.rlock m) ih
  | runlock m p ih => exact congrArg (Prog.runlock m) ih
  | read l p ih => exact congrArg (Prog.read _) (funext ih)
  | write l g p ih => exact congrArg (Prog.write _ g) (funext ih)

theorem Steps.of_bind {ρ τ : Type} {p : GProg Unit ρ} {k : ρ → GProg Unit τ} (h : Steps (p.bind k)) : Steps p := by
  induction p with
  | ret a => trivial
  | lock m p ih => exact ih h
  | acquire m p ih => exact ih h
  | unlock m p ih => exact ih h
  | rlock m p ih => exact ih h
  | runlock m p ih => exact ih h
  | read l p ih => exact fun s => ih s (h s)
  | write l g p ih => exact fun s => ⟨(h s).1, (h s).2.1, ih s (h s).2.2⟩

theorem rgm_keysThen {Q : Out → Moment St → Prop} (o : Order (String × String)) (r : Ref)
    {k : List String → Attrs.CProg} {f : Attrs.COut → AProg Out}
    (hp : ∀ m : Moment St, GInv h W m.st → Does h W Q (f .panic) m)
    (hk : ∀ l (m : Moment St), GInv h W m.st → Does h W Q (ofAttrs (k l) f) m) (m : Moment St) :
    Does h W Q (ofAttrs (Attrs.keysThen o r k) f) m := by
  intro s _ _ _ s' _ hs' _
  show RGM _ _ _ (ofAttrs (if _ then _ else _) _) s'
  split
  · exact hp s' hs'
  · exact hk _ s' hs'

theorem rgm_getEach' {Q : Out → Moment St → Prop} (r : Ref) {f : Attrs.COut → AProg Out}
    (hk : ∀ l (m : Moment St), GInv h W m.st → Does h W Q (f (.pairs l)) m) (ks : List String) :
    ∀ acc (m : Moment St), GInv h W m.st → Does h W Q (ofAttrs (Attrs.getEach r ks acc) f) m := by
  induction ks with
  | nil => exact fun acc s hs => hk acc s hs
  | cons x ks ih => exact fun acc _ _ s' _ hs' _ => ih _ s' hs'

theorem rgm_attrs (op : Attrs.COp) (hop : AttrsConc.Allowed W op) (m : Moment St) :
    Does h W (fun out _ => Plain out) (ofAttrs (Attrs.cprog op) fun r => .ret (.attrs r)) m := by
  cases op with
  | get r k => exact fun _ _ _ _ => trivial
  | set r k v =>
    intro s _ hs _
    obtain ⟨h1, h2⟩ := gInv_set (k := k) (v := v) hs hop
    exact ⟨h1, h2, trivial⟩
  | keys o r =>
    refine rgm_keysThen o r (k := fun l => .ret (.keys l)) (f := fun r => .ret (.attrs r)) ?_ ?_ m
    · exact fun _ _ => trivial
    · exact fun _ _ _ => trivial
  | copy o r =>
    refine rgm_keysThen o r (k := fun l => Attrs.getEach r l []) (f := fun r => .ret (.attrs r)) ?_ ?_ m
    · exact fun _ _ => trivial
    · refine fun l s hs => rgm_getEach' r (f := fun r => .ret (.attrs r)) ?_ l [] s hs
      exact fun _ _ _ => trivial

/-! ## All calls -/

theorem rgm_prog (op : GraphAttrs.Op) (hop : Allowed W op) (m : Moment St) (hs : GInv h W m.st) :
    Does h W (Post h W op) (prog op) m := by
  cases op with
  | dot o => exact rgm_dotA o m
  | attrs op => exact rgm_attrs op hop m
  | graph op =>
    have key : ∀ {ρ : Type} (p : GProg Unit ρ) (f : ρ → Graph.COut), (∀ r, Plain (.graph (f r))) →
        Steps (p.bind fun r => .ret (f r)) → Does h W (fun out _ => Plain out)
          (ofGraph (p.bind fun r => .ret (f r)) fun r => .ret (.graph r)) m := by
      intro ρ p f hf hp
      rw [ofGraph_bind]
      refine rgm_ofGraph hp.of_bind (k := fun r => .ret (.graph (f r))) ?_ m hs
      exact fun r _ _ => hf r
    cases op with
    | subGraph ora u d opts => exact rgm_subGraphA ora u d opts m
    | dot => exact rgm_dotA .id m
    | newNode o e opts => exact key _ .node (fun _ => trivial) (steps_prog (.newNode o e opts) nofun)
    | addNode n opts => exact key _ .unit (fun _ => trivial) (steps_prog (.addNode n opts) nofun)
    | addForeign => exact key _ .unit (fun _ => trivial) (steps_prog .addForeign nofun)
    | node u => exact key _ .node (fun _ => trivial) (steps_prog (.node u) nofun)
    | nodes o => exact key _ .nodes (fun _ => trivial) (steps_prog (.nodes o) nofun)
    | removeNode u => exact key _ .unit (fun _ => trivial) (steps_prog (.removeNode u) nofun)
    | link a b c d e => exact key _ .edge (fun _ => trivial) (steps_prog (.link a b c d e) nofun)
    | edge u v => exact key _ .edge (fun _ => trivial) (steps_prog (.edge u v) nofun)
    | edges o => exact key _ .edges (fun _ => trivial) (steps_prog (.edges o) nofun)
    | from' o u => exact key _ .nodes (fun _ => trivial) (steps_prog (.from' o u) nofun)
    | unlink u v => exact key _ .unit (fun _ => trivial) (steps_prog (.unlink u v) nofun)

theorem gRGM {s : St} (hb : Gonum.Inv s.g.b) {c : ACfg} {l : List ACfg} (hr : Trace prog (Allowed W) s c l) :
    RGMInv (GInv s.heap W) (GRel W) (Post s.heap W) c l :=
  rgmInv .refl (fun _ _ _ a b => a.trans b)
    ⟨hb, Nat.le_refl _, fun _ _ _ _ hh => .inl hh, fun _ _ _ hh => hh⟩ post_stable rgm_prog hr

end Netscrape.GraphAttrs
