import Verif.Spec.Network
import Verif.Props.EndToEnd
import Verif.Props.Store

/-!
# A handler that puts what it receives into a store
-/

namespace Netscrape.Network
open Netscrape.Graph (Ent Node Edge St)
open Netscrape.Broker (Msg)
open Netscrape.Marshal (Value unmarshal)
open Netscrape.Store (SInv)
open Netscrape.Spec.Network Netscrape.Spec.Pipeline
open Netscrape.Spec.Space (SameMap)

/-- The attribute set of a value. -/
def refOf : Value → Ref
  | .entity e => e.attrs
  | .resource r => r.attrs
  | .object o => o.attrs
  | .link l => l.attrs

theorem newFromMap_valid (h : Heap) (o : Order (String × String)) (m : AttrMap) :
    (Attrs.newFromMap h o m).2.Valid (Attrs.newFromMap h o m).1 := by
  unfold Attrs.newFromMap
  exact Heap.valid_alloc_new _ _

theorem unmarshal_valid {g g' : Heap} {c : Transport.Choice} {b : Json.Bytes} {t : Marshal.Target} {w : Value}
    (h : unmarshal g c b t = .ok (w, g')) : g'.Valid (refOf w) := by
  unfold unmarshal at h
  cases t with
  | other => cases h
  | entity =>
    simp only at h
    split at h
    · cases h; exact newFromMap_valid _ _ _
    · cases h
  | resource =>
    simp only at h
    split at h
    · cases h; exact newFromMap_valid _ _ _
    · cases h
  | object =>
    simp only at h
    split at h
    · cases h; exact newFromMap_valid _ _ _
    · cases h
  | link =>
    simp only at h
    split at h
    · cases h; exact newFromMap_valid _ _ _
    · cases h

/-- The DOTID of a value that `Unmarshal` made. -/
def dotOfValue : Value → String
  | .entity e => e.dotid
  | .resource r => r.dotid
  | .object o => o.dotid
  | .link _ => ""

theorem unmarshal_dot {g g' : Heap} {c : Transport.Choice} {b : Json.Bytes} {t : Marshal.Target} {w : Value}
    (h : unmarshal g c b t = .ok (w, g')) : dotOfValue w = dotOf (g', w) := by
  unfold unmarshal at h
  cases t with
  | other => cases h
  | entity =>
    simp only at h
    split at h
    · cases h; rfl
    · cases h
  | resource =>
    simp only at h
    split at h
    · cases h
      simp [dotOfValue, dotOf, Spec.Space.defaultResourceDOT, Transport.resourceToSpace, Space.newResource,
        Space.applyAll, Space.Opt.apply, Space.join, String.append_assoc]
    · cases h
  | object =>
    simp only at h
    split at h
    · rename_i r _
      cases h
      cases hr : r.res <;> simp [dotOfValue, dotOf, Spec.Space.defaultObjectDOT, Transport.objectToSpace, hr,
        Transport.resToSpace, Transport.resourceToSpace, Space.newResource, Space.newObject, Space.applyAll,
        Space.Opt.apply, Space.join, String.append_assoc]
    · cases h
  | link =>
    simp only at h
    split at h
    · cases h; rfl
    · cases h

theorem like_dot {h h' : Heap} {v w : Value} (hl : LikeValue h v h' w) : dotOf (h, v) = dotOf (h', w) := by
  cases v with
  | entity a => cases w <;> first | exact hl.elim | exact hl.1
  | link a => cases w <;> first | exact hl.elim | rfl
  | resource a =>
    cases w <;> try exact hl.elim
    obtain ⟨-, -, -, h4, h5, h6, -⟩ := hl
    simp only [dotOf, Spec.Space.defaultResourceDOT, h4, h5, h6]
  | object a =>
    cases w <;> try exact hl.elim
    rename_i b
    obtain ⟨h1, -, h3, h4, h5, -⟩ := hl
    simp only [dotOf, Spec.Space.defaultObjectDOT]
    cases ha : a.res <;> cases hb : b.res <;> rw [ha, hb] at h5
    · exact h1
    · exact h5.elim
    · exact h5.elim
    · obtain ⟨-, -, -, g4, g5, g6, -⟩ := h5
      simp only [g4, g5, g6, h3, h4]

theorem target_eq (t : Int) : target t = targetOf t := rfl

/-- The store holds the network, and its attribute sets exist. -/
structure NInv (d : Bool) (vs : List Item) (s : St) : Prop where
  sinv : SInv d (nodes vs) s
  holds : Holds d vs s
  nodeRef : ∀ u n, Graph.node s.g u = .ok n → s.heap.Valid n.attrs
  edgeRef : ∀ u v e, Graph.edge s.g u v = .ok e → s.heap.Valid e.attrs

theorem hasNode_snoc {vs : List Item} {v : Item} {u : String} :
    HasNode (vs ++ [v]) u ↔ HasNode vs u ∨ ∃ typ a, nodeOf v = some (u, typ, a) := by
  unfold HasNode
  simp only [List.mem_append, List.mem_singleton]
  constructor
  · rintro ⟨w, hw | rfl, h⟩
    · exact .inl ⟨w, hw, h⟩
    · exact .inr h
  · rintro (⟨w, hw, h⟩ | h)
    · exact ⟨w, .inl hw, h⟩
    · exact ⟨v, .inr rfl, h⟩

theorem hasEdge_snoc {d : Bool} {vs : List Item} {v : Item} {f t : String} :
    HasEdge d (vs ++ [v]) f t ↔ HasEdge d vs f t ∨
      ∃ a, edgeOf v = some (f, t, a) ∨ (d = false ∧ edgeOf v = some (t, f, a)) := by
  unfold HasEdge
  simp only [List.mem_append, List.mem_singleton]
  constructor
  · rintro ⟨w, hw | rfl, h⟩
    · exact .inl ⟨w, hw, h⟩
    · exact .inr h
  · rintro (⟨w, hw, h⟩ | h)
    · exact ⟨w, .inl hw, h⟩
    · exact ⟨v, .inr rfl, h⟩

theorem nodes_snoc (vs : List Item) (v : Item) :
    nodes (vs ++ [v]) = nodes vs + if (nodeOf v).isSome then 1 else 0 := by
  unfold nodes
  rw [List.countP_append, List.countP_singleton]

theorem ninv_start {d : Bool} {s : St} (h : Spec.Store.Start d s) : NInv d [] s := by
  obtain ⟨h1, h2⟩ := Props.sInv_start h
  have hn : ∀ u, Graph.node s.g u = .err .nodeNotFound := by
    intro u
    rcases Store.node_cases s.g u with ⟨n, hn⟩ | hn
    · have := h2.present hn; cases this
    · exact hn
  have he : ∀ u v e, Graph.edge s.g u v ≠ .ok e := by
    intro u v e hx
    have := (h2.adj u v).mp ⟨e, hx⟩
    cases this
  refine ⟨h1, ⟨nofun, fun k _ => (Store.get_err _ _).mpr (hn k), nofun, fun p q _ => he p q⟩, ?_, ?_⟩
  · intro u n hx; rw [hn] at hx; cases hx
  · intro u v e hx; exact (he u v e hx).elim

/-- Adding a new node. -/
theorem put_ok {d : Bool} {vs : List Item} {s : St} (hi : NInv d vs s) (hk : nodes vs < 2 ^ 63)
    {h : Heap} (hx : h.Extends s.heap) (c : Choice) {e : Ent} (hr : h.Valid e.attrs) {v : Item} {a : AttrMap}
    (hv : nodeOf v = some (e.uid.str, e.typ, a)) (hd : e.dot = some (dotOf v)) (ha : SameMap a (h.read e.attrs))
    (hnew : ¬ HasNode vs e.uid.str) :
    ∃ s', fromStore (put ⟨h, s.g⟩ c e) = (.ok (), s') ∧ NInv d (vs ++ [v]) s' := by
  have habs : Graph.node s.g e.uid = .err .nodeNotFound := (Store.get_err _ _).mp (hi.holds.noNode _ hnew)
  obtain ⟨n, h', g', h1, ⟨h2, h2d⟩, h3, h4, h5, h6, h7⟩ := Store.add_absent (Store.env_sInv hi.sinv h) hk c.order e
    [.withAttrs (some e.attrs)] habs
  have h3' : n.attrs = e.attrs ∧ h' = h := h3
  obtain ⟨h3a, rfl⟩ := h3'
  have hev : edgeOf v = none := by
    obtain ⟨g, v⟩ := v
    cases v <;> first | rfl | cases hv
  refine ⟨⟨h', g'⟩, by unfold put; rw [h1]; rfl, ?_, ⟨?_, ?_, ?_, ?_⟩, ?_, ?_⟩
  · rw [nodes_snoc, hv]; exact h7
  · intro w hw u typ b hwb k hku
    rcases List.mem_append.mp hw with hw | hw
    · obtain ⟨m, g1, g2, g3, gd, g4⟩ := hi.holds.node w hw u typ b hwb k hku
      rw [Store.get_ok] at g1
      refine ⟨m, ?_, g2, g3, gd, ?_⟩
      · rw [Store.get_ok]
        show Graph.node g' k = .ok m
        rw [h5 k, g1]
        intro hke
        exact hnew ⟨w, hw, typ, b, by rw [← hke, hku]; exact hwb⟩
      · rw [hx.read (hi.nodeRef _ _ g1)]; exact g4
    · cases List.mem_singleton.mp hw
      rw [hv] at hwb; cases hwb
      refine ⟨n, ?_, by unfold Node.uid; rw [h2], by rw [h2], by rw [h2d, hd]; rfl, by rw [h3a]; exact ha⟩
      rw [Store.get_ok]
      show Graph.node g' k = .ok n
      rw [← h4]; unfold Graph.node; rw [hku]
  · intro k hk'
    rw [hasNode_snoc, not_or] at hk'
    have hne : k.str ≠ e.uid.str := fun hke => hk'.2 ⟨e.typ, a, by rw [hke]; exact hv⟩
    rw [Store.get_err]
    show Graph.node g' k = _
    rw [h5 k hne]
    exact (Store.get_err _ _).mp (hi.holds.noNode k hk'.1)
  · intro w hw f t b hwb p q hp hq
    rcases List.mem_append.mp hw with hw | hw
    · obtain ⟨⟨x, g1, g2, g3, g4⟩, g5⟩ := hi.holds.edge w hw f t b hwb p q hp hq
      refine ⟨⟨x, (h6 _ _ _).mpr g1, g2, g3, by rw [hx.read (hi.edgeRef _ _ _ g1)]; exact g4⟩, ?_⟩
      intro hd
      obtain ⟨x, g1, g2, g3, g4⟩ := g5 hd
      exact ⟨x, (h6 _ _ _).mpr g1, g2, g3, by rw [hx.read (hi.edgeRef _ _ _ g1)]; exact g4⟩
    · cases List.mem_singleton.mp hw
      rw [hev] at hwb; cases hwb
  · intro p q hpq x hx'
    rw [hasEdge_snoc, not_or] at hpq
    exact hi.holds.noEdge p q hpq.1 x ((h6 _ _ _).mp hx')
  · intro u m hm
    by_cases hue : u.str = e.uid.str
    · have : Graph.node g' u = .ok n := by rw [← h4]; unfold Graph.node; rw [hue]
      have hm' : Graph.node g' u = .ok m := hm
      rw [this] at hm'; cases hm'
      rw [h3a]; exact hr
    · have hm' : Graph.node g' u = .ok m := hm
      rw [h5 u hue] at hm'
      exact hx.valid (hi.nodeRef _ _ hm')
  · intro u w x hx'
    exact hx.valid (hi.edgeRef _ _ _ ((h6 _ _ _).mp hx'))

/-- Adding a new edge. -/
theorem connect_ok {d : Bool} {vs : List Item} {s : St} (hi : NInv d vs s)
    {h : Heap} (hx : h.Extends s.heap) (c : Choice) {l : Space.Link} (hr : h.Valid l.attrs) {v : Item} {a : AttrMap}
    (hv : edgeOf v = some (l.from'.str, l.to.str, a)) (ha : SameMap a (h.read l.attrs))
    (hne : l.from'.str ≠ l.to.str) (hf : HasNode vs l.from'.str) (ht : HasNode vs l.to.str)
    (hnew : ¬ HasEdge d vs l.from'.str l.to.str) :
    ∃ s', fromStore (connect ⟨h, s.g⟩ c l) = (.ok (), s') ∧ NInv d (vs ++ [v]) s' := by
  have hs := Store.env_sInv hi.sinv h
  obtain ⟨wf, hwf, tf, af, hnf⟩ := hf
  obtain ⟨wt, hwt, tt, at', hnt⟩ := ht
  obtain ⟨x, gx, gxu, -⟩ := hi.holds.node wf hwf _ _ _ hnf l.from' rfl
  obtain ⟨y, gy, gyu, -⟩ := hi.holds.node wt hwt _ _ _ hnt l.to rfl
  rw [Store.get_ok] at gx gy
  obtain ⟨-, -, h3⟩ := Props.c19_link hs.disc c.fresh c.addr l.from' l.to hne [.withAttrs (some l.attrs)]
  obtain ⟨e, g', h', h4, h5, h6, -, h7, h8, h9, h10, h11⟩ := h3 x y gx gy (hi.holds.noEdge _ _ hnew)
  have h7' : e.attrs = l.attrs ∧ h' = h := h7
  obtain ⟨h7a, rfl⟩ := h7'
  have hnv : nodeOf v = none := by
    obtain ⟨g, v⟩ := v
    cases v <;> first | rfl | cases hv
  have hcon : connect ⟨h', s.g⟩ c l = (.ok (), ⟨h', g'⟩) := by
    unfold connect Store.link
    have : (Store.applyAll [.withAttrs (some l.attrs)]).attrs = some l.attrs := rfl
    rw [this, h4]
  have hcase : ∀ p q z, Graph.edge g' p q = .ok z →
      (p.str = l.from'.str ∧ q.str = l.to.str ∧ z = e) ∨
      (d = false ∧ p.str = l.to.str ∧ q.str = l.from'.str ∧ z = e.rev) ∨ Graph.edge s.g p q = .ok z := by
    intro p q z hz
    by_cases c1 : p.str = l.from'.str ∧ q.str = l.to.str
    · left
      have : Graph.edge g' p q = .ok e := by rw [← h8]; unfold Graph.edge; rw [c1.1, c1.2]
      rw [this] at hz; cases hz
      exact ⟨c1.1, c1.2, rfl⟩
    · by_cases c2 : d = false ∧ p.str = l.to.str ∧ q.str = l.from'.str
      · right; left
        have : Graph.edge g' p q = .ok e.rev := by rw [← h9 c2.1]; unfold Graph.edge; rw [c2.2.1, c2.2.2]
        rw [this] at hz; cases hz
        exact ⟨c2.1, c2.2.1, c2.2.2, rfl⟩
      · rw [h11 p q c1 c2] at hz
        exact .inr (.inr hz)
  refine ⟨⟨h', g'⟩, by rw [hcon]; rfl, ?_, ⟨?_, ?_, ?_, ?_⟩, ?_, ?_⟩
  · rw [nodes_snoc, hnv]
    have := Store.link_sInv hs c.fresh c.addr l.from' l.to [.withAttrs (some l.attrs)]
    have hc' : Store.link ⟨h', s.g⟩ c.fresh c.addr l.from' l.to [.withAttrs (some l.attrs)] = _ := hcon
    rw [hc'] at this
    exact this
  · intro w hw u typ b hwb k hku
    rcases List.mem_append.mp hw with hw | hw
    · obtain ⟨m, g1, g2, g3, gd, g4⟩ := hi.holds.node w hw u typ b hwb k hku
      rw [Store.get_ok] at g1
      refine ⟨m, ?_, g2, g3, gd, ?_⟩
      · rw [Store.get_ok]
        show Graph.node g' k = .ok m
        rw [h10 k, g1]
      · rw [hx.read (hi.nodeRef _ _ g1)]; exact g4
    · cases List.mem_singleton.mp hw
      rw [hnv] at hwb; cases hwb
  · intro k hk'
    rw [hasNode_snoc, not_or] at hk'
    rw [Store.get_err]
    show Graph.node g' k = _
    rw [h10 k]
    exact (Store.get_err _ _).mp (hi.holds.noNode k hk'.1)
  · intro w hw f t b hwb p q hp hq
    rcases List.mem_append.mp hw with hw | hw
    · have hpq : ¬ (p.str = l.from'.str ∧ q.str = l.to.str) := by
        rintro ⟨e1, e2⟩
        exact hnew ⟨w, hw, b, .inl (by rw [← e1, ← e2, hp, hq]; exact hwb)⟩
      have hpq' : ¬ (d = false ∧ p.str = l.to.str ∧ q.str = l.from'.str) := by
        rintro ⟨e0, e1, e2⟩
        exact hnew ⟨w, hw, b, .inr ⟨e0, by rw [← e1, ← e2, hp, hq]; exact hwb⟩⟩
      obtain ⟨⟨z, g1, g2, g3, g4⟩, g5⟩ := hi.holds.edge w hw f t b hwb p q hp hq
      refine ⟨⟨z, ?_, g2, g3, by rw [hx.read (hi.edgeRef _ _ _ g1)]; exact g4⟩, ?_⟩
      · show Graph.edge g' p q = _
        rw [h11 p q hpq hpq', g1]
      · intro hd
        obtain ⟨z, g1, g2, g3, g4⟩ := g5 hd
        refine ⟨z, ?_, g2, g3, by rw [hx.read (hi.edgeRef _ _ _ g1)]; exact g4⟩
        show Graph.edge g' q p = _
        rw [h11 q p (fun hc => hpq' ⟨hd, hc.2, hc.1⟩) (fun hc => hpq ⟨hc.2.2, hc.2.1⟩), g1]
    · cases List.mem_singleton.mp hw
      rw [hv] at hwb; cases hwb
      refine ⟨⟨e, ?_, by rw [h5]; exact gxu, by rw [h6]; exact gyu, by rw [h7a]; exact ha⟩, ?_⟩
      · show Graph.edge g' p q = _
        rw [← h8]; unfold Graph.edge; rw [hp, hq]
      · intro hd
        refine ⟨e.rev, ?_, by show e.dst.uid.str = _; rw [h6]; exact gyu, by show e.src.uid.str = _; rw [h5]; exact gxu,
          by show SameMap _ (h'.read e.attrs); rw [h7a]; exact ha⟩
        show Graph.edge g' q p = _
        rw [← h9 hd]; unfold Graph.edge; rw [hp, hq]
  · intro p q hpq z hz
    rw [hasEdge_snoc, not_or] at hpq
    rcases hcase p q z hz with ⟨c1, c2, -⟩ | ⟨c0, c1, c2, -⟩ | hz
    · exact hpq.2 ⟨a, .inl (by rw [c1, c2]; exact hv)⟩
    · exact hpq.2 ⟨a, .inr ⟨c0, by rw [c1, c2]; exact hv⟩⟩
    · exact hi.holds.noEdge p q hpq.1 z hz
  · intro u m hm
    have hm' : Graph.node g' u = .ok m := hm
    rw [h10 u] at hm'
    exact hx.valid (hi.nodeRef _ _ hm')
  · intro u w z hz
    rcases hcase u w z hz with ⟨-, -, rfl⟩ | ⟨-, -, -, rfl⟩ | hz
    · show h'.Valid z.attrs
      rw [h7a]; exact hr
    · show h'.Valid e.attrs
      rw [h7a]; exact hr
    · exact hx.valid (hi.edgeRef _ _ _ hz)

/-- Handling one message. -/
theorem handle_ok {d : Bool} {vs : List Item} {s : St} (hi : NInv d vs s)
    {v : Item} (hk : (nodeOf v).isSome = true → nodes vs < 2 ^ 63)
    {ctx : Nat} {t : String} {m : Msg} (hg : Ingested v.1 v.2 ctx t m) (hv : ValidValue v.1 v.2)
    (ho : (∀ u typ a, nodeOf v = some (u, typ, a) → ¬ HasNode vs u) ∧
      (∀ f t a, edgeOf v = some (f, t, a) →
        f ≠ t ∧ HasNode vs f ∧ HasNode vs t ∧ ¬ HasEdge d vs f t)) (c : Choice) :
    ∃ s', handle s c m = (.ok (), s') ∧ NInv d (vs ++ [v]) s' := by
  obtain ⟨w, g, h1, h2, h3⟩ := Props.ingested_decode hg hv s.heap c.dec
  have hr := unmarshal_valid h1
  have hdot := congrArg some ((unmarshal_dot h1).trans (like_dot h2).symm)
  unfold handle
  rw [target_eq, h1]
  obtain ⟨h, v⟩ := v
  cases v with
  | entity e =>
    cases w <;> try exact h2.elim
    obtain ⟨e1, e2, e3⟩ := h2
    refine put_ok hi (hk rfl) h3 c (e := entOfEntity _) hr (a := h.read e.attrs) ?_ hdot e3 ?_
    · show some (e.uid.str, e.typ, _) = _
      rw [e1, e2]; rfl
    · exact ho.1 _ e.typ (h.read e.attrs) (by rw [← show e.uid.str = (entOfEntity _).uid.str from e1]; rfl)
  | resource e =>
    cases w <;> try exact h2.elim
    obtain ⟨e1, e2, -, -, -, -, -, e3⟩ := h2
    refine put_ok hi (hk rfl) h3 c (e := entOfResource _) hr (a := h.read e.attrs) ?_ hdot e3 ?_
    · show some (e.uid.str, e.typ, _) = _
      rw [e1, e2]; rfl
    · exact ho.1 _ e.typ (h.read e.attrs) (by rw [← show e.uid.str = (entOfResource _).uid.str from e1]; rfl)
  | object e =>
    cases w <;> try exact h2.elim
    obtain ⟨e1, e2, -, -, -, e3⟩ := h2
    refine put_ok hi (hk rfl) h3 c (e := entOfObject _) hr (a := h.read e.attrs) ?_ hdot e3 ?_
    · show some (e.uid.str, e.typ, _) = _
      rw [e1, e2]; rfl
    · exact ho.1 _ e.typ (h.read e.attrs) (by rw [← show e.uid.str = (entOfObject _).uid.str from e1]; rfl)
  | link l =>
    cases w <;> try exact h2.elim
    rename_i l'
    obtain ⟨-, e1, e2, e3⟩ := h2
    obtain ⟨o1, o2, o3, o4⟩ := ho.2 l'.from'.str l'.to.str (h.read l.attrs) (by rw [← e1, ← e2]; rfl)
    exact connect_ok hi h3 c (l := l') hr (a := h.read l.attrs) (by rw [← e1, ← e2]; rfl) e3 o1 o2 o3 o4

/-- New attribute sets do not matter. -/
theorem NInv.env {d : Bool} {vs : List Item} {s : St} (hi : NInv d vs s) {h : Heap} (hx : h.Extends s.heap) :
    Holds d vs ⟨h, s.g⟩ := by
  refine ⟨?_, hi.holds.noNode, ?_, hi.holds.noEdge⟩
  · intro w hw u typ b hwb k hku
    obtain ⟨m, g1, g2, g3, gd, g4⟩ := hi.holds.node w hw u typ b hwb k hku
    refine ⟨m, g1, g2, g3, gd, ?_⟩
    rw [Store.get_ok] at g1
    rw [hx.read (hi.nodeRef _ _ g1)]; exact g4
  · intro w hw f t b hwb p q hp hq
    obtain ⟨⟨z, g1, g2, g3, g4⟩, g5⟩ := hi.holds.edge w hw f t b hwb p q hp hq
    refine ⟨⟨z, g1, g2, g3, by rw [hx.read (hi.edgeRef _ _ _ g1)]; exact g4⟩, ?_⟩
    intro hd
    obtain ⟨z, g1, g2, g3, g4⟩ := g5 hd
    exact ⟨z, g1, g2, g3, by rw [hx.read (hi.edgeRef _ _ _ g1)]; exact g4⟩

theorem HasNode.node {d : Bool} {vs : List Item} {s : St} (hi : NInv d vs s) {u : Uid} (h : HasNode vs u.str) :
    ∃ n, Graph.node s.g u = .ok n := by
  obtain ⟨w, hw, typ, a, hn⟩ := h
  obtain ⟨n, g, -⟩ := hi.holds.node w hw _ _ _ hn u rfl
  exact ⟨n, (Store.get_ok _ _ _).mp g⟩

theorem HasEdge.edge {d : Bool} {vs : List Item} {s : St} (hi : NInv d vs s) {p q : Uid}
    (h : HasEdge d vs p.str q.str) : ∃ e, Graph.edge s.g p q = .ok e := by
  obtain ⟨w, hw, a, he | ⟨hd, he⟩⟩ := h
  · obtain ⟨⟨e, g, -⟩, -⟩ := hi.holds.edge w hw _ _ _ he p q rfl rfl
    exact ⟨e, g⟩
  · obtain ⟨-, g⟩ := hi.holds.edge w hw _ _ _ he q p rfl rfl
    obtain ⟨e, g, -⟩ := g hd
    exact ⟨e, g⟩

theorem put_dup {d : Bool} {vs : List Item} {s : St} (hi : NInv d vs s) (hk : nodes vs < 2 ^ 63)
    {h : Heap} (hx : h.Extends s.heap) (c : Choice) {e : Ent} (hold : HasNode vs e.uid.str) :
    ∃ s', fromStore (put ⟨h, s.g⟩ c e) = (.err (.store .alreadyExists), s') ∧ Holds d vs s' := by
  obtain ⟨n, hn⟩ := HasNode.node hi hold
  obtain ⟨h', g', h1, h2, h3, h4, h5, -⟩ := Store.add_present (Store.env_sInv hi.sinv h) hk c.order e
    [.withAttrs (some e.attrs)] n hn
  have h4 := h4 rfl
  subst h4
  refine ⟨⟨h', s.g⟩, by unfold put; rw [h1]; rfl, hi.env (h5.trans hx)⟩

theorem connect_missing {d : Bool} {vs : List Item} {s : St} (hi : NInv d vs s)
    {h : Heap} (hx : h.Extends s.heap) (c : Choice) {l : Space.Link}
    (hm : ¬ HasNode vs l.from'.str ∨ ¬ HasNode vs l.to.str) :
    ∃ s', fromStore (connect ⟨h, s.g⟩ c l) = (.err (.store .entityNotFound), s') ∧ Holds d vs s' := by
  refine ⟨⟨h, s.g⟩, ?_, hi.env hx⟩
  unfold connect Store.link
  rw [Props.link_missing c.fresh c.addr _ (hm.imp (fun hm => (Store.get_err _ _).mp (hi.holds.noNode _ hm))
    (fun hm => (Store.get_err _ _).mp (hi.holds.noNode _ hm)))]
  rfl

theorem connect_again {d : Bool} {vs : List Item} {s : St} (hi : NInv d vs s)
    {h : Heap} (hx : h.Extends s.heap) (c : Choice) {l : Space.Link} (hne : l.from'.str ≠ l.to.str)
    (hm : HasEdge d vs l.from'.str l.to.str) :
    ∃ s', fromStore (connect ⟨h, s.g⟩ c l) = (.ok (), s') ∧ Holds d vs s' := by
  obtain ⟨e, he⟩ := HasEdge.edge hi hm
  obtain ⟨-, h2, -⟩ := Props.c19_link (Store.env_sInv hi.sinv h).disc c.fresh c.addr l.from' l.to hne
    [.withAttrs (Store.applyAll [.withAttrs (some l.attrs)]).attrs]
  refine ⟨⟨h, s.g⟩, ?_, hi.env hx⟩
  unfold connect Store.link
  rw [h2 e he]
  rfl

theorem connect_loop {d : Bool} {vs : List Item} {s : St} (hi : NInv d vs s)
    (h : Heap) (c : Choice) {l : Space.Link} (he : l.from'.str = l.to.str)
    (hm : HasNode vs l.from'.str) : (fromStore (connect ⟨h, s.g⟩ c l)).1 = .panic := by
  have hp := (Props.c20_link_panic_partial (Store.env_sInv hi.sinv h).disc c.fresh c.addr l.from' l.to
    [.withAttrs (Store.applyAll [.withAttrs (some l.attrs)]).attrs]).mpr ⟨he, HasNode.node hi hm⟩
  unfold connect Store.link
  generalize Graph.link _ _ _ _ _ _ _ = r at hp ⊢
  obtain ⟨r, g, h'⟩ := r
  subst hp
  rfl

/-- Handling a message whose value cannot be stored, or is there. -/
theorem handle_not {d : Bool} {vs : List Item} {s : St} (hi : NInv d vs s) (hk : nodes vs < 2 ^ 63)
    {v : Item} {ctx : Nat} {t : String} {m : Msg} (hg : Ingested v.1 v.2 ctx t m) (hv : ValidValue v.1 v.2)
    (c : Choice) :
    (∀ u typ a, nodeOf v = some (u, typ, a) → HasNode vs u →
      ∃ s', handle s c m = (.err (.store .alreadyExists), s') ∧ Holds d vs s') ∧
    (∀ f t a, edgeOf v = some (f, t, a) →
      ((¬ HasNode vs f ∨ ¬ HasNode vs t) →
        ∃ s', handle s c m = (.err (.store .entityNotFound), s') ∧ Holds d vs s') ∧
      (f ≠ t → HasEdge d vs f t → ∃ s', handle s c m = (.ok (), s') ∧ Holds d vs s') ∧
      (f = t → HasNode vs f → (handle s c m).1 = .panic)) := by
  obtain ⟨w, g, h1, h2, h3⟩ := Props.ingested_decode hg hv s.heap c.dec
  unfold handle
  rw [target_eq, h1]
  obtain ⟨h, v⟩ := v
  cases v with
  | entity e =>
    cases w <;> try exact h2.elim
    refine ⟨?_, nofun⟩
    rintro u typ a hu hn
    cases hu
    exact put_dup hi hk h3 c (e := entOfEntity _) (by rw [← show e.uid.str = (entOfEntity _).uid.str from h2.1]; exact hn)
  | resource e =>
    cases w <;> try exact h2.elim
    refine ⟨?_, nofun⟩
    rintro u typ a hu hn
    cases hu
    exact put_dup hi hk h3 c (e := entOfResource _) (by rw [← show e.uid.str = (entOfResource _).uid.str from h2.1]; exact hn)
  | object e =>
    cases w <;> try exact h2.elim
    refine ⟨?_, nofun⟩
    rintro u typ a hu hn
    cases hu
    exact put_dup hi hk h3 c (e := entOfObject _) (by rw [← show e.uid.str = (entOfObject _).uid.str from h2.1]; exact hn)
  | link l =>
    cases w <;> try exact h2.elim
    rename_i l'
    obtain ⟨-, e1, e2, -⟩ := h2
    refine ⟨nofun, ?_⟩
    rintro f t a hft
    cases hft
    rw [e1, e2]
    exact ⟨fun hm => connect_missing hi h3 c hm, fun hne hm => connect_again hi h3 c hne hm,
      fun he hm => connect_loop hi _ c he hm⟩

end Netscrape.Network
