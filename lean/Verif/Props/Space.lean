import Verif.Lemmas.Attrs
import Verif.Spec.Space

/-!
# C43 – C45: space constructors and transport conversions
-/

namespace Netscrape.Props
open Netscrape Netscrape.Space Netscrape.Transport
open Netscrape.Spec.Space

theorem space_applyAll (opts : List Space.Opt) :
    (Space.applyAll opts).uid = uidOption opts ∧ (Space.applyAll opts).attrs = attrsOption opts ∧
    (Space.applyAll opts).dotid = dotOption opts := by
  have key : ∀ (opts : List Space.Opt) (o : Space.Opts),
      (opts.foldl Space.Opt.apply o).uid =
        ((opts.filterMap fun o => match o with | .withUID u => some u | _ => none).getLast?).getD
          o.uid ∧
      (opts.foldl Space.Opt.apply o).attrs =
        ((opts.filterMap fun o => match o with | .withAttrs u => some u | _ => none).getLast?).getD
          o.attrs ∧
      (opts.foldl Space.Opt.apply o).dotid =
        ((opts.filterMap fun o => match o with | .withDOTID u => some u | _ => none).getLast?).getD
          o.dotid := by
    intro opts
    induction opts with
    | nil => intro o; exact ⟨rfl, rfl, rfl⟩
    | cons x xs ih =>
      intro o
      obtain ⟨h1, h2, h3⟩ := ih (x.apply o)
      rw [List.foldl_cons, h1, h2, h3]
      cases x <;> simp [Space.Opt.apply, List.getLast?_cons]
  obtain ⟨h1, h2, h3⟩ := key opts {}
  unfold Space.applyAll uidOption attrsOption dotOption
  rw [h1, h2, h3]
  refine ⟨?_, ?_, rfl⟩
  · cases (opts.filterMap _).getLast? <;> rfl
  · cases (opts.filterMap _).getLast? <;> rfl

private theorem attrsFrom (opts : List Space.Opt) (h : Heap) :
    AttrsFrom opts h (Space.attrsOrNew h (Space.applyAll opts).attrs).1
      (Space.attrsOrNew h (Space.applyAll opts).attrs).2 := by
  rw [(space_applyAll opts).2.1]
  unfold AttrsFrom Space.attrsOrNew
  cases attrsOption opts with
  | some r => exact ⟨rfl, rfl⟩
  | none => exact ⟨Heap.alloc_fresh _ _, Heap.valid_alloc_new _ _, Heap.read_alloc_new _ _,
      Heap.Extends.alloc _ _⟩

/-! ## C43 -/

/-- **C43** (entities). -/
theorem c43_entity (h : Heap) (fresh : Uid) (typ : String) (opts : List Space.Opt) :
    let e := (newEntity h fresh typ opts).1
    e.typ = typ ∧ e.uid = (uidOption opts).getD fresh ∧
    (dotOption opts ≠ "" → e.dotid = dotOption opts) ∧ (dotOption opts = "" → e.dotid = e.uid.str) ∧
    AttrsFrom opts h e.attrs (newEntity h fresh typ opts).2 := by
  obtain ⟨h1, -, h3⟩ := space_applyAll opts
  intro e
  refine ⟨rfl, ?_, ?_, ?_, attrsFrom opts h⟩
  · show (Space.applyAll opts).uid.getD fresh = _; rw [h1]
  · intro hd; show (if (Space.applyAll opts).dotid = "" then _ else _) = _
    rw [h3, if_neg hd]
  · intro hd; show (if (Space.applyAll opts).dotid = "" then _ else _) = _
    rw [h3, if_pos hd]; rfl

/-- **C43** (resources). -/
theorem c43_resource (h : Heap) (fresh : Uid) (typ name group version kind : String) (nsd : Bool)
    (opts : List Space.Opt) :
    let r := (newResource h fresh typ name group version kind nsd opts).1
    r.typ = typ ∧ r.name = name ∧ r.group = group ∧ r.version = version ∧ r.kind = kind ∧
    r.namespaced = nsd ∧ r.uid = (uidOption opts).getD fresh ∧
    (dotOption opts ≠ "" → r.dotid = dotOption opts) ∧
    (dotOption opts = "" → r.dotid = group ++ "/" ++ version ++ "/" ++ kind) ∧
    AttrsFrom opts h r.attrs (newResource h fresh typ name group version kind nsd opts).2 := by
  obtain ⟨h1, -, h3⟩ := space_applyAll opts
  intro r
  refine ⟨rfl, rfl, rfl, rfl, rfl, rfl, ?_, ?_, ?_, attrsFrom opts h⟩
  · show (Space.applyAll opts).uid.getD fresh = _; rw [h1]
  · intro hd; show (if (Space.applyAll opts).dotid = "" then _ else _) = _
    rw [h3, if_neg hd]
  · intro hd; show (if (Space.applyAll opts).dotid = "" then _ else _) = _
    rw [h3, if_pos hd]; simp [join, String.append_assoc]

/-- **C43** (objects). -/
theorem c43_object (h : Heap) (fresh : Uid) (typ name ns : String) (res : Option Space.Resource)
    (opts : List Space.Opt) :
    let o := (newObject h fresh typ name ns res opts).1
    o.typ = typ ∧ o.name = name ∧ o.ns = ns ∧ o.res = res ∧ o.uid = (uidOption opts).getD fresh ∧
    (dotOption opts ≠ "" → o.dotid = dotOption opts) ∧
    (dotOption opts = "" → res = none → o.dotid = o.uid.str) ∧
    (dotOption opts = "" → ∀ r, res = some r → o.dotid =
      r.group ++ "/" ++ r.version ++ "/" ++ r.kind ++ "/" ++ ns ++ "/" ++ name) ∧
    AttrsFrom opts h o.attrs (newObject h fresh typ name ns res opts).2 := by
  obtain ⟨h1, -, h3⟩ := space_applyAll opts
  intro o
  refine ⟨rfl, rfl, rfl, rfl, ?_, ?_, ?_, ?_, attrsFrom opts h⟩
  · show (Space.applyAll opts).uid.getD fresh = _; rw [h1]
  · intro hd; show (if (Space.applyAll opts).dotid = "" then _ else _) = _
    rw [h3, if_neg hd]
  · intro hd hr; subst hr; show (if (Space.applyAll opts).dotid = "" then _ else _) = _
    rw [h3, if_pos hd]; rfl
  · intro hd r hr; subst hr; show (if (Space.applyAll opts).dotid = "" then _ else _) = _
    rw [h3, if_pos hd]; simp [join, String.append_assoc]

/-- **C43** (links). -/
theorem c43_link (h : Heap) (fresh from' to : Uid) (opts : List Space.Opt) :
    let l := (newLink h fresh from' to opts).1
    l.from' = from' ∧ l.to = to ∧ l.uid = (uidOption opts).getD fresh ∧
    AttrsFrom opts h l.attrs (newLink h fresh from' to opts).2 := by
  obtain ⟨h1, -, -⟩ := space_applyAll opts
  intro l
  refine ⟨rfl, rfl, ?_, attrsFrom opts h⟩
  show (Space.applyAll opts).uid.getD fresh = _; rw [h1]

/-- Non-vacuity of C43: repeated options, the last one counts; a default DOTID. -/
example :
    let opts : List Space.Opt := [.withDOTID "x", .withUID (some ⟨1, "u"⟩), .withDOTID ""]
    dotOption opts = "" ∧ uidOption opts = some ⟨1, "u"⟩ ∧ attrsOption opts = none ∧
    (newResource Heap.empty ⟨9, "f"⟩ "t" "n" "g" "v" "k" true opts).1.dotid = "g/v/k" := by decide

/-! ## C44 -/

private theorem newFromMap_facts (h : Heap) (o : Order (String × String)) (m : AttrMap) :
    SameMap ((Attrs.newFromMap h o m).2.read (Attrs.newFromMap h o m).1) m ∧
    (Attrs.newFromMap h o m).2.Extends h ∧ (Attrs.newFromMap h o m).2.Valid (Attrs.newFromMap h o m).1 ∧
    ¬ h.Valid (Attrs.newFromMap h o m).1 := by
  refine ⟨?_, Heap.Extends.alloc _ _, Heap.valid_alloc_new _ _,
    Heap.alloc_fresh h ((o.run m.entries).foldl (fun r e => r.set e.1 e.2) GoMap.empty)⟩
  intro k
  unfold Attrs.newFromMap
  rw [Heap.read_alloc_new]
  exact get?_foldl_set_perm m _ (o.perm _) k

private theorem toMap_same (h : Heap) (o : Order (String × String)) (a : Ref) :
    SameMap (Attrs.toMap h o a) (h.read a) := fun k => Attrs.get?_copyLoop h o a k

private theorem sm_trans {a b c : AttrMap} (h1 : SameMap a b) (h2 : SameMap b c) : SameMap a c :=
  fun k => (h1 k).trans (h2 k)

private theorem sm_symm {a b : AttrMap} (h1 : SameMap a b) : SameMap b a :=
  fun k => (h1 k).symm

/-- **C44** (entities). -/
theorem c44_entity (h : Heap) (c : Choice) (o : Order (String × String)) (e : Transport.Entity) :
    SameEntity (entityFromSpace (entityToSpace h c e).2 o (entityToSpace h c e).1) e :=
  ⟨rfl, rfl, sm_trans (toMap_same _ _ _) (newFromMap_facts h c.order e.attrs).1⟩

/-- **C44** (resources). -/
theorem c44_resource (h : Heap) (c : Choice) (o : Order (String × String)) (r : Transport.Resource) :
    SameResource (resourceFromSpace (resourceToSpace h c r).2 o (resourceToSpace h c r).1) r :=
  ⟨⟨rfl, rfl, sm_trans (toMap_same _ _ _) (newFromMap_facts h c.order r.attrs).1⟩,
    rfl, rfl, rfl, rfl, rfl⟩

/-- **C44** (objects, with and without a resource). -/
theorem c44_object (h : Heap) (c : Choice) (o o2 : Order (String × String)) (x : Transport.Object) :
    SameObject (objectFromSpace (objectToSpace h c x).2 o o2 (objectToSpace h c x).1) x := by
  cases hr : x.res with
  | none =>
    refine ⟨⟨rfl, rfl, ?_⟩, rfl, rfl, ?_⟩
    · refine sm_trans (toMap_same _ _ _) ?_
      simp only [objectToSpace, hr]
      exact (newFromMap_facts h c.order x.attrs).1
    · simp only [objectToSpace, objectFromSpace, hr]
      trivial
  | some r =>
    have hext := (newFromMap_facts (resourceToSpace h { c with addr := c.addr2, order := c.order2 } r).2
      c.order x.attrs)
    refine ⟨⟨rfl, rfl, ?_⟩, rfl, rfl, ?_⟩
    · refine sm_trans (toMap_same _ _ _) ?_
      simp only [objectToSpace, hr]
      exact hext.1
    · rw [hr]
      simp only [objectToSpace, objectFromSpace, hr]
      refine ⟨⟨rfl, rfl, ?_⟩, rfl, rfl, rfl, rfl, rfl⟩
      refine sm_trans (toMap_same _ _ _) ?_
      have h2 := newFromMap_facts h c.order2 r.attrs
      intro k
      rw [← h2.1 k]
      exact congrArg (GoMap.get? · k) (hext.2.1.read h2.2.2.1)

/-- **C44** (links). -/
theorem c44_link (h : Heap) (c : Choice) (o : Order (String × String)) (l : Transport.Link) :
    SameLink (linkFromSpace (linkToSpace h c l).2 o (linkToSpace h c l).1) l :=
  ⟨rfl, rfl, rfl, sm_trans (toMap_same _ _ _) (newFromMap_facts h c.order l.attrs).1⟩

/-- Non-vacuity of C44: an object with a resource and attributes on both. -/
example :
    let m : AttrMap := (GoMap.empty.set "a" "1").set "b" "2"
    let r : Transport.Resource := ⟨⟨"r", "t", m⟩, "n", "g", "v", "k", true⟩
    let x : Transport.Object := ⟨⟨"o", "t", GoMap.empty.set "c" "3"⟩, "n", "ns", some r⟩
    let s := objectToSpace Heap.empty ⟨1, 2, 3, Order.id, Order.rev⟩ x
    (objectFromSpace s.2 Order.id Order.id s.1).res.map (fun r => (r.uid, r.attrs.get? "b")) =
      some ("r", some "2") := by decide

/-! ## C45 -/

/-- Everything including the DOTID survives, for entities. -/
def DOTIDSurvives : Prop := ∀ (h : Heap) (c : Choice) (o : Order (String × String)) (e : Space.Entity),
    h.Valid e.attrs → (entityToSpace h c (entityFromSpace h o e)).1.dotid = e.dotid

/-- **C45 fails**: a custom DOTID is replaced by the UID. -/
theorem c45_violated : ¬ DOTIDSurvives := by
  intro h
  have := h (Attrs.new Heap.empty).2 Choice.id Order.id
    (newEntity (Attrs.new Heap.empty).2 ⟨1, "u"⟩ "t" [.withDOTID "custom", .withAttrs (some 0)]).1
    (by decide)
  revert this
  decide

/-- **C45 fails** likewise for resources and objects, and also for the resource inside an object. -/
theorem c45_violated_others :
    (¬ ∀ (h : Heap) (c : Choice) (o : Order (String × String)) (e : Space.Resource),
      h.Valid e.attrs → (resourceToSpace h c (resourceFromSpace h o e)).1.dotid = e.dotid) ∧
    (¬ ∀ (h : Heap) (c : Choice) (o o2 : Order (String × String)) (e : Space.Object),
      h.Valid e.attrs → (objectToSpace h c (objectFromSpace h o o2 e)).1.dotid = e.dotid) ∧
    (¬ ∀ (h : Heap) (c : Choice) (o o2 : Order (String × String)) (e : Space.Object) (r : Space.Resource),
      h.Valid e.attrs → h.Valid r.attrs → e.res = some r →
      (objectToSpace h c (objectFromSpace h o o2 e)).1.res.map (·.dotid) = some r.dotid) := by
  refine ⟨?_, ?_, ?_⟩
  · intro h
    have := h (Attrs.new Heap.empty).2 Choice.id Order.id
      ((newResource (Attrs.new Heap.empty).2 ⟨1, "u"⟩ "t" "n" "g" "v" "k" true
        [.withAttrs (some 0)]).1.setDOTID "custom") (by decide)
    revert this
    decide
  · intro h
    have := h (Attrs.new Heap.empty).2 Choice.id Order.id Order.id
      ((newObject (Attrs.new Heap.empty).2 ⟨1, "u"⟩ "t" "n" "ns" none
        [.withAttrs (some 0)]).1.setDOTID "custom") (by decide)
    revert this
    decide
  · intro h
    have := h (Attrs.new Heap.empty).2 Choice.id Order.id Order.id
      (newObject (Attrs.new Heap.empty).2 ⟨1, "u"⟩ "t" "n" "ns"
        (some ((newResource (Attrs.new Heap.empty).2 ⟨2, "r"⟩ "t" "n" "g" "v" "k" true
          [.withAttrs (some 0)]).1.setDOTID "custom")) [.withAttrs (some 0)]).1
      ((newResource (Attrs.new Heap.empty).2 ⟨2, "r"⟩ "t" "n" "g" "v" "k" true
        [.withAttrs (some 0)]).1.setDOTID "custom") (by decide) (by decide) (by decide)
    revert this
    decide

/-- **C45, what holds** (entities): everything but the DOTID survives, and the DOTID does exactly when
it is the UID string. -/
theorem c45_entity_partial (h : Heap) (c : Choice) (o : Order (String × String)) (e : Space.Entity) :
    let r := entityToSpace h c (entityFromSpace h o e)
    LikeEntity h e r.2 r.1 ∧ r.2.Extends h ∧ ¬ h.Valid r.1.attrs ∧
    (r.1.dotid = e.dotid ↔ e.dotid = e.uid.str) := by
  intro r
  have hf := newFromMap_facts h c.order (Attrs.toMap h o e.attrs)
  refine ⟨⟨rfl, rfl, ?_⟩, hf.2.1, hf.2.2.2, ?_⟩
  · exact sm_symm (sm_trans hf.1 (toMap_same _ _ _))
  · show (e.uid.str = e.dotid) ↔ _
    exact eq_comm

/-- **C45, what holds** (resources): the DOTID survives exactly when it is group/version/kind. -/
theorem c45_resource_partial (h : Heap) (c : Choice) (o : Order (String × String))
    (e : Space.Resource) :
    let r := resourceToSpace h c (resourceFromSpace h o e)
    LikeResource h e r.2 r.1 ∧ r.2.Extends h ∧ ¬ h.Valid r.1.attrs ∧
    (r.1.dotid = e.dotid ↔ e.dotid = defaultResourceDOT e) := by
  intro r
  have hf := newFromMap_facts h c.order (Attrs.toMap h o e.attrs)
  refine ⟨⟨rfl, rfl, rfl, rfl, rfl, rfl, rfl, ?_⟩, hf.2.1, hf.2.2.2, ?_⟩
  · exact sm_symm (sm_trans hf.1 (toMap_same _ _ _))
  · show (join [e.group, e.version, e.kind] = e.dotid) ↔ _
    rw [eq_comm]
    simp [join, defaultResourceDOT, String.append_assoc]

/-- **C45, what holds** (objects): the DOTID survives exactly when it is the default one. -/
theorem c45_object_partial (h : Heap) (c : Choice) (o o2 : Order (String × String))
    (e : Space.Object) :
    let r := objectToSpace h c (objectFromSpace h o o2 e)
    LikeObject h e r.2 r.1 ∧ r.2.Extends h ∧
    (r.1.dotid = e.dotid ↔ e.dotid = defaultObjectDOT e) := by
  intro r
  cases hr : e.res with
  | none =>
    have hf := newFromMap_facts h c.order (Attrs.toMap h o e.attrs)
    have hro : r = objectToSpace h c ⟨⟨e.uid.str, e.typ, Attrs.toMap h o e.attrs⟩, e.name, e.ns, none⟩ := by
      show objectToSpace h c (objectFromSpace h o o2 e) = _
      unfold objectFromSpace; rw [hr]; rfl
    rw [hro]
    refine ⟨⟨rfl, rfl, rfl, rfl, ?_, ?_⟩, hf.2.1, ?_⟩
    · rw [hr]; trivial
    · exact sm_symm (sm_trans hf.1 (toMap_same _ _ _))
    · show (e.uid.str = e.dotid) ↔ _
      unfold defaultObjectDOT
      rw [hr]
      exact eq_comm
  | some x =>
    have hf1 := newFromMap_facts h c.order2 (Attrs.toMap h o2 x.attrs)
    have hf2 := newFromMap_facts (Attrs.newFromMap h c.order2 (Attrs.toMap h o2 x.attrs)).2 c.order
      (Attrs.toMap h o e.attrs)
    have hro : r = objectToSpace h c ⟨⟨e.uid.str, e.typ, Attrs.toMap h o e.attrs⟩, e.name, e.ns,
        some (resourceFromSpace h o2 x)⟩ := by
      show objectToSpace h c (objectFromSpace h o o2 e) = _
      unfold objectFromSpace; rw [hr]; rfl
    rw [hro]
    refine ⟨⟨rfl, rfl, rfl, rfl, ?_, ?_⟩, hf2.2.1.trans hf1.2.1, ?_⟩
    · rw [hr]
      refine ⟨rfl, rfl, rfl, rfl, rfl, rfl, rfl, ?_⟩
      intro k
      have h1 := sm_trans hf1.1 (toMap_same h o2 x.attrs) k
      rw [← h1]
      exact (congrArg (GoMap.get? · k) (hf2.2.1.read hf1.2.2.1)).symm
    · exact sm_symm (sm_trans hf2.1 (toMap_same _ _ _))
    · show (join [x.group, x.version, x.kind, e.ns, e.name] = e.dotid) ↔ _
      rw [eq_comm]
      unfold defaultObjectDOT
      rw [hr]
      simp [join, String.append_assoc]

/-- **C45, what holds** (links, which have no DOTID): everything survives. -/
theorem c45_link_partial (h : Heap) (c : Choice) (o : Order (String × String)) (l : Space.Link) :
    let r := linkToSpace h c (linkFromSpace h o l)
    LikeLink h l r.2 r.1 ∧ r.2.Extends h ∧ ¬ h.Valid r.1.attrs := by
  intro r
  have hf := newFromMap_facts h c.order (Attrs.toMap h o l.attrs)
  exact ⟨⟨rfl, rfl, rfl, sm_symm (sm_trans hf.1 (toMap_same _ _ _))⟩, hf.2.1, hf.2.2.2⟩

/-- Non-vacuity of C45: constructors without a DOTID option give the default DOTID. -/
example :
    let r := (newResource Heap.empty ⟨1, "r"⟩ "t" "n" "g" "v" "k" true []).1
    let o := (newObject Heap.empty ⟨2, "o"⟩ "t" "n" "ns" (some r) []).1
    r.dotid = defaultResourceDOT r ∧ o.dotid = defaultObjectDOT o ∧ o.dotid = "g/v/k/ns/n" := by decide

end Netscrape.Props
