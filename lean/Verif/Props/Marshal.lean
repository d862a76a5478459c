import Verif.Lemmas.Marshal
import Verif.Props.Space

/-!
# C46 – C48: JSON marshalling
-/

namespace Netscrape.Props
open Netscrape Netscrape.Json Netscrape.Marshal
open Netscrape.Spec.Json Netscrape.Spec.Space

/-! ## C46 -/

/-- The property as stated, for entities: arbitrary strings survive. -/
def JsonRoundTrip : Prop := ∀ (h : Heap) (o : Orders) (c : Transport.Choice) (e : Space.Entity),
  h.Valid e.attrs →
  ∃ b e' h', marshal h o (Dyn.entityPtr e) = .ok b ∧ unmarshal h c b .entity = .ok (.entity e', h') ∧
    LikeEntity h e h' e'

/-- **C46 fails**: a string that is not valid UTF-8, here the single byte 0xFF, comes back as U+FFFD. -/
theorem c46_violated : ¬ JsonRoundTrip := by
  intro hrt
  obtain ⟨b, e', h', h1, h2, h3⟩ := hrt (Attrs.new Heap.empty).2 Orders.id Transport.Choice.id
    ⟨⟨1, "u"⟩, String.ofList [byte 0xFF], "u", 0⟩ (by decide)
  have hb : b = render (entityJ Order.id ⟨"u", String.ofList [byte 0xFF], GoMap.empty⟩) := by
    have := h1.symm.trans (show _ = Res.ok (render (entityJ Order.id
      ⟨"u", String.ofList [byte 0xFF], GoMap.empty⟩)) from rfl)
    cases this; rfl
  subst hb
  rw [unmarshal_entity] at h2
  cases h2
  have := h3.2.1
  revert this
  show ¬ (String.ofList [byte 0xFF] = san (String.ofList [byte 0xFF]))
  decide

/-- **C46 fails** also in that distinct attributes can be merged: the keys 0xFE and 0xFF both arrive as
U+FFFD. -/
theorem c46_violated_attrs :
    ∃ (h : Heap) (e : Space.Entity), (h.read e.attrs).size = 2 ∧ ∀ (o : Orders) (c : Transport.Choice)
      (b : Bytes) (v : Space.Entity) (h' : Heap), marshal h o (Dyn.entityPtr e) = .ok b →
      unmarshal h c b .entity = .ok (.entity v, h') → (h'.read v.attrs).size = 1 := by
  refine ⟨(Heap.empty.alloc ((GoMap.empty.set (String.ofList [byte 0xFE]) "1").set
    (String.ofList [byte 0xFF]) "2")).2, ⟨⟨1, "u"⟩, "t", "u", 0⟩, by decide, ?_⟩
  intro o c b v h' h1 h2
  generalize hm : (GoMap.empty.set (String.ofList [byte 0xFE]) "1").set (String.ofList [byte 0xFF]) "2"
    = m at h1 h2
  have h1' : b = render (entityJ o.enc (Transport.entityFromSpace (Heap.empty.alloc m).2 o.copy
    ⟨⟨1, "u"⟩, "t", "", 0⟩)) := by
    have := h1.symm.trans rfl
    cases this; rfl
  subst h1'
  rw [unmarshal_entity] at h2
  cases h2
  have e1 : sorted o.enc (Attrs.toMap (Heap.empty.alloc m).2 o.copy 0) = sorted Order.id m :=
    sorted_eq _ _ _ _ (fun k => Attrs.get?_copyLoop _ _ _ _)
  have e2 : sanAttrs o.enc (Attrs.toMap (Heap.empty.alloc m).2 o.copy 0) = sanAttrs Order.id m := by
    unfold sanAttrs; rw [e1]
  have e5 : ∀ x : AttrMap, (Attrs.newFromMap (Heap.empty.alloc m).2 c.order x).2.read
      (Attrs.newFromMap (Heap.empty.alloc m).2 c.order x).1 =
      (c.order.run x.entries).foldl (fun acc e => acc.set e.1 e.2) GoMap.empty :=
    fun x => Heap.read_alloc_new _ _
  refine (congrArg GoMap.size (e5 _)).trans ?_
  show GoMap.size (List.foldl _ _ (c.order.run (sanAttrs o.enc
    (Attrs.toMap (Heap.empty.alloc m).2 o.copy 0)).entries)) = 1
  rw [e2]
  subst hm
  have e3 : (sanAttrs Order.id ((GoMap.empty.set (String.ofList [byte 0xFE]) "1").set
    (String.ofList [byte 0xFF]) "2")).entries = [(String.ofList replacement, "2")] := by decide
  rw [e3]
  have e4 : c.order.run [(String.ofList replacement, "2")] = [(String.ofList replacement, "2")] :=
    List.perm_singleton.mp (c.order.perm _)
  rw [e4]
  rfl

private theorem validMap_copy {h : Heap} {a : Ref} (hv : ValidMap (h.read a))
    (o : Order (String × String)) : ValidMap (Attrs.toMap h o a) := by
  intro k v hk
  exact hv k v ((Attrs.get?_copyLoop h o a k).symm.trans hk)

private theorem attrs_back {h g : Heap} {a : Ref} (hv : ValidMap (h.read a))
    (o o' c : Order (String × String)) :
    SameMap (h.read a) ((Attrs.newFromMap g c (sanAttrs o' (Attrs.toMap h o a))).2.read
      (Attrs.newFromMap g c (sanAttrs o' (Attrs.toMap h o a))).1) := by
  intro k
  unfold Attrs.newFromMap
  rw [Heap.read_alloc_new, get?_foldl_set_perm _ _ (c.perm _),
    sanAttrs_valid _ _ (validMap_copy hv o)]
  exact (Attrs.get?_copyLoop h o a k).symm

/-- **C46, what holds** (entities): strings that are valid UTF-8 survive, whatever characters they
contain. `g` is the heap at the time of unmarshalling. -/
theorem c46_entity_partial (h g : Heap) (o : Orders) (c : Transport.Choice) (e : Space.Entity)
    (hv : ValidEntity h e) :
    ∃ b e' g', marshal h o (Dyn.entityPtr e) = .ok b ∧ unmarshal g c b .entity = .ok (.entity e', g') ∧
      LikeEntity h e g' e' ∧ g'.Extends g := by
  obtain ⟨h1, h2, h3⟩ := hv
  refine ⟨_, _, _, rfl, unmarshal_entity _ _ _ _, ?_, ?_⟩
  · exact ⟨((san_iff _).mpr h1).symm, ((san_iff _).mpr h2).symm, attrs_back h3 _ _ _⟩
  · exact Heap.Extends.alloc _ _

/-- **C46, what holds** (resources). -/
theorem c46_resource_partial (h g : Heap) (o : Orders) (c : Transport.Choice) (r : Space.Resource)
    (hv : ValidResource h r) :
    ∃ b r' g', marshal h o (Dyn.ofResource r) = .ok b ∧
      unmarshal g c b .resource = .ok (.resource r', g') ∧ LikeResource h r g' r' ∧ g'.Extends g := by
  obtain ⟨h1, h2, h3, h4, h5, h6, h7⟩ := hv
  refine ⟨_, _, _, rfl, unmarshal_resource _ _ _ _, ?_, ?_⟩
  · exact ⟨((san_iff _).mpr h1).symm, ((san_iff _).mpr h2).symm, ((san_iff _).mpr h3).symm,
      ((san_iff _).mpr h4).symm, ((san_iff _).mpr h5).symm, ((san_iff _).mpr h6).symm, rfl,
      attrs_back h7 _ _ _⟩
  · exact Heap.Extends.alloc _ _

/-- **C46, what holds** (objects, with or without a resource). -/
theorem c46_object_partial (h g : Heap) (o : Orders) (c : Transport.Choice) (x : Space.Object)
    (hv : ValidObject h x) :
    ∃ b x' g', marshal h o (Dyn.objectPtr x) = .ok b ∧
      unmarshal g c b .object = .ok (.object x', g') ∧ LikeObject h x g' x' ∧ g'.Extends g := by
  obtain ⟨h1, h2, h3, h4, h5, h6⟩ := hv
  refine ⟨_, _, _, rfl, unmarshal_object _ _ _ _ _, ?_, ?_⟩
  all_goals
    obtain ⟨uid, typ, name, ns, res, dotid, a⟩ := x
    cases res with
    | none =>
      first
        | exact ⟨((san_iff _).mpr h1).symm, ((san_iff _).mpr h2).symm, ((san_iff _).mpr h3).symm,
            ((san_iff _).mpr h4).symm, trivial, attrs_back h6 _ _ _⟩
        | exact Heap.Extends.alloc _ _
    | some r =>
      obtain ⟨r1, r2, r3, r4, r5, r6, r7⟩ := h5 r rfl
      first
        | refine ⟨((san_iff _).mpr h1).symm, ((san_iff _).mpr h2).symm, ((san_iff _).mpr h3).symm,
            ((san_iff _).mpr h4).symm, ⟨((san_iff _).mpr r1).symm, ((san_iff _).mpr r2).symm,
              ((san_iff _).mpr r3).symm, ((san_iff _).mpr r4).symm, ((san_iff _).mpr r5).symm,
              ((san_iff _).mpr r6).symm, rfl, ?_⟩, attrs_back h6 _ _ _⟩
          have hb := attrs_back (g := g) r7 o.copy2 o.enc2 c.order2
          intro k
          rw [hb k]
          exact (congrArg (GoMap.get? · k) ((Heap.Extends.alloc _ _).read
            (Heap.valid_alloc_new g _))).symm
        | exact (Heap.Extends.alloc _ _).trans (Heap.Extends.alloc _ _)

/-- **C46, what holds** (links). -/
theorem c46_link_partial (h g : Heap) (o : Orders) (c : Transport.Choice) (l : Space.Link)
    (hv : ValidLink h l) :
    ∃ b l' g', marshal h o (Dyn.ofLink l) = .ok b ∧ unmarshal g c b .link = .ok (.link l', g') ∧
      LikeLink h l g' l' ∧ g'.Extends g := by
  obtain ⟨h1, h2, h3, h4⟩ := hv
  refine ⟨_, _, _, rfl, unmarshal_link _ _ _ _, ?_, ?_⟩
  · exact ⟨((san_iff _).mpr h1).symm, ((san_iff _).mpr h2).symm, ((san_iff _).mpr h3).symm,
      attrs_back h4 _ _ _⟩
  · exact Heap.Extends.alloc _ _

/-- **C46, exactness** (entities): the UID and type survive only if they are valid UTF-8, and even
invalid ones are decoded without an error. -/
theorem c46_exact_partial (h g : Heap) (o : Orders) (c : Transport.Choice) (e : Space.Entity) :
    ∃ b e' g', marshal h o (Dyn.entityPtr e) = .ok b ∧ unmarshal g c b .entity = .ok (.entity e', g') ∧
      (e'.typ = e.typ ↔ Valid e.typ) ∧ (e'.uid.str = e.uid.str ↔ Valid e.uid.str) := by
  refine ⟨_, _, _, rfl, unmarshal_entity _ _ _ _, ?_, ?_⟩
  · exact san_iff _
  · exact san_iff _

/-- Non-vacuity of C46: quotes, control characters, markup and non-ASCII text are valid. -/
example :
    let s := "a\"b\\c\n<&>" ++ String.ofList (utf8 [Char.ofNat 0xe9, Char.ofNat 0x2028, Char.ofNat 0x1F600])
    ValidEntity (Heap.empty.alloc (GoMap.empty.set s s)).2 ⟨⟨1, s⟩, s, "", 0⟩ := by
  have hv : Valid ("a\"b\\c\n<&>" ++ String.ofList (utf8 [Char.ofNat 0xe9, Char.ofNat 0x2028,
      Char.ofNat 0x1F600])) :=
    ⟨"a\"b\\c\n<&>".toList ++ [Char.ofNat 0xe9, Char.ofNat 0x2028, Char.ofNat 0x1F600], by decide⟩
  refine ⟨hv, hv, ?_⟩
  intro k v hk
  have := (GoMap.get?_eq_some _ _ _).mp hk
  simp [Heap.read, Heap.alloc, Heap.empty, GoMap.set, GoMap.del, GoMap.empty] at this
  rw [this.1, this.2]
  exact ⟨by simpa using hv, by simpa using hv⟩

/-! ## C47 -/

private theorem asEntity_some (d : Dyn) : (∃ e, asEntity d = some e) ↔ IsEntity d := by
  unfold asEntity IsEntity
  cases d.uid <;> cases d.typ <;> cases d.attrs <;> simp

private theorem asResource_some (d : Dyn) : (∃ e, asResource d = some e) ↔ IsResource d := by
  unfold asResource IsResource IsEntity
  cases d.uid <;> cases d.typ <;> cases d.attrs <;> cases d.name <;> cases d.group <;>
    cases d.version <;> cases d.kind <;> cases d.namespaced <;> simp

private theorem asObject_some (d : Dyn) : (∃ e, asObject d = some e) ↔ IsObject d := by
  unfold asObject IsObject IsEntity
  cases d.uid <;> cases d.typ <;> cases d.attrs <;> cases d.name <;> cases d.ns <;>
    cases d.resource <;> simp

private theorem asLink_some (d : Dyn) : (∃ e, asLink d = some e) ↔ IsLink d := by
  unfold asLink IsLink
  cases d.uid <;> cases d.from' <;> cases d.to <;> cases d.attrs <;> simp

private theorem none_of {α : Type} {x : Option α} {P : Prop} (h : (∃ e, x = some e) ↔ P) (hn : ¬ P) :
    x = none := by
  cases x with
  | none => rfl
  | some e => exact absurd (h.mp ⟨e, rfl⟩) hn

/-- **C47** (the error): exactly for the types implementing none of the four interfaces; otherwise
there are bytes. -/
theorem c47_unsupported (h : Heap) (o : Orders) (d : Dyn) :
    (marshal h o d = .err .unsupportedType ↔ ¬ (IsResource d ∨ IsObject d ∨ IsEntity d ∨ IsLink d)) ∧
    ((IsResource d ∨ IsObject d ∨ IsEntity d ∨ IsLink d) → ∃ b, marshal h o d = .ok b) := by
  by_cases h1 : IsResource d
  · obtain ⟨r, hr⟩ := (asResource_some d).mpr h1
    simp [marshal, hr, h1]
  · have e1 := none_of (asResource_some d) h1
    by_cases h2 : IsObject d
    · obtain ⟨r, hr⟩ := (asObject_some d).mpr h2
      simp [marshal, e1, hr, h2]
    · have e2 := none_of (asObject_some d) h2
      by_cases h3 : IsEntity d
      · obtain ⟨r, hr⟩ := (asEntity_some d).mpr h3
        simp [marshal, e1, e2, hr, h3]
      · have e3 := none_of (asEntity_some d) h3
        by_cases h4 : IsLink d
        · obtain ⟨r, hr⟩ := (asLink_some d).mpr h4
          simp [marshal, e1, e2, e3, hr, h4]
        · have e4 := none_of (asLink_some d) h4
          simp [marshal, e1, e2, e3, e4, h1, h2, h3, h4]

/-- The key of the attributes, present only when there are any. -/
def attrsKey (m : AttrMap) : List String := if m.entries = [] then [] else ["attrs"]

private theorem san_keys (l : List (Bytes × J)) :
    memberNames (sanM (membersOf l)) = l.map fun e => String.ofList (sanitize e.1) := by
  induction l with
  | nil => rfl
  | cons e l ih => obtain ⟨k, v⟩ := e; simp [membersOf, sanM, memberNames, ih]

private theorem attrsField_keys (o o' : Order (String × String)) (h : Heap) (a : Ref) :
    (attrsField o (Attrs.toMap h o' a)).map (fun e => String.ofList (sanitize e.1)) =
      attrsKey (h.read a) := by
  have := entries_nil_iff (Attrs.toMap h o' a) (h.read a) (fun k => Attrs.get?_copyLoop h o' a k)
  unfold attrsField attrsKey
  by_cases he : (h.read a).entries = []
  · rw [if_pos he, if_pos (this.mpr he)]; rfl
  · rw [if_neg he, if_neg fun x => he (this.mp x)]
    exact congrArg (· :: []) (show String.ofList (sanitize "attrs".toList) = "attrs" by decide)

private theorem get_cons_ne {k : Bytes} {k' : String} {v : J} {t : List (Bytes × J)}
    (h : String.ofList (sanitize k) ≠ k') :
    memberGet k' (sanM (membersOf ((k, v) :: t))) = memberGet k' (sanM (membersOf t)) := by
  simp [membersOf, sanM, memberGet, h]

private theorem get_cons_eq {k : Bytes} {k' : String} {v : J} {t : List (Bytes × J)}
    (h : String.ofList (sanitize k) = k') :
    memberGet k' (sanM (membersOf ((k, v) :: t))) = some (sanJ v) := by
  simp [membersOf, sanM, memberGet, h]

private theorem get_attrs_ne {k' : String} (o : Order (String × String)) (m : AttrMap)
    (t : List (Bytes × J)) (h : k' ≠ "attrs") :
    memberGet k' (sanM (membersOf (attrsField o m ++ t))) = memberGet k' (sanM (membersOf t)) := by
  unfold attrsField
  split
  · rfl
  · refine get_cons_ne ?_
    rw [show String.ofList (sanitize "attrs".toList) = "attrs" by decide]
    exact h.symm

/-- **C47** (entities): a type with exactly enough methods for an entity is written with the keys of an
entity. -/
theorem c47_entity (h : Heap) (o : Orders) (d : Dyn) (h1 : ¬ IsResource d) (h2 : ¬ IsObject d)
    {u : Uid} {t : String} {a : Ref} (hu : d.uid = some u) (ht : d.typ = some t)
    (ha : d.attrs = some a) :
    ∃ b j, marshal h o d = .ok b ∧ parse b = some j ∧
      names j = ["uid", "type"] ++ attrsKey (h.read a) ∧
      text "uid" j = some (san u.str) ∧ text "type" j = some (san t) := by
  have e1 := none_of (asResource_some d) h1
  have e2 := none_of (asObject_some d) h2
  have e3 : asEntity d = some ⟨u, t, "", a⟩ := by simp [asEntity, hu, ht, ha]
  refine ⟨_, _, by simp only [marshal, e1, e2, e3]; rfl, parse_render _ (noNum_entityJ _ _), ?_, ?_, ?_⟩
  · show memberNames (sanM (membersOf _)) = _
    rw [san_keys]
    unfold entityFields
    rw [List.map_append, Transport.entityFromSpace, attrsField_keys]
    rfl
  all_goals
    simp only [text, Spec.Json.get, entityJ, sanJ, entityFields, List.cons_append, List.nil_append]
    repeat first | rw [get_cons_eq (by decide)] | rw [get_cons_ne (by decide)]
    rfl

/-- **C47** (resources). -/
theorem c47_resource (h : Heap) (o : Orders) (d : Dyn) {u : Uid} {t n g v k : String} {ns : Bool}
    {a : Ref} (hu : d.uid = some u) (ht : d.typ = some t) (ha : d.attrs = some a) (hn : d.name = some n)
    (hg : d.group = some g) (hv : d.version = some v) (hk : d.kind = some k)
    (hns : d.namespaced = some ns) :
    ∃ b j, marshal h o d = .ok b ∧ parse b = some j ∧
      names j = ["uid", "type"] ++ attrsKey (h.read a) ++ ["name", "group", "version", "kind", "namespaced"] ∧
      text "uid" j = some (san u.str) ∧ text "type" j = some (san t) ∧ text "name" j = some (san n) ∧
      text "group" j = some (san g) ∧ text "version" j = some (san v) ∧ text "kind" j = some (san k) ∧
      flag "namespaced" j = some ns := by
  have e1 : asResource d = some ⟨u, t, n, g, v, k, ns, "", a⟩ := by
    simp [asResource, hu, ht, ha, hn, hg, hv, hk, hns]
  refine ⟨_, _, by simp only [marshal, e1]; rfl, parse_render _ (noNum_resourceJ _ _), ?_, ?_, ?_, ?_, ?_, ?_,
    ?_, ?_⟩
  · show memberNames (sanM (membersOf _)) = _
    rw [san_keys]
    unfold entityFields
    rw [List.map_append, List.map_append, Transport.resourceFromSpace, attrsField_keys]
    rfl
  all_goals
    simp only [text, flag, Spec.Json.get, resourceJ, sanJ, entityFields, List.cons_append,
      List.nil_append]
    repeat first
      | rw [get_cons_eq (by decide)]
      | rw [get_cons_ne (by decide)]
      | rw [get_attrs_ne _ _ _ (by decide)]
    rfl

/-- **C47** (objects). -/
theorem c47_object (h : Heap) (o : Orders) (d : Dyn) (h1 : ¬ IsResource d) {u : Uid} {t n s : String}
    {a : Ref} {r : Option Space.Resource} (hu : d.uid = some u) (ht : d.typ = some t)
    (ha : d.attrs = some a) (hn : d.name = some n) (hs : d.ns = some s) (hr : d.resource = some r) :
    ∃ b j, marshal h o d = .ok b ∧ parse b = some j ∧
      names j = ["uid", "type"] ++ attrsKey (h.read a) ++ ["name", "namespace"] ++
        (if r = none then [] else ["resource"]) ∧
      text "uid" j = some (san u.str) ∧ text "type" j = some (san t) ∧ text "name" j = some (san n) ∧
      text "namespace" j = some (san s) := by
  have e1 := none_of (asResource_some d) h1
  have e2 : asObject d = some ⟨u, t, n, s, r, "", a⟩ := by simp [asObject, hu, ht, ha, hn, hs, hr]
  refine ⟨_, _, by simp only [marshal, e1, e2]; rfl, parse_render _ (noNum_objectJ _ _ _), ?_, ?_, ?_, ?_, ?_⟩
  · show memberNames (sanM (membersOf _)) = _
    rw [san_keys]
    unfold entityFields
    rw [List.map_append, List.map_append, List.map_append, Transport.objectFromSpace, attrsField_keys]
    cases r <;> rfl
  all_goals
    simp only [text, Spec.Json.get, objectJ, sanJ, entityFields, List.cons_append,
      List.append_assoc, List.nil_append]
    repeat first
      | rw [get_cons_eq (by decide)]
      | rw [get_cons_ne (by decide)]
      | rw [get_attrs_ne _ _ _ (by decide)]
    rfl

/-- **C47** (links). -/
theorem c47_link (h : Heap) (o : Orders) (d : Dyn) (h3 : ¬ IsEntity d) {u f t : Uid} {a : Ref}
    (hu : d.uid = some u) (hf : d.from' = some f) (ht : d.to = some t) (ha : d.attrs = some a) :
    ∃ b j, marshal h o d = .ok b ∧ parse b = some j ∧
      names j = ["uid", "from", "to"] ++ attrsKey (h.read a) ∧
      text "uid" j = some (san u.str) ∧ text "from" j = some (san f.str) ∧
      text "to" j = some (san t.str) := by
  have e1 := none_of (asResource_some d) fun x => h3 x.1
  have e2 := none_of (asObject_some d) fun x => h3 x.1
  have e3 := none_of (asEntity_some d) h3
  have e4 : asLink d = some ⟨u, f, t, a⟩ := by simp [asLink, hu, hf, ht, ha]
  refine ⟨_, _, by simp only [marshal, e1, e2, e3, e4]; rfl, parse_render _ (noNum_linkJ _ _), ?_, ?_, ?_, ?_⟩
  · show memberNames (sanM (membersOf _)) = _
    rw [san_keys, List.map_append, Transport.linkFromSpace, attrsField_keys]
    rfl
  all_goals
    simp only [text, Spec.Json.get, linkJ, sanJ, List.cons_append, List.nil_append]
    repeat first | rw [get_cons_eq (by decide)] | rw [get_cons_ne (by decide)]
    rfl

private theorem resourceJ_eq (h h' : Heap) (c c' d d' : Order (String × String))
    (e e' : Space.Resource) (hs : LikeResource h e h' e') :
    resourceJ d (Transport.resourceFromSpace h c e) = resourceJ d' (Transport.resourceFromSpace h' c' e') := by
  obtain ⟨h1, h2, h3, h4, h5, h6, h7, h8⟩ := hs
  unfold resourceJ entityFields Transport.resourceFromSpace
  simp only [h1, h2, h3, h4, h5, h6, h7]
  rw [attrsField_eq d d' (Attrs.toMap h c e.attrs) (Attrs.toMap h' c' e'.attrs)
    (fun k => (Attrs.get?_copyLoop _ _ _ _).trans ((h8 k).trans (Attrs.get?_copyLoop _ _ _ _).symm))]

private theorem san_texts (l : List (String × String)) :
    memberTexts (sanM (membersOf (l.map fun e => (e.1.toList, str e.2)))) =
      l.map fun e => (san e.1, san e.2) := by
  induction l with
  | nil => rfl
  | cons e l ih => exact congrArg ((san e.1, san e.2) :: ·) ih

private theorem get_attrs (o o' : Order (String × String)) (h : Heap) (a : Ref) (t : List (Bytes × J))
    (ht : memberGet "attrs" (sanM (membersOf t)) = none) :
    match memberGet "attrs" (sanM (membersOf (attrsField o (Attrs.toMap h o' a) ++ t))) with
    | none => (h.read a).entries = []
    | some x => (h.read a).entries ≠ [] ∧
        (texts x).Perm ((h.read a).entries.map fun e => (san e.1, san e.2)) ∧
        names x = (texts x).map Prod.fst := by
  have he := entries_nil_iff (Attrs.toMap h o' a) (h.read a) (fun k => Attrs.get?_copyLoop h o' a k)
  unfold attrsField
  by_cases hn : (Attrs.toMap h o' a).entries = []
  · rw [if_pos hn, List.nil_append, ht]
    exact he.mp hn
  · rw [if_neg hn, List.cons_append, get_cons_eq (by decide)]
    refine ⟨fun x => hn (he.mpr x), ?_, ?_⟩
    · show (memberTexts (sanM _)).Perm _
      rw [san_texts]
      exact (((sorted_perm o _).trans (GoMap.entries_perm_of_get?
        fun k => Attrs.get?_copyLoop h o' a k))).map _
    · show memberNames (sanM _) = (memberTexts (sanM _)).map _
      rw [san_texts, san_keys]
      simp [san]

/-- **C47** (attributes): whatever the form, the attributes are all there and nothing else is: each is
written as a string under its key, and `attrs` is left out only when there are none. -/
theorem c47_attrs (h : Heap) (o : Orders) (d : Dyn) {a : Ref} {b : Bytes} (ha : d.attrs = some a)
    (hb : marshal h o d = .ok b) :
    ∃ j, parse b = some j ∧
      match get "attrs" j with
      | none => (h.read a).entries = []
      | some x => (h.read a).entries ≠ [] ∧
          (texts x).Perm ((h.read a).entries.map fun e => (san e.1, san e.2)) ∧
          names x = (texts x).map Prod.fst := by
  unfold marshal at hb
  cases e1 : asResource d with
  | some r =>
    have hr : r.attrs = a := by
      revert e1; unfold asResource; split
      · rintro ⟨⟩; simp_all
      · simp
    simp only [e1] at hb; cases hb
    refine ⟨_, parse_render _ (noNum_resourceJ _ _), ?_⟩
    simp only [Spec.Json.get, resourceJ, sanJ, entityFields, List.cons_append, List.nil_append]
    rw [get_cons_ne (by decide), get_cons_ne (by decide), ← hr]
    exact get_attrs _ _ _ _ _ (by
      repeat rw [get_cons_ne (by decide)]
      rfl)
  | none =>
  cases e2 : asObject d with
  | some x =>
    have hr : x.attrs = a := by
      revert e2; unfold asObject; split
      · rintro ⟨⟩; simp_all
      · simp
    simp only [e1, e2] at hb; cases hb
    refine ⟨_, parse_render _ (noNum_objectJ _ _ _), ?_⟩
    simp only [Spec.Json.get, objectJ, sanJ, entityFields, List.cons_append, List.nil_append,
      List.append_assoc]
    rw [get_cons_ne (by decide), get_cons_ne (by decide), ← hr]
    refine get_attrs _ _ _ _ _ ?_
    rw [get_cons_ne (by decide), get_cons_ne (by decide)]
    cases (Transport.objectFromSpace h o.copy o.copy2 x).res with
    | none => rfl
    | some r => simp only [resourceField]; rw [get_cons_ne (by decide)]; rfl
  | none =>
  cases e3 : asEntity d with
  | some x =>
    have hr : x.attrs = a := by
      revert e3; unfold asEntity; split
      · rintro ⟨⟩; simp_all
      · simp
    simp only [e1, e2, e3] at hb; cases hb
    refine ⟨_, parse_render _ (noNum_entityJ _ _), ?_⟩
    simp only [Spec.Json.get, entityJ, sanJ, entityFields, List.cons_append, List.nil_append]
    rw [get_cons_ne (by decide), get_cons_ne (by decide), ← hr]
    have := get_attrs o.enc o.copy h x.attrs [] rfl
    rwa [List.append_nil] at this
  | none =>
  cases e4 : asLink d with
  | some x =>
    have hr : x.attrs = a := by
      revert e4; unfold asLink; split
      · rintro ⟨⟩; simp_all
      · simp
    simp only [e1, e2, e3, e4] at hb; cases hb
    refine ⟨_, parse_render _ (noNum_linkJ _ _), ?_⟩
    simp only [Spec.Json.get, linkJ, sanJ, List.cons_append, List.nil_append]
    rw [get_cons_ne (by decide), get_cons_ne (by decide), get_cons_ne (by decide), ← hr]
    have := get_attrs o.enc o.copy h x.attrs [] rfl
    rwa [List.append_nil] at this
  | none => simp only [e1, e2, e3, e4] at hb; cases hb

/-- **C47** (the resource inside an object): it is written as the document it would be on its own. -/
theorem c47_nested (h : Heap) (o o' : Orders) (d : Dyn) (h1 : ¬ IsResource d) {u : Uid} {t n s : String}
    {a : Ref} {r : Space.Resource} (hu : d.uid = some u) (ht : d.typ = some t)
    (ha : d.attrs = some a) (hn : d.name = some n) (hs : d.ns = some s)
    (hr : d.resource = some (some r)) :
    ∃ b j b' j', marshal h o d = .ok b ∧ parse b = some j ∧ get "resource" j = some j' ∧
      marshal h o' (Dyn.ofResource r) = .ok b' ∧ parse b' = some j' := by
  have e1 := none_of (asResource_some d) h1
  have e2 : asObject d = some ⟨u, t, n, s, some r, "", a⟩ := by
    simp [asObject, hu, ht, ha, hn, hs, hr]
  refine ⟨_, _, _, _, by simp only [marshal, e1, e2]; rfl, parse_render _ (noNum_objectJ _ _ _), ?_,
    rfl, parse_render _ (noNum_resourceJ _ _)⟩
  simp only [Spec.Json.get, objectJ, sanJ, entityFields, List.cons_append, List.nil_append,
    List.append_assoc, Transport.objectFromSpace, Option.map, resourceField]
  repeat first
    | rw [get_cons_eq (by decide)]
    | rw [get_cons_ne (by decide)]
    | rw [get_attrs_ne _ _ _ (by decide)]
  rw [resourceJ_eq h h o.copy2 o'.copy o.enc2 o'.enc r
    ⟨r.uid, r.typ, r.name, r.group, r.version, r.kind, r.namespaced, "", r.attrs⟩
    ⟨rfl, rfl, rfl, rfl, rfl, rfl, rfl, fun _ => rfl⟩]

/-- Non-vacuity of C47 for attributes and nested resources. -/
example :
    let h := (Heap.empty.alloc ((GoMap.empty.set "b" "2").set "a" "1")).2
    let d := Dyn.objectPtr ⟨⟨1, "u"⟩, "t", "n", "s", some ⟨⟨2, "r"⟩, "t", "n", "g", "v", "k", true, "", 0⟩, "", 0⟩
    ¬ (h.read 0).entries = [] ∧ ∃ b, marshal h Orders.id d = .ok b ∧
    ((parse b).bind (get "attrs")).map texts = some [("a", "1"), ("b", "2")] ∧
    ((parse b).bind (get "resource")).bind (text "uid") = some "r" := by
  refine ⟨by decide, _, rfl, by decide +kernel, by decide +kernel⟩

/-- **C47** for the repository's own types: which interfaces they implement. Entities and objects passed
by value and graph edges are rejected; a graph node is written as an entity. -/
theorem c47_types (h : Heap) (o : Orders) (e : Space.Entity) (x : Space.Object) (r : Space.Resource)
    (l : Space.Link) (u : Uid) (t : String) (a : Ref) :
    IsResource (Dyn.ofResource r) ∧
    (IsObject (Dyn.objectPtr x) ∧ ¬ IsResource (Dyn.objectPtr x)) ∧
    (IsEntity (Dyn.entityPtr e) ∧ ¬ IsResource (Dyn.entityPtr e) ∧ ¬ IsObject (Dyn.entityPtr e)) ∧
    (IsLink (Dyn.ofLink l) ∧ ¬ IsEntity (Dyn.ofLink l)) ∧
    (IsEntity (Dyn.ofNode u t a) ∧ ¬ IsResource (Dyn.ofNode u t a) ∧ ¬ IsObject (Dyn.ofNode u t a)) ∧
    marshal h o (Dyn.entityVal e) = .err .unsupportedType ∧
    marshal h o (Dyn.objectVal x) = .err .unsupportedType ∧
    marshal h o (Dyn.ofEdge u a) = .err .unsupportedType := by
  simp [IsResource, IsObject, IsEntity, IsLink, Dyn.ofResource, Dyn.objectPtr, Dyn.entityPtr,
    Dyn.ofLink, Dyn.ofNode, Dyn.entityVal, Dyn.objectVal, Dyn.ofEdge, marshal, asResource, asObject,
    asEntity, asLink]

/-- Non-vacuity of C47: a type that implements everything is written as a resource. -/
example :
    let d : Dyn := ⟨some ⟨1, "u"⟩, some "t", some 0, some "n", some "g", some "v", some "k", some true,
      some "s", some none, some ⟨1, "f"⟩, some ⟨2, "t"⟩⟩
    (marshal (Attrs.new Heap.empty).2 Orders.id d).toOption.map String.ofList = some
      "{\"uid\":\"u\",\"type\":\"t\",\"name\":\"n\",\"group\":\"g\",\"version\":\"v\",\"kind\":\"k\",\"namespaced\":true}" := by
  decide

/-! ## C48 -/

/-- **C48** (entities). -/
theorem c48_entity (h h' : Heap) (o o' : Orders) (e e' : Space.Entity) (hs : LikeEntity h e h' e') :
    marshal h o (Dyn.entityPtr e) = marshal h' o' (Dyn.entityPtr e') := by
  obtain ⟨h1, h2, h3⟩ := hs
  show Res.ok (render (entityJ _ _)) = Res.ok (render (entityJ _ _))
  unfold entityJ entityFields Transport.entityFromSpace
  simp only [h1, h2]
  rw [attrsField_eq o.enc o'.enc (Attrs.toMap h o.copy e.attrs) (Attrs.toMap h' o'.copy e'.attrs)
    (fun k => (Attrs.get?_copyLoop _ _ _ _).trans ((h3 k).trans (Attrs.get?_copyLoop _ _ _ _).symm))]

/-- **C48** (resources). -/
theorem c48_resource (h h' : Heap) (o o' : Orders) (e e' : Space.Resource)
    (hs : LikeResource h e h' e') :
    marshal h o (Dyn.ofResource e) = marshal h' o' (Dyn.ofResource e') := by
  show Res.ok (render (resourceJ _ _)) = Res.ok (render (resourceJ _ _))
  exact congrArg (fun j => Res.ok (render j)) (resourceJ_eq h h' o.copy o'.copy o.enc o'.enc
    ⟨e.uid, e.typ, e.name, e.group, e.version, e.kind, e.namespaced, "", e.attrs⟩
    ⟨e'.uid, e'.typ, e'.name, e'.group, e'.version, e'.kind, e'.namespaced, "", e'.attrs⟩ hs)

/-- **C48** (objects). -/
theorem c48_object (h h' : Heap) (o o' : Orders) (e e' : Space.Object) (hs : LikeObject h e h' e') :
    marshal h o (Dyn.objectPtr e) = marshal h' o' (Dyn.objectPtr e') := by
  obtain ⟨h1, h2, h3, h4, h5, h6⟩ := hs
  show Res.ok (render (objectJ _ _ _)) = Res.ok (render (objectJ _ _ _))
  unfold objectJ entityFields Transport.objectFromSpace
  simp only [h1, h2, h3, h4]
  rw [attrsField_eq o.enc o'.enc (Attrs.toMap h o.copy e.attrs) (Attrs.toMap h' o'.copy e'.attrs)
    (fun k => (Attrs.get?_copyLoop _ _ _ _).trans ((h6 k).trans (Attrs.get?_copyLoop _ _ _ _).symm))]
  have : resourceField o.enc2 (e.res.map (Transport.resourceFromSpace h o.copy2)) =
      resourceField o'.enc2 (e'.res.map (Transport.resourceFromSpace h' o'.copy2)) := by
    revert h5
    cases e.res <;> cases e'.res <;> intro h5
    · rfl
    · exact h5.elim
    · exact h5.elim
    · simp only [Option.map, resourceField]
      rw [resourceJ_eq h h' o.copy2 o'.copy2 o.enc2 o'.enc2 _ _ h5]
  rw [this]

/-- **C48** (links). -/
theorem c48_link (h h' : Heap) (o o' : Orders) (e e' : Space.Link) (hs : LikeLink h e h' e') :
    marshal h o (Dyn.ofLink e) = marshal h' o' (Dyn.ofLink e') := by
  obtain ⟨h1, h2, h3, h4⟩ := hs
  show Res.ok (render (linkJ _ _)) = Res.ok (render (linkJ _ _))
  unfold linkJ Transport.linkFromSpace
  simp only [h1, h2, h3]
  rw [attrsField_eq o.enc o'.enc (Attrs.toMap h o.copy e.attrs) (Attrs.toMap h' o'.copy e'.attrs)
    (fun k => (Attrs.get?_copyLoop _ _ _ _).trans ((h4 k).trans (Attrs.get?_copyLoop _ _ _ _).symm))]

/-- Non-vacuity of C48: the same attributes added in different orders, copied and encoded in different
orders. -/
example :
    let h := (Heap.empty.alloc ((GoMap.empty.set "a" "1").set "b" "2")).2
    let h' := (Heap.empty.alloc ((GoMap.empty.set "b" "2").set "a" "1")).2
    let e : Space.Entity := ⟨⟨1, "u"⟩, "t", "", 0⟩
    LikeEntity h e h' e ∧ (h.read 0).entries ≠ (h'.read 0).entries ∧
    (marshal h Orders.id (Dyn.entityPtr e)).toOption.map String.ofList = some
      "{\"uid\":\"u\",\"type\":\"t\",\"attrs\":{\"a\":\"1\",\"b\":\"2\"}}" := by
  refine ⟨⟨rfl, rfl, ?_⟩, by decide, by decide⟩
  intro k
  show ((GoMap.empty.set "a" "1").set "b" "2").get? k = ((GoMap.empty.set "b" "2").set "a" "1").get? k
  simp only [GoMap.get?_set, GoMap.get?_empty]
  by_cases h1 : k = "a" <;> by_cases h2 : k = "b" <;> simp_all

end Netscrape.Props
