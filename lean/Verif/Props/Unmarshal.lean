import Verif.Lemmas.Unmarshal

/-!
# `Unmarshal` on arbitrary input (C75, C76, C77)

The specification (`Verif.Spec.JsonText`, `Verif.Spec.Unmarshal`) is a grammar of JSON texts and a
description of what a document says about each field; it does not mention the parser or the decoder.
-/

namespace Netscrape.Props
open Netscrape.Json Netscrape.Marshal Netscrape.Spec.Space Netscrape.Spec.Json Netscrape.Spec.Unmarshal

deriving instance DecidableEq for J, Elems, Members

/-! ## C75: Unmarshal accepts exactly the documents that fit, and returns what they say -/

private theorem newFromMap_read (g : Heap) (o : Order (String × String)) (m : AttrMap) (k : String) :
    ((Attrs.newFromMap g o m).2.read (Attrs.newFromMap g o m).1).get? k = m.get? k := by
  unfold Attrs.newFromMap
  rw [Heap.read_alloc_new, get?_foldl_set_perm _ _ (o.perm _)]

private theorem newFromMap_extends (g : Heap) (o : Order (String × String)) (m : AttrMap) :
    (Attrs.newFromMap g o m).2.Extends g := Heap.Extends.alloc _ _

private theorem newFromMap_valid (g : Heap) (o : Order (String × String)) (m : AttrMap) :
    (Attrs.newFromMap g o m).2.Valid (Attrs.newFromMap g o m).1 := Heap.valid_alloc_new _ _

private theorem newFromMap_fresh (g : Heap) (o : Order (String × String)) (m : AttrMap) :
    ¬ g.Valid (Attrs.newFromMap g o m).1 := Heap.alloc_fresh _ _

/-- A decoder for a struct accepts exactly the documents that fit. -/
private theorem decode_document {σ : Type} {dec : J → Option σ} {Fits : Ms → Prop} {Reads : Ms → σ → Prop}
    (hobj : ∀ l, (Fits (list l) → ∃ e, dec (.obj l) = some e ∧ Reads (list l) e) ∧
      (¬ Fits (list l) → dec (.obj l) = none))
    (hnull : ∃ e, dec .null = some e ∧ Reads [] e) (hfits : Fits [])
    (hrest : ∀ v, v ≠ .null → (∀ l, v ≠ .obj l) → dec v = none) (b : Bytes) :
    (∃ ms e, Document b ms ∧ Fits ms ∧ (parse b).bind dec = some e ∧ Reads ms e) ∨
    ((¬ ∃ ms, Document b ms ∧ Fits ms) ∧ (parse b).bind dec = none) := by
  cases hp : parse b with
  | none =>
    refine Or.inr ⟨?_, rfl⟩
    rintro ⟨ms, (⟨ht, -⟩ | ⟨l, ht, -⟩), -⟩
    · rw [(parse_iff b _).mpr ht] at hp; cases hp
    · rw [(parse_iff b _).mpr ht] at hp; cases hp
  | some v =>
    have ht := (parse_iff b v).mp hp
    have huniq : ∀ v', Text b v' → v' = v := by
      intro v' hv'
      have := (parse_iff b v').mpr hv'
      rw [hp] at this; exact (Option.some.inj this).symm
    by_cases hn : v = .null
    · subst hn
      obtain ⟨e, h1, h2⟩ := hnull
      exact Or.inl ⟨[], e, Or.inl ⟨ht, rfl⟩, hfits, h1, h2⟩
    · by_cases ho : ∃ l, v = .obj l
      · obtain ⟨l, rfl⟩ := ho
        by_cases hf : Fits (list l)
        · obtain ⟨e, h1, h2⟩ := (hobj l).1 hf
          exact Or.inl ⟨list l, e, Or.inr ⟨l, ht, rfl⟩, hf, h1, h2⟩
        · refine Or.inr ⟨?_, (hobj l).2 hf⟩
          rintro ⟨ms, (⟨h, -⟩ | ⟨l', h, rfl⟩), hfit⟩
          · exact hn (huniq _ h).symm
          · cases huniq _ h
            exact hf hfit
      · refine Or.inr ⟨?_, hrest v hn fun l hl => ho ⟨l, hl⟩⟩
        rintro ⟨ms, (⟨h, -⟩ | ⟨l', h, rfl⟩), hfit⟩
        · exact hn (huniq _ h).symm
        · exact ho ⟨l', (huniq _ h).symm⟩

private theorem fits_nil : FitsEntity [] := by simp [FitsEntity, given]

/-- **C75** (entities): for every sequence of bytes, `Unmarshal` into a `*space.Entity` either succeeds, and
then the bytes are a JSON text of a document whose fields have the right types and the entity is what the
document says, or it returns an error, and then they are not. It never panics, and allocates new attributes
rather than touching existing ones. -/
theorem c75_entity (g : Heap) (c : Transport.Choice) (b : Bytes) :
    (∃ ms e g', Document b ms ∧ FitsEntity ms ∧ unmarshal g c b .entity = .ok (.entity e, g') ∧
      SaysEntity ms g' e ∧ e.dotid = e.uid.str ∧ g'.Extends g ∧ ¬ g.Valid e.attrs) ∨
    ((¬ ∃ ms, Document b ms ∧ FitsEntity ms) ∧ unmarshal g c b .entity = .err .json) := by
  rcases decode_document decodeEntity ⟨_, rfl, readsEntity_zero⟩ fits_nil
    (fun v h1 h2 => by cases v <;> first | rfl | exact absurd rfl h1 | exact absurd rfl (h2 _)) b with
    ⟨ms, e, h1, h2, h3, h4⟩ | ⟨h1, h2⟩
  · refine Or.inl ⟨ms, (Transport.entityToSpace g c e).1, (Transport.entityToSpace g c e).2, h1, h2, ?_, ?_, ?_, ?_, ?_⟩
    · simp only [unmarshal, h3]
    · exact ⟨h4.1, h4.2.1, fun k => (newFromMap_read _ _ _ k).trans (h4.2.2 k)⟩
    · rfl
    · exact newFromMap_extends _ _ _
    · exact newFromMap_fresh g c.order e.attrs
  · exact Or.inr ⟨h1, by simp only [unmarshal, h2]⟩

/-- **C75** (resources). -/
theorem c75_resource (g : Heap) (c : Transport.Choice) (b : Bytes) :
    (∃ ms r g', Document b ms ∧ FitsResource ms ∧ unmarshal g c b .resource = .ok (.resource r, g') ∧
      SaysResource ms g' r ∧ r.dotid = defaultResourceDOT r ∧ g'.Extends g ∧ ¬ g.Valid r.attrs) ∨
    ((¬ ∃ ms, Document b ms ∧ FitsResource ms) ∧ unmarshal g c b .resource = .err .json) := by
  rcases decode_document (dec := toResource) (fun l => decodeResource l [] zeroResource readsResource_zero)
    ⟨_, rfl, readsResource_zero⟩ ⟨fits_nil, by simp [given]⟩
    (fun v h1 h2 => by cases v <;> first | rfl | exact absurd rfl h1 | exact absurd rfl (h2 _)) b with
    ⟨ms, r, h1, h2, h3, h4⟩ | ⟨h1, h2⟩
  · refine Or.inl ⟨ms, (Transport.resourceToSpace g c r).1, (Transport.resourceToSpace g c r).2, h1, h2, ?_, ?_, ?_,
      ?_, ?_⟩
    · simp only [unmarshal, h3]
    · obtain ⟨⟨a1, a2, a3⟩, a4, a5, a6, a7, a8⟩ := h4
      exact ⟨a1, a2, a4, a5, a6, a7, a8, fun k => (newFromMap_read _ _ _ k).trans (a3 k)⟩
    · show Space.join _ = _
      simp [Space.join, defaultResourceDOT, String.append_assoc, Transport.resourceToSpace, Space.newResource]
    · exact newFromMap_extends _ _ _
    · exact newFromMap_fresh g c.order r.attrs
  · exact Or.inr ⟨h1, by simp only [unmarshal, h2]⟩

/-- **C75** (objects). -/
theorem c75_object (g : Heap) (c : Transport.Choice) (b : Bytes) :
    (∃ ms o g', Document b ms ∧ FitsObject ms ∧ unmarshal g c b .object = .ok (.object o, g') ∧
      SaysObject ms g' o ∧ g'.Extends g ∧ ¬ g.Valid o.attrs ∧
      ∀ r, o.res = some r → ¬ g.Valid r.attrs ∧ r.attrs ≠ o.attrs) ∨
    ((¬ ∃ ms, Document b ms ∧ FitsObject ms) ∧ unmarshal g c b .object = .err .json) := by
  rcases decode_document (dec := toObject) decodeObject
    ⟨_, rfl, readsEntity_zero, rfl, rfl, trivial⟩ ⟨fits_nil, by simp [given]⟩
    (fun v h1 h2 => by cases v <;> first | rfl | exact absurd rfl h1 | exact absurd rfl (h2 _)) b with
    ⟨ms, x, h1, h2, h3, h4⟩ | ⟨h1, h2⟩
  · refine Or.inl ⟨ms, (Transport.objectToSpace g c x).1, (Transport.objectToSpace g c x).2, h1, h2, ?_, ?_⟩
    · simp only [unmarshal, h3]
    · obtain ⟨⟨a1, a2, a3⟩, a4, a5, a6⟩ := h4
      obtain ⟨⟨uid, typ, attrs⟩, name, ns, res⟩ := x
      cases hm : resourceMembers ms with
      | none =>
        rw [hm] at a6
        cases res with
        | some r => exact a6.elim
        | none =>
          refine ⟨⟨a1, a2, a4, a5, fun k => (newFromMap_read _ _ _ k).trans (a3 k), ?_⟩, newFromMap_extends _ _ _,
            newFromMap_fresh g c.order attrs, fun r hr => by cases hr⟩
          rw [hm]; trivial
      | some rs =>
        rw [hm] at a6
        cases res with
        | none => exact a6.elim
        | some r =>
          obtain ⟨⟨b1, b2, b3⟩, b4, b5, b6, b7, b8⟩ := a6
          have hv := newFromMap_valid g c.order2 r.attrs
          refine ⟨⟨a1, a2, a4, a5, fun k => (newFromMap_read _ _ _ k).trans (a3 k), ?_⟩,
            (newFromMap_extends _ _ _).trans (newFromMap_extends _ _ _), ?_, ?_⟩
          · rw [hm]
            refine ⟨b1, b2, b4, b5, b6, b7, b8, fun k => ?_⟩
            refine (congrArg (GoMap.get? · k) ((newFromMap_extends _ _ _).read hv)).trans ?_
            exact (newFromMap_read _ _ _ k).trans (b3 k)
          · exact fun hva => newFromMap_fresh (Attrs.newFromMap g c.order2 r.attrs).2 c.order attrs ((newFromMap_extends _ _ _).valid hva)
          · rintro _ ⟨⟩
            refine ⟨newFromMap_fresh g c.order2 r.attrs, fun he => ?_⟩
            have he' : (Attrs.newFromMap g c.order2 r.attrs).1 =
              (Attrs.newFromMap (Attrs.newFromMap g c.order2 r.attrs).2 c.order attrs).1 := he
            refine newFromMap_fresh (Attrs.newFromMap g c.order2 r.attrs).2 c.order attrs ?_
            rw [← he']
            exact hv
  · exact Or.inr ⟨h1, by simp only [unmarshal, h2]⟩

/-- **C75** (links). -/
theorem c75_link (g : Heap) (c : Transport.Choice) (b : Bytes) :
    (∃ ms l g', Document b ms ∧ FitsLink ms ∧ unmarshal g c b .link = .ok (.link l, g') ∧
      SaysLink ms g' l ∧ g'.Extends g ∧ ¬ g.Valid l.attrs) ∨
    ((¬ ∃ ms, Document b ms ∧ FitsLink ms) ∧ unmarshal g c b .link = .err .json) := by
  rcases decode_document decodeLink ⟨_, rfl, rfl, rfl, rfl, fun _ => rfl⟩ (by simp [FitsLink, given])
    (fun v h1 h2 => by cases v <;> first | rfl | exact absurd rfl h1 | exact absurd rfl (h2 _)) b with
    ⟨ms, e, h1, h2, h3, h4⟩ | ⟨h1, h2⟩
  · refine Or.inl ⟨ms, (Transport.linkToSpace g c e).1, (Transport.linkToSpace g c e).2, h1, h2, ?_, ?_, ?_, ?_⟩
    · simp only [unmarshal, h3]
    · exact ⟨h4.1, h4.2.1, h4.2.2.1, fun k => (newFromMap_read _ _ _ k).trans (h4.2.2.2 k)⟩
    · exact newFromMap_extends _ _ _
    · exact newFromMap_fresh g c.order e.attrs
  · exact Or.inr ⟨h1, by simp only [unmarshal, h2]⟩

/-- **C75** (other targets): anything but a pointer to one of the four interfaces is refused. -/
theorem c75_other (g : Heap) (c : Transport.Choice) (b : Bytes) :
    unmarshal g c b .other = .err .unsupportedType := rfl

/-- The document `{ "uid" : "a\u0062", "TYPE":"t", "x":[1e5], "attrs" : {"k":"v"} }` fits an entity: there are
documents no `Marshal` would write that are accepted. -/
example : (match unmarshal Heap.empty ⟨0, 0, 0, Order.id, Order.id⟩
    "{ \"uid\" : \"a\\u0062\", \"TYPE\":\"t\", \"x\":[1e5], \"attrs\" : {\"k\":\"v\"} }".toList .entity with
    | .ok (.entity e, g) => e.uid.str == "ab" && e.typ == "t" && (g.read e.attrs).get? "k" == some "v"
    | _ => false) = true := by decide +kernel

/-- A number where a string is needed is refused. -/
example : (match unmarshal Heap.empty ⟨0, 0, 0, Order.id, Order.id⟩ "{\"uid\":1}".toList .entity with
    | .err .json => true
    | _ => false) = true := by decide +kernel

/-- Such documents exist for the specification too. -/
example : Document "{\"uid\":\"a\"}".toList [("uid".toList, .str "a".toList)] :=
  Or.inr ⟨.cons "uid".toList (.str "a".toList) .nil, (parse_iff _ _).mp (by decide +kernel), rfl⟩

example : FitsEntity [("uid".toList, .str "a".toList)] := by
  have key : ∀ f v, v ∈ given f [("uid".toList, .str "a".toList)] → v = .str "a".toList := by
    intro f v hv
    simp only [given, List.mem_map, List.mem_filter, List.mem_singleton] at hv
    obtain ⟨_, ⟨rfl, -⟩, rfl⟩ := hv
    rfl
  refine ⟨fun v hv => Or.inr ⟨_, key _ v hv⟩, fun v hv => Or.inr ⟨_, key _ v hv⟩, fun v hv => ?_⟩
  exfalso
  simp only [given, List.mem_map, List.mem_filter, List.mem_singleton, decide_eq_true_eq] at hv
  obtain ⟨_, ⟨rfl, hn⟩, -⟩ := hv
  have : Names "uid".toList "uid" := (foldKey_iff _ (by decide) _).mp (by decide)
  exact other this "attrs" (by decide) (by decide) (by decide) hn

/-! ## C76: a successful Unmarshal means the document was complete and of the right kind -/

/-- An accepted entity document has a `uid` and a `type`. -/
def RejectsIncomplete : Prop := ∀ (g g' : Heap) (c : Transport.Choice) (b : Bytes) (e : Space.Entity),
  unmarshal g c b .entity = .ok (.entity e, g') →
  ∃ ms, Document b ms ∧ given "uid" ms ≠ [] ∧ given "type" ms ≠ []

/-- What was marshalled as a link is not read as an entity. -/
def RejectsKind : Prop := ∀ (h g : Heap) (o : Orders) (c : Transport.Choice) (l : Space.Link) (b : Bytes),
  marshal h o (Dyn.ofLink l) = .ok b → ∃ x, unmarshal g c b .entity = .err x

private theorem document_unique {b : Bytes} {ms ms' : Ms} (h : Document b ms) (h' : Document b ms') : ms = ms' := by
  have key : ∀ {v v'}, Text b v → Text b v' → v = v' := by
    intro v v' hv hv'
    have := (parse_iff b v).mpr hv
    rw [(parse_iff b v').mpr hv'] at this
    exact (Option.some.inj this).symm
  rcases h with ⟨h1, rfl⟩ | ⟨l, h1, rfl⟩ <;> rcases h' with ⟨h2, rfl⟩ | ⟨l', h2, rfl⟩
  · rfl
  · cases key h1 h2
  · cases key h1 h2
  · cases key h1 h2; rfl

/-- **C76 is violated**: `{}` (and `null`) is accepted and gives an entity with an empty UID and type. -/
theorem c76_incomplete_violated : ¬ RejectsIncomplete := by
  intro hr
  have hp : parse "{}".toList = some (.obj .nil) := by decide +kernel
  obtain ⟨ms, h1, h2, -⟩ := hr Heap.empty _ ⟨0, 0, 0, Order.id, Order.id⟩ "{}".toList
    ⟨⟨0, ""⟩, "", "", 0⟩ (by simp only [unmarshal, hp]; rfl)
  have : Document "{}".toList [] := Or.inr ⟨.nil, (parse_iff _ _).mp hp, rfl⟩
  cases document_unique h1 this
  exact h2 rfl

private theorem decode_skip {σ : Type} {names : List String} {set : String → σ → J → Option σ} {k : Bytes}
    {v : J} {t : List (Bytes × J)} {s : σ} (hk : fieldOf names (sanitize k) = none) :
    decodeFields names set (sanM (membersOf ((k, v) :: t))) s = decodeFields names set (sanM (membersOf t)) s := by
  simp only [membersOf, sanM, decodeFields, hk]

private theorem toEntity_linkJ (o : Order (String × String)) (l : Transport.Link) :
    toEntity (sanJ (linkJ o l)) = some ⟨san l.uid, "", sanAttrs o l.attrs⟩ := by
  show decodeFields entityNames setEntity (sanM (membersOf ([_, _, _] ++ attrsField o l.attrs))) zeroEntity = _
  rw [List.cons_append, decode_cons (n := "uid") (by decide) rfl,
    List.cons_append, decode_skip (by decide), List.cons_append, decode_skip (by decide), List.nil_append]
  have := decode_attrs (names := entityNames) (set := setEntity) o l.attrs (t := [])
    (s := ⟨san l.uid, "", GoMap.empty⟩) (fun s m => { s with attrs := m }) (by decide) (fun v => rfl) rfl
  rw [List.append_nil] at this
  exact this

private theorem unmarshal_as_entity {g : Heap} {c : Transport.Choice} {j : J} {t : Transport.Entity} (hn : NoNum j)
    (hd : toEntity (sanJ j) = some t) : unmarshal g c (render j) .entity =
      .ok (.entity (Transport.entityToSpace g c t).1, (Transport.entityToSpace g c t).2) := by
  simp only [unmarshal, parse_render _ hn, Option.bind, hd]

/-- **C76, how links are read**: every marshalled link can be read as an entity, with an empty type. -/
theorem c76_link_as_entity_partial (h g : Heap) (o : Orders) (c : Transport.Choice) (l : Space.Link)
    (hv : ValidLink h l) :
    ∃ b e g', marshal h o (Dyn.ofLink l) = .ok b ∧ unmarshal g c b .entity = .ok (.entity e, g') ∧
      e.uid.str = l.uid.str ∧ e.typ = "" ∧ SameMap (h.read l.attrs) (g'.read e.attrs) := by
  obtain ⟨h1, -, -, h4⟩ := hv
  refine ⟨_, _, _, rfl, unmarshal_as_entity (noNum_linkJ _ _) (toEntity_linkJ _ _), ?_⟩
  · refine ⟨(san_iff _).mpr h1, rfl, fun k => ?_⟩
    refine Eq.trans ?_ (newFromMap_read _ _ _ k).symm
    refine Eq.trans (Attrs.get?_copyLoop h o.copy l.attrs k).symm ?_
    refine (sanAttrs_valid _ _ (fun k v hk => h4 k v ?_) k).symm
    exact (Attrs.get?_copyLoop h o.copy l.attrs k).symm.trans hk

/-- **C76 is violated** for kinds too. -/
theorem c76_kind_violated : ¬ RejectsKind := by
  intro hr
  have hv : ValidLink (Heap.empty.alloc GoMap.empty).2 ⟨⟨0, "l"⟩, ⟨1, "a"⟩, ⟨2, "b"⟩, 0⟩ :=
    ⟨(san_iff _).mp (by decide), (san_iff _).mp (by decide), (san_iff _).mp (by decide), fun k v hk => by cases hk⟩
  obtain ⟨b, e, g', h1, h2, -⟩ := c76_link_as_entity_partial _ Heap.empty Orders.id ⟨0, 0, 0, Order.id, Order.id⟩ _ hv
  obtain ⟨x, hx⟩ := hr _ Heap.empty Orders.id ⟨0, 0, 0, Order.id, Order.id⟩ _ b h1
  rw [h2] at hx
  cases hx

private theorem textOf_mem (field : String) (ms : Ms) (hne : textOf field ms ≠ "") :
    ∃ s, .str s ∈ given field ms ∧ String.ofList s = textOf field ms := by
  unfold textOf at *
  generalize given field ms = l at *
  have key : ∀ (l : List J) (a : String),
      l.foldl (fun old v => match v with | .str s => String.ofList s | _ => old) a = a ∨
      ∃ s, .str s ∈ l ∧ String.ofList s =
        l.foldl (fun old v => match v with | .str s => String.ofList s | _ => old) a := by
    intro l
    induction l with
    | nil => intro a; exact Or.inl rfl
    | cons v l ih =>
      intro a
      rw [List.foldl_cons]
      rcases ih (match v with | .str s => String.ofList s | _ => a) with h | ⟨s, hs, he⟩
      · rw [h]
        cases v with
        | str s => exact Or.inr ⟨s, by simp, rfl⟩
        | _ => exact Or.inl rfl
      · exact Or.inr ⟨s, by simp [hs], he⟩
  rcases key l "" with h | h
  · exact absurd h hne
  · exact h

/-- **C76, what holds**: a UID or type that is not empty was given by the document, so a caller finds missing
fields by looking for empty strings. -/
theorem c76_nonempty_partial (g g' : Heap) (c : Transport.Choice) (b : Bytes) (e : Space.Entity)
    (hok : unmarshal g c b .entity = .ok (.entity e, g')) :
    ∃ ms, Document b ms ∧
      (e.uid.str ≠ "" → ∃ s, .str s ∈ given "uid" ms ∧ String.ofList s = e.uid.str) ∧
      (e.typ ≠ "" → ∃ s, .str s ∈ given "type" ms ∧ String.ofList s = e.typ) := by
  rcases c75_entity g c b with ⟨ms, e', g'', h1, -, h2, ⟨a1, a2, -⟩, -⟩ | ⟨-, h⟩
  · rw [hok] at h2
    cases h2
    refine ⟨ms, h1, ?_, ?_⟩
    · rw [a1]; exact textOf_mem _ _
    · rw [a2]; exact textOf_mem _ _
  · rw [hok] at h; cases h

/-! ## C77: a marshalled resource or object can be read as the entity it is -/

private theorem toEntity_fields (o : Order (String × String)) (e : Transport.Entity) (t : List (Bytes × J))
    (ht : ∀ m ∈ t, fieldOf entityNames (sanitize m.1) = none) :
    decodeFields entityNames setEntity (sanM (membersOf (entityFields o e ++ t))) zeroEntity =
      some (sanEntity o e) := by
  unfold entityFields
  rw [List.append_assoc, List.cons_append, decode_cons (n := "uid") (by decide) rfl,
    List.cons_append, decode_cons (n := "type") (by decide) rfl, List.nil_append]
  refine (decode_attrs (names := entityNames) (set := setEntity) o e.attrs (t := t)
    (s := ⟨san e.uid, san e.typ, GoMap.empty⟩) (fun s m => { s with attrs := m }) (by decide)
    (fun v => rfl) rfl).trans ?_
  have skip : ∀ (t : List (Bytes × J)) (s : Transport.Entity),
      (∀ m ∈ t, fieldOf entityNames (sanitize m.1) = none) →
      decodeFields entityNames setEntity (sanM (membersOf t)) s = some s := by
    intro t
    induction t with
    | nil => intros; rfl
    | cons m t ih =>
      intro s hs
      obtain ⟨k, v⟩ := m
      rw [decode_skip (hs (k, v) (by simp))]
      exact ih s fun m hm => hs m (by simp [hm])
  exact skip t _ ht

private theorem read_as_entity {h g : Heap} {o : Orders} {c : Transport.Choice} {d : Dyn} {j : J}
    {uid typ : String} {a : Ref}
    (hm : marshal h o d = .ok (render j)) (hn : NoNum j)
    (hd : toEntity (sanJ j) = some (sanEntity o.enc ⟨uid, typ, Attrs.toMap h o.copy a⟩))
    (h1 : Valid uid) (h2 : Valid typ) (h3 : ValidMap (h.read a)) :
    ∃ b e g', marshal h o d = .ok b ∧ unmarshal g c b .entity = .ok (.entity e, g') ∧
      e.uid.str = uid ∧ e.typ = typ ∧ SameMap (h.read a) (g'.read e.attrs) ∧ g'.Extends g := by
  refine ⟨_, _, _, hm, unmarshal_as_entity hn hd, ?_⟩
  · refine ⟨(san_iff _).mpr h1, (san_iff _).mpr h2, fun k => ?_, newFromMap_extends _ _ _⟩
    refine Eq.trans ?_ (newFromMap_read _ _ _ k).symm
    refine Eq.trans (Attrs.get?_copyLoop h o.copy a k).symm ?_
    refine (sanAttrs_valid _ _ (fun k v hk => h3 k v ?_) k).symm
    exact (Attrs.get?_copyLoop h o.copy a k).symm.trans hk

/-- **C77** (resources): the receiver of a marshalled resource may read it as an entity and gets its UID, type
and attributes. -/
theorem c77_resource (h g : Heap) (o : Orders) (c : Transport.Choice) (r : Space.Resource)
    (hv : ValidResource h r) :
    ∃ b e g', marshal h o (Dyn.ofResource r) = .ok b ∧ unmarshal g c b .entity = .ok (.entity e, g') ∧
      e.uid.str = r.uid.str ∧ e.typ = r.typ ∧ SameMap (h.read r.attrs) (g'.read e.attrs) ∧ g'.Extends g := by
  obtain ⟨h1, h2, -, -, -, -, h7⟩ := hv
  refine read_as_entity rfl (noNum_resourceJ _ _) ?_ h1 h2 h7
  exact toEntity_fields _ _ _ (by intro m hm; simp at hm; rcases hm with rfl | rfl | rfl | rfl | rfl <;> (dsimp only; decide))

/-- **C77** (objects, with or without a resource). -/
theorem c77_object (h g : Heap) (o : Orders) (c : Transport.Choice) (x : Space.Object)
    (hv : ValidObject h x) :
    ∃ b e g', marshal h o (Dyn.objectPtr x) = .ok b ∧ unmarshal g c b .entity = .ok (.entity e, g') ∧
      e.uid.str = x.uid.str ∧ e.typ = x.typ ∧ SameMap (h.read x.attrs) (g'.read e.attrs) ∧ g'.Extends g := by
  obtain ⟨h1, h2, -, -, -, h7⟩ := hv
  refine read_as_entity rfl (noNum_objectJ _ _ _) ?_ h1 h2 h7
  obtain ⟨uid, typ, name, ns, res, dotid, a⟩ := x
  show decodeFields entityNames setEntity (sanM (membersOf (entityFields o.enc _ ++ _ ++ _))) zeroEntity = _
  rw [List.append_assoc]
  refine toEntity_fields _ _ _ ?_
  intro m hm
  cases res with
  | none =>
    simp [Transport.objectFromSpace, resourceField] at hm
    rcases hm with rfl | rfl <;> (dsimp only; decide)
  | some r =>
    simp [Transport.objectFromSpace, resourceField] at hm
    rcases hm with rfl | rfl | rfl <;> (dsimp only; decide)

example : ValidResource (Heap.empty.alloc (GoMap.empty.set "k" "v")).2
    ⟨⟨0, "u"⟩, "t", "n", "g", "v", "k", true, "d", 0⟩ :=
  ⟨(san_iff _).mp (by decide), (san_iff _).mp (by decide), (san_iff _).mp (by decide), (san_iff _).mp (by decide),
    (san_iff _).mp (by decide), (san_iff _).mp (by decide), by
    intro k v hk
    change (GoMap.get? (GoMap.empty.set "k" "v") k) = some v at hk
    rw [GoMap.get?_set] at hk
    split at hk
    · rename_i he; cases hk; cases he; exact ⟨(san_iff _).mp (by decide), (san_iff _).mp (by decide)⟩
    · cases hk⟩

end Netscrape.Props
