import Verif.Lemmas.Utf8
import Verif.Lemmas.Attrs
import Verif.Model.Marshal
import Verif.Spec.Space

/-!
# Encoding and decoding the transport structs
-/

namespace Netscrape.Marshal
open Netscrape.Json Netscrape.Spec.Json

/-- `sanitize` on Go strings. -/
def san (s : String) : String := String.ofList (sanitize s.toList)

theorem san_iff (s : String) : san s = s ↔ Valid s := by
  unfold san Valid
  rw [← sanitize_iff]
  constructor
  · intro h
    have := congrArg String.toList h
    rwa [String.toList_ofList] at this
  · intro h; rw [h, String.ofList_toList]

/-! ## Key order -/

theorem keyLe_refl : ∀ a, keyLe a a = true
  | [] => rfl
  | a :: s => by simp [keyLe, keyLe_refl s]

theorem keyLe_total : ∀ a b, keyLe a b = true ∨ keyLe b a = true
  | [], _ => Or.inl rfl
  | _ :: _, [] => Or.inr rfl
  | a :: s, b :: t => by
    simp only [keyLe]
    rcases Nat.lt_trichotomy a.toNat b.toNat with h | h | h
    · simp [h]
    · have := keyLe_total s t
      simpa [h] using this
    · simp [h]

theorem keyLe_antisymm : ∀ a b, keyLe a b = true → keyLe b a = true → a = b
  | [], [] => fun _ _ => rfl
  | [], _ :: _ => fun _ h => by simp [keyLe] at h
  | _ :: _, [] => fun h => by simp [keyLe] at h
  | a :: s, b :: t => by
    intro h1 h2
    simp only [keyLe] at h1 h2
    rcases Nat.lt_trichotomy a.toNat b.toNat with h | h | h
    · have h' : ¬ b.toNat < a.toNat := by omega
      have h'' : ¬ b.toNat = a.toNat := by omega
      simp [h', h''] at h2
    · simp [h] at h1 h2
      rw [keyLe_antisymm s t h1 h2, show a = b from by
        have := toNat_inj h; rw [this]; exact byte_eq rfl]
    · have h' : ¬ a.toNat < b.toNat := by omega
      have h'' : ¬ a.toNat = b.toNat := by omega
      simp [h', h''] at h1

theorem keyLe_trans : ∀ a b c, keyLe a b = true → keyLe b c = true → keyLe a c = true
  | [], _, _ => fun _ _ => rfl
  | _ :: _, [], _ => fun h => by simp [keyLe] at h
  | _ :: _, _ :: _, [] => fun _ h => by simp [keyLe] at h
  | a :: s, b :: t, c :: u => by
    intro h1 h2
    have ih := keyLe_trans s t u
    simp only [keyLe] at *
    split at h1
    · split at h2
      · rw [if_pos (by omega)]
      · split at h2
        · rw [if_pos (by omega)]
        · cases h2
    · split at h1
      · split at h2
        · rw [if_pos (by omega)]
        · split at h2
          · rw [if_neg (by omega), if_pos (by omega)]; exact ih h1 h2
          · cases h2
      · cases h1

theorem insertKey_perm (e : String × String) : ∀ l, (insertKey e l).Perm (e :: l)
  | [] => .refl _
  | x :: xs => by
    unfold insertKey
    split
    · exact .refl _
    · exact ((insertKey_perm e xs).cons x).trans (.swap e x xs)

theorem sorted_perm (o : Order (String × String)) (m : AttrMap) :
    (sorted o m).Perm m.entries := by
  unfold sorted
  refine .trans ?_ (o.perm m.entries)
  induction o.run m.entries with
  | nil => exact .refl _
  | cons x xs ih => exact (insertKey_perm x _).trans (ih.cons x)

theorem insertKey_sorted (e : String × String) : ∀ l,
    l.Pairwise (fun a b => keyLe a.1.toList b.1.toList = true) →
    (insertKey e l).Pairwise (fun a b => keyLe a.1.toList b.1.toList = true)
  | [], _ => by simp [insertKey]
  | x :: xs, h => by
    rw [List.pairwise_cons] at h
    unfold insertKey
    split
    · rename_i hle
      refine List.pairwise_cons.mpr ⟨?_, List.pairwise_cons.mpr h⟩
      intro b hb
      rcases List.mem_cons.mp hb with rfl | hb
      · exact hle
      · exact keyLe_trans _ _ _ hle (h.1 b hb)
    · rename_i hle
      refine List.pairwise_cons.mpr ⟨?_, insertKey_sorted e xs h.2⟩
      intro b hb
      rcases List.mem_cons.mp ((insertKey_perm e xs).mem_iff.mp hb) with rfl | hb
      · exact (keyLe_total _ _).resolve_left hle
      · exact h.1 b hb

theorem sorted_sorted (o : Order (String × String)) (m : AttrMap) :
    (sorted o m).Pairwise (fun a b => keyLe a.1.toList b.1.toList = true) := by
  unfold sorted
  induction o.run m.entries with
  | nil => exact .nil
  | cons x xs ih => exact insertKey_sorted x _ ih

theorem eq_of_sorted {α : Type} (R : α → α → Prop) (hR : ∀ a b, R a b → ¬ R b a) :
    ∀ l1 l2 : List α, l1.Pairwise R → l2.Pairwise R → (∀ x, x ∈ l1 ↔ x ∈ l2) → l1 = l2
  | [], [], _, _, _ => rfl
  | [], b :: _, _, _, h => by have := (h b).mpr (by simp); simp at this
  | a :: _, [], _, _, h => by have := (h a).mp (by simp); simp at this
  | a :: t, b :: u, h1, h2, h => by
    rw [List.pairwise_cons] at h1 h2
    have hab : a = b := by
      rcases List.mem_cons.mp ((h a).mp (by simp)) with e | ha
      · exact e
      · rcases List.mem_cons.mp ((h b).mpr (by simp)) with e | hb
        · exact e.symm
        · exact absurd (h1.1 b hb) (hR _ _ (h2.1 a ha))
    subst hab
    congr 1
    refine eq_of_sorted R hR t u h1.2 h2.2 ?_
    intro x
    constructor
    · intro hx
      rcases List.mem_cons.mp ((h x).mp (by simp [hx])) with e | hx'
      · subst e; exact absurd (h1.1 x hx) (hR _ _ (h1.1 x hx))
      · exact hx'
    · intro hx
      rcases List.mem_cons.mp ((h x).mpr (by simp [hx])) with e | hx'
      · subst e; exact absurd (h2.1 x hx) (hR _ _ (h2.1 x hx))
      · exact hx'

/-- The sorted entries depend only on what the map holds. -/
theorem sorted_eq (o o' : Order (String × String)) (m m' : AttrMap) (h : ∀ k, m.get? k = m'.get? k) :
    sorted o m = sorted o' m' := by
  have strict : ∀ (o : Order (String × String)) (m : AttrMap), (sorted o m).Pairwise (fun a b =>
      keyLe a.1.toList b.1.toList = true ∧ a.1 ≠ b.1) := by
    intro o m
    have hn : ((sorted o m).map Prod.fst).Nodup :=
      ((sorted_perm o m).map Prod.fst).nodup_iff.mpr m.nodup
    have := List.pairwise_map.mp hn
    exact (sorted_sorted o m).and this
  refine eq_of_sorted _ ?_ _ _ (strict o m) (strict o' m') ?_
  · rintro a b ⟨h1, h2⟩ ⟨h3, -⟩
    exact h2 (String.toList_inj.mp (keyLe_antisymm _ _ h1 h3))
  · rintro ⟨k, v⟩
    rw [(sorted_perm o m).mem_iff, (sorted_perm o' m').mem_iff, ← GoMap.get?_eq_some,
      ← GoMap.get?_eq_some, h]

theorem entries_nil_iff (m m' : AttrMap) (h : ∀ k, m.get? k = m'.get? k) :
    m.entries = [] ↔ m'.entries = [] := by
  have key : ∀ m m' : AttrMap, (∀ k, m.get? k = m'.get? k) → m.entries = [] → m'.entries = [] := by
    intro m m' h he
    cases he' : m'.entries with
    | nil => rfl
    | cons e l =>
      have : m'.get? e.1 = some e.2 := (GoMap.get?_eq_some _ _ _).mpr (by rw [he']; simp)
      rw [← h, GoMap.get?_eq_some, he] at this
      cases this
  exact ⟨key m m' h, key m' m fun k => (h k).symm⟩

theorem attrsField_eq (o o' : Order (String × String)) (m m' : AttrMap)
    (h : ∀ k, m.get? k = m'.get? k) : attrsField o m = attrsField o' m' := by
  unfold attrsField
  rw [sorted_eq o o' m m' h]
  by_cases he : m.entries = []
  · rw [if_pos he, if_pos ((entries_nil_iff m m' h).mp he)]
  · rw [if_neg he, if_neg (fun x => he ((entries_nil_iff m m' h).mpr x))]

/-! ## Documents contain no numbers -/

theorem noNum_membersOf (l : List (Bytes × J)) (h : ∀ e ∈ l, NoNum e.2) : NoNumM (membersOf l) := by
  induction l with
  | nil => trivial
  | cons e l ih =>
    obtain ⟨k, v⟩ := e
    exact ⟨h (k, v) (by simp), ih fun e he => h e (by simp [he])⟩

theorem noNum_attrsField (o : Order (String × String)) (m : AttrMap) :
    ∀ e ∈ attrsField o m, NoNum e.2 := by
  unfold attrsField
  split
  · simp
  · intro e he
    rw [List.mem_singleton.mp he]
    refine noNum_membersOf _ ?_
    intro e he
    obtain ⟨x, -, rfl⟩ := List.mem_map.mp he
    trivial

theorem noNum_entityFields (o : Order (String × String)) (e : Transport.Entity) :
    ∀ x ∈ entityFields o e, NoNum x.2 := by
  intro x hx
  simp only [entityFields, List.mem_append, List.mem_cons, List.not_mem_nil, or_false] at hx
  rcases hx with (rfl | rfl) | hx
  · trivial
  · trivial
  · exact noNum_attrsField _ _ _ hx

theorem noNum_entityJ (o : Order (String × String)) (e : Transport.Entity) : NoNum (entityJ o e) :=
  noNum_membersOf _ (noNum_entityFields o e)

theorem noNum_resourceJ (o : Order (String × String)) (r : Transport.Resource) :
    NoNum (resourceJ o r) := by
  refine noNum_membersOf _ ?_
  intro x hx
  rcases List.mem_append.mp hx with hx | hx
  · exact noNum_entityFields _ _ _ hx
  · simp only [List.mem_cons, List.not_mem_nil, or_false] at hx
    rcases hx with rfl | rfl | rfl | rfl | rfl <;> trivial

theorem noNum_objectJ (o o2 : Order (String × String)) (x : Transport.Object) :
    NoNum (objectJ o o2 x) := by
  refine noNum_membersOf _ ?_
  intro y hy
  rcases List.mem_append.mp hy with hy | hy
  · rcases List.mem_append.mp hy with hy | hy
    · exact noNum_entityFields _ _ _ hy
    · simp only [List.mem_cons, List.not_mem_nil, or_false] at hy
      rcases hy with rfl | rfl <;> trivial
  · unfold resourceField at hy
    split at hy
    · cases hy
    · rw [List.mem_singleton.mp hy]; exact noNum_resourceJ _ _

theorem noNum_linkJ (o : Order (String × String)) (l : Transport.Link) : NoNum (linkJ o l) := by
  refine noNum_membersOf _ ?_
  intro x hx
  rcases List.mem_append.mp hx with hx | hx
  · simp only [List.mem_cons, List.not_mem_nil, or_false] at hx
    rcases hx with rfl | rfl | rfl <;> trivial
  · exact noNum_attrsField _ _ _ hx

/-! ## Decoding what was encoded -/

theorem sanM_membersOf (l : List (Bytes × J)) :
    sanM (membersOf l) = membersOf (l.map fun e => (sanitize e.1, sanJ e.2)) := by
  induction l with
  | nil => rfl
  | cons e l ih => obtain ⟨k, v⟩ := e; simp only [membersOf, sanM, List.map, ih]

/-- The attributes that arrive: keys and values sanitised, later keys overwriting. -/
def sanAttrs (o : Order (String × String)) (m : AttrMap) : AttrMap :=
  (sorted o m).foldl (fun acc e => acc.set (san e.1) (san e.2)) GoMap.empty

theorem toEntries_sorted (l : List (String × String)) : ∀ m : AttrMap,
    toEntries (sanM (membersOf (l.map fun e => (e.1.toList, str e.2)))) m =
      some (l.foldl (fun acc e => acc.set (san e.1) (san e.2)) m) := by
  induction l with
  | nil => intro m; rfl
  | cons e l ih =>
    intro m
    simp only [List.map, membersOf, sanM, str, sanJ, toEntries, toStr, List.foldl]
    exact ih _

theorem decode_cons {σ : Type} {names : List String} {set : String → σ → J → Option σ} {k : Bytes}
    {n : String} {v : J} {t : List (Bytes × J)} {s s' : σ}
    (hk : fieldOf names (sanitize k) = some n) (hs : set n s (sanJ v) = some s') :
    decodeFields names set (sanM (membersOf ((k, v) :: t))) s =
      decodeFields names set (sanM (membersOf t)) s' := by
  simp only [membersOf, sanM, decodeFields, hk, hs]

/-- Decoding a transport map field. -/
theorem decode_attrs {σ : Type} {names : List String} {set : String → σ → J → Option σ}
    (o : Order (String × String)) (m : AttrMap) {t : List (Bytes × J)} {s : σ}
    (put : σ → AttrMap → σ) (hk : fieldOf names (sanitize "attrs".toList) = some "attrs")
    (hs : ∀ v, set "attrs" s v = (toAttrs GoMap.empty v).map (put s)) (hz : put s GoMap.empty = s) :
    decodeFields names set (sanM (membersOf (attrsField o m ++ t))) s =
      decodeFields names set (sanM (membersOf t)) (put s (sanAttrs o m)) := by
  unfold attrsField
  split
  · rename_i he
    have : sanAttrs o m = GoMap.empty := by
      have := (sorted_perm o m)
      rw [he] at this
      unfold sanAttrs
      rw [this.eq_nil]; rfl
    rw [this, hz]; rfl
  · refine decode_cons (n := "attrs") hk ?_
    rw [hs]
    simp only [sanJ, toAttrs, toEntries_sorted, Option.map]
    rfl

def sanEntity (o : Order (String × String)) (e : Transport.Entity) : Transport.Entity :=
  ⟨san e.uid, san e.typ, sanAttrs o e.attrs⟩

theorem toEntity_entityJ (o : Order (String × String)) (e : Transport.Entity) :
    toEntity (sanJ (entityJ o e)) = some (sanEntity o e) := by
  show decodeFields entityNames setEntity (sanM (membersOf (entityFields o e))) zeroEntity = _
  unfold entityFields
  rw [List.cons_append, decode_cons (n := "uid") (by decide) rfl,
    List.cons_append, decode_cons (n := "type") (by decide) rfl, List.nil_append]
  have := decode_attrs (names := entityNames) (set := setEntity) o e.attrs (t := [])
    (s := ⟨san e.uid, san e.typ, GoMap.empty⟩) (fun s m => { s with attrs := m }) (by decide)
    (fun v => rfl) rfl
  rw [List.append_nil] at this
  exact this

def sanResource (o : Order (String × String)) (r : Transport.Resource) : Transport.Resource :=
  ⟨sanEntity o r.toEntity, san r.name, san r.group, san r.version, san r.kind, r.namespaced⟩

theorem decode_resourceJ (o : Order (String × String)) (r : Transport.Resource) :
    ∃ l, sanJ (resourceJ o r) = .obj l ∧
      decodeFields resourceNames setResource l zeroResource = some (sanResource o r) := by
  refine ⟨_, rfl, ?_⟩
  unfold entityFields
  rw [List.cons_append, List.cons_append, decode_cons (n := "uid") (by decide) rfl,
    List.cons_append, List.cons_append, decode_cons (n := "type") (by decide) rfl, List.nil_append]
  refine (decode_attrs (names := resourceNames) (set := setResource) o r.attrs
    (s := ⟨⟨san r.uid, san r.typ, GoMap.empty⟩, "", "", "", "", false⟩)
    (fun s m => { s with attrs := m }) (by decide) (fun v => by
      show Option.map _ (Option.map _ (toAttrs _ v)) = Option.map _ (toAttrs _ v)
      cases toAttrs _ v <;> rfl) rfl).trans ?_
  rw [decode_cons (n := "name") (by decide) rfl, decode_cons (n := "group") (by decide) rfl,
    decode_cons (n := "version") (by decide) rfl, decode_cons (n := "kind") (by decide) rfl,
    decode_cons (n := "namespaced") (by decide) rfl]
  rfl

theorem toResource_resourceJ (o : Order (String × String)) (r : Transport.Resource) :
    toResource (sanJ (resourceJ o r)) = some (sanResource o r) := by
  obtain ⟨l, h1, h2⟩ := decode_resourceJ o r
  rw [h1]; exact h2

def sanObject (o o2 : Order (String × String)) (x : Transport.Object) : Transport.Object :=
  ⟨sanEntity o x.toEntity, san x.name, san x.ns, x.res.map (sanResource o2)⟩

theorem toObject_objectJ (o o2 : Order (String × String)) (x : Transport.Object) :
    toObject (sanJ (objectJ o o2 x)) = some (sanObject o o2 x) := by
  show decodeFields objectNames setObject (sanM (membersOf (entityFields o x.toEntity ++
    [("name".toList, str x.name), ("namespace".toList, str x.ns)] ++ resourceField o2 x.res)))
    ⟨zeroEntity, "", "", none⟩ = _
  unfold entityFields
  rw [List.append_assoc, List.append_assoc, List.cons_append, decode_cons (n := "uid") (by decide) rfl,
    List.cons_append, decode_cons (n := "type") (by decide) rfl, List.nil_append]
  refine (decode_attrs (names := objectNames) (set := setObject) o x.attrs
    (s := ⟨⟨san x.uid, san x.typ, GoMap.empty⟩, "", "", none⟩)
    (fun s m => { s with attrs := m }) (by decide) (fun v => by
      show Option.map _ (Option.map _ (toAttrs _ v)) = Option.map _ (toAttrs _ v)
      cases toAttrs _ v <;> rfl) rfl).trans ?_
  rw [List.cons_append, decode_cons (n := "name") (by decide) rfl,
    List.cons_append, decode_cons (n := "namespace") (by decide) rfl, List.nil_append]
  unfold sanObject
  cases hr : x.res with
  | none => rfl
  | some r =>
    obtain ⟨l, h1, h2⟩ := decode_resourceJ o2 r
    refine (decode_cons (n := "resource") (t := []) (by decide)
      (s' := ⟨sanEntity o x.toEntity, san x.name, san x.ns, some (sanResource o2 r)⟩) ?_).trans rfl
    rw [h1]
    show ((decodeFields resourceNames setResource l zeroResource).map some).map _ = _
    rw [h2]
    rfl

def sanLink (o : Order (String × String)) (l : Transport.Link) : Transport.Link :=
  ⟨san l.uid, san l.from', san l.to, sanAttrs o l.attrs⟩

theorem toLink_linkJ (o : Order (String × String)) (l : Transport.Link) :
    toLink (sanJ (linkJ o l)) = some (sanLink o l) := by
  show decodeFields linkNames setLink (sanM (membersOf ([_, _, _] ++ attrsField o l.attrs))) _ = _
  rw [List.cons_append, decode_cons (n := "uid") (by decide) rfl,
    List.cons_append, decode_cons (n := "from") (by decide) rfl,
    List.cons_append, decode_cons (n := "to") (by decide) rfl, List.nil_append]
  have := decode_attrs (names := linkNames) (set := setLink) o l.attrs (t := [])
    (s := ⟨san l.uid, san l.from', san l.to, GoMap.empty⟩) (fun s m => { s with attrs := m })
    (by decide) (fun v => rfl) rfl
  rw [List.append_nil] at this
  exact this

/-- Valid attributes arrive as they were. -/
theorem sanAttrs_valid (o : Order (String × String)) (m : AttrMap)
    (hv : ∀ k v, m.get? k = some v → Valid k ∧ Valid v) (k : String) :
    (sanAttrs o m).get? k = m.get? k := by
  rw [← get?_foldl_set_perm m (sorted o m) (sorted_perm o m) k]
  unfold sanAttrs
  have key : ∀ (l : List (String × String)) (acc : AttrMap), (∀ e ∈ l, Valid e.1 ∧ Valid e.2) →
      l.foldl (fun acc e => acc.set (san e.1) (san e.2)) acc =
        l.foldl (fun acc e => acc.set e.1 e.2) acc := by
    intro l
    induction l with
    | nil => intros; rfl
    | cons e l ih =>
      intro acc h
      obtain ⟨h1, h2⟩ := h e (by simp)
      rw [List.foldl_cons, List.foldl_cons, (san_iff _).mpr h1, (san_iff _).mpr h2]
      exact ih _ fun e he => h e (by simp [he])
  rw [key]
  rintro ⟨k, v⟩ he
  exact hv k v ((GoMap.get?_eq_some m k v).mpr ((sorted_perm o m).mem_iff.mp he))

/-! ## Unmarshalling what was marshalled -/

theorem unmarshal_entity (g : Heap) (c : Transport.Choice) (o : Order (String × String))
    (e : Transport.Entity) : unmarshal g c (render (entityJ o e)) .entity =
      .ok (.entity (Transport.entityToSpace g c (sanEntity o e)).1,
        (Transport.entityToSpace g c (sanEntity o e)).2) := by
  simp only [unmarshal, parse_render _ (noNum_entityJ _ _), Option.bind, toEntity_entityJ]

theorem unmarshal_resource (g : Heap) (c : Transport.Choice) (o : Order (String × String))
    (r : Transport.Resource) : unmarshal g c (render (resourceJ o r)) .resource =
      .ok (.resource (Transport.resourceToSpace g c (sanResource o r)).1,
        (Transport.resourceToSpace g c (sanResource o r)).2) := by
  simp only [unmarshal, parse_render _ (noNum_resourceJ _ _), Option.bind, toResource_resourceJ]

theorem unmarshal_object (g : Heap) (c : Transport.Choice) (o o2 : Order (String × String))
    (x : Transport.Object) : unmarshal g c (render (objectJ o o2 x)) .object =
      .ok (.object (Transport.objectToSpace g c (sanObject o o2 x)).1,
        (Transport.objectToSpace g c (sanObject o o2 x)).2) := by
  simp only [unmarshal, parse_render _ (noNum_objectJ _ _ _), Option.bind, toObject_objectJ]

theorem unmarshal_link (g : Heap) (c : Transport.Choice) (o : Order (String × String))
    (l : Transport.Link) : unmarshal g c (render (linkJ o l)) .link =
      .ok (.link (Transport.linkToSpace g c (sanLink o l)).1,
        (Transport.linkToSpace g c (sanLink o l)).2) := by
  simp only [unmarshal, parse_render _ (noNum_linkJ _ _), Option.bind, toLink_linkJ]

end Netscrape.Marshal
