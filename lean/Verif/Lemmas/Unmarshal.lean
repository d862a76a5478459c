import Verif.Lemmas.JsonText
import Verif.Lemmas.Marshal
import Verif.Spec.Unmarshal

/-!
# Decoding arbitrary documents
-/

namespace Netscrape.Marshal
open Netscrape.Json Netscrape.Spec.Json Netscrape.Spec.Unmarshal

/-! ## Matching keys with field names -/

/-- The names consist of lower-case ASCII letters. -/
def Lower (n : List Char) : Prop := ∀ c ∈ n, 97 ≤ c.toNat ∧ c.toNat ≤ 122

theorem foldLoop_drop (k : Nat) : ∀ t : Bytes, foldLoop k t = foldLoop 0 (t.drop k) := by
  induction k with
  | zero => intro t; rfl
  | succ k ih =>
    intro t
    cases t with
    | nil => rfl
    | cons c t => rw [List.drop_succ_cons, ← ih]; rfl

theorem kelvin : utf8 [Char.ofNat 0x212A] = [byte 0xE2, byte 0x84, byte 0xAA] := by
  rw [← encodeRune_eq _ (by omega)]; decide

theorem longS : utf8 [Char.ofNat 0x17F] = [byte 0xC5, byte 0xBF] := by
  rw [← encodeRune_eq _ (by omega)]; decide

theorem foldKey_iff (n : List Char) : Lower n → ∀ k : Bytes, foldKey k = n ↔ ∃ xs, k = utf8 xs ∧ UpToCase xs n := by
  induction n with
  | nil =>
    intro _ k
    constructor
    · intro h
      cases k with
      | nil => exact ⟨[], rfl, .nil⟩
      | cons c t =>
        exfalso
        unfold foldKey foldLoop at h
        split at h
        · cases h
        · split at h
          · cases h
          · split at h <;> cases h
    · rintro ⟨xs, rfl, h⟩
      cases h; rfl
  | cons c n ih =>
    intro hl k
    have hc := hl c (by simp)
    have ih := ih fun d hd => hl d (by simp [hd])
    constructor
    · intro h
      rcases k with _ | ⟨b, t⟩
      · cases h
      unfold foldKey foldLoop at h
      by_cases h1 : b.toNat = 0xE2 ∧ t.take 2 = [byte 0x84, byte 0xAA]
      · rw [if_pos h1, foldLoop_drop] at h
        obtain ⟨rfl, h'⟩ := List.cons.inj h
        obtain ⟨xs, hk, hx⟩ := (ih (t.drop 2)).mp h'
        refine ⟨Char.ofNat 0x212A :: xs, ?_, .cons (by decide) hx⟩
        rw [utf8_cons, kelvin, ← hk, show b = byte 0xE2 from (byte_eq h1.1).symm]
        conv => lhs; rw [← List.take_append_drop 2 t, h1.2]
        rfl
      rw [if_neg h1] at h
      by_cases h2 : b.toNat = 0xC5 ∧ t.take 1 = [byte 0xBF]
      · rw [if_pos h2, foldLoop_drop] at h
        obtain ⟨rfl, h'⟩ := List.cons.inj h
        obtain ⟨xs, hk, hx⟩ := (ih (t.drop 1)).mp h'
        refine ⟨Char.ofNat 0x17F :: xs, ?_, .cons (by decide) hx⟩
        rw [utf8_cons, longS, ← hk, show b = byte 0xC5 from (byte_eq h2.1).symm]
        conv => lhs; rw [← List.take_append_drop 1 t, h2.2]
        rfl
      rw [if_neg h2] at h
      by_cases h3 : 65 ≤ b.toNat ∧ b.toNat ≤ 90
      · rw [if_pos h3] at h
        obtain ⟨rfl, h'⟩ := List.cons.inj h
        obtain ⟨xs, rfl, hx⟩ := (ih t).mp h'
        refine ⟨b :: xs, ?_, .cons ?_ hx⟩
        · rw [utf8_cons, ← ascii_char (by omega)]; rfl
        · have key : ∀ m < 91, m < 65 ∨ byte m ∈ variants (byte (m + 32)) := by decide
          have := (key b.toNat (by omega)).resolve_left (by omega)
          rwa [show byte b.toNat = b from byte_eq rfl] at this
      · rw [if_neg h3] at h
        obtain ⟨rfl, h'⟩ := List.cons.inj h
        obtain ⟨xs, rfl, hx⟩ := (ih t).mp h'
        refine ⟨b :: xs, ?_, .cons (by simp [variants]) hx⟩
        rw [utf8_cons, ← ascii_char (by omega)]; rfl
    · rintro ⟨xs, rfl, h⟩
      cases h with
      | @cons x _ xs _ hx h =>
        have hf : foldLoop 0 (utf8 xs) = n := (ih _).mpr ⟨xs, rfl, h⟩
        rw [utf8_cons]
        have hm : x = c ∨ x = c.toUpper ∨ (c = 'k' ∧ x = Char.ofNat 0x212A) ∨
            (c = 's' ∧ x = Char.ofNat 0x17F) := by
          unfold variants at hx
          split at hx
          · rename_i hk; simp at hx; rcases hx with hx | hx | hx <;> simp [hx, hk]
          · split at hx
            · rename_i hk; simp at hx; rcases hx with hx | hx | hx <;> simp [hx, hk]
            · simp at hx; rcases hx with hx | hx <;> simp [hx]
        rcases hm with rfl | rfl | ⟨rfl, rfl⟩ | ⟨rfl, rfl⟩
        · rw [← ascii_char (by omega)]
          unfold foldKey
          rw [List.singleton_append, foldLoop, if_neg (by omega), if_neg (by omega), if_neg (by omega), hf]
        · have key : ∀ m < 123, m < 97 ∨ ((byte m).toUpper = byte (m - 32)) := by decide
          have e := (key c.toNat (by omega)).resolve_left (by omega)
          rw [show byte c.toNat = c from byte_eq rfl] at e
          have e' : (byte (c.toNat - 32)).toNat = c.toNat - 32 := toNat_byte _ (by omega)
          rw [e, ← ascii_char (by omega)]
          unfold foldKey
          rw [List.singleton_append, foldLoop, if_neg (by omega), if_neg (by omega), if_pos (by omega), hf, e',
            show c.toNat - 32 + 32 = c.toNat by omega, show byte c.toNat = c from byte_eq rfl]
        · rw [kelvin]
          unfold foldKey
          rw [List.cons_append, foldLoop, if_pos (by exact ⟨by decide, rfl⟩), foldLoop_drop]
          exact congrArg _ hf
        · rw [longS]
          unfold foldKey
          rw [List.cons_append, foldLoop, if_neg (fun h => absurd h.1 (by decide)), if_pos (by exact ⟨by decide, rfl⟩), foldLoop_drop]
          exact congrArg _ hf

theorem foldKey_lower {k : Bytes} (h : Lower k) : foldKey k = k :=
  (foldKey_iff k h k).mpr (by
    induction k with
    | nil => exact ⟨[], rfl, .nil⟩
    | cons c t ih =>
      obtain ⟨xs, rfl, hx⟩ := ih fun d hd => h d (by simp [hd])
      have := h c (by simp)
      exact ⟨c :: xs, by rw [utf8_cons, ← ascii_char (by omega)]; rfl, .cons (by simp [variants]) hx⟩)

theorem fieldOf_iff {names : List String} (hl : ∀ n ∈ names, Lower n.toList) (k : Bytes) (n : String) :
    fieldOf names k = some n ↔ n ∈ names ∧ Names k n := by
  have hfold : fieldOf names k = names.find? fun n => n.toList = foldKey k := by
    unfold fieldOf
    cases h : names.find? fun n => n.toList = k with
    | none => rfl
    | some m =>
      have hm : m.toList = k := by simpa using List.find?_some h
      have := hl m (List.mem_of_find?_eq_some h)
      rw [hm] at this
      rw [foldKey_lower this]
      exact h.symm
  rw [hfold]
  constructor
  · intro h
    have hm := List.mem_of_find?_eq_some h
    have he : n.toList = foldKey k := by simpa using List.find?_some h
    exact ⟨hm, (foldKey_iff _ (hl n hm) k).mp he.symm⟩
  · rintro ⟨hm, hn⟩
    have he := (foldKey_iff _ (hl n hm) k).mpr hn
    cases h : names.find? fun n => n.toList = foldKey k with
    | none => exact absurd he.symm (by simpa using List.find?_eq_none.mp h n hm)
    | some m =>
      have hm : m.toList = foldKey k := by simpa using List.find?_some h
      rw [he] at hm
      rw [String.toList_inj.mp hm]

instance (n : List Char) : Decidable (Lower n) := inferInstanceAs (Decidable (∀ c ∈ n, _))

theorem names_unique {k : Bytes} {n m : String} (hn : Lower n.toList) (hm : Lower m.toList)
    (h1 : Names k n) (h2 : Names k m) : n = m :=
  String.toList_inj.mp (((foldKey_iff _ hn k).mpr h1).symm.trans ((foldKey_iff _ hm k).mpr h2))

/-! ## One more member -/

theorem given_snoc (f : String) (ms : Ms) (k : Bytes) (v : J) (h : Names k f) :
    given f (ms ++ [(k, v)]) = given f ms ++ [v] := by
  simp [given, h]

theorem given_other (f : String) (ms : Ms) (k : Bytes) (v : J) (h : ¬ Names k f) :
    given f (ms ++ [(k, v)]) = given f ms := by
  simp [given, h]

theorem textOf_other {f : String} {ms : Ms} {k : Bytes} {v : J} (h : ¬ Names k f) :
    textOf f (ms ++ [(k, v)]) = textOf f ms := by
  unfold textOf; rw [given_other _ _ _ _ h]

theorem flagOf_other {f : String} {ms : Ms} {k : Bytes} {v : J} (h : ¬ Names k f) :
    flagOf f (ms ++ [(k, v)]) = flagOf f ms := by
  unfold flagOf; rw [given_other _ _ _ _ h]

theorem attrOf_other {ms : Ms} {k : Bytes} {v : J} (h : ¬ Names k "attrs") :
    attrOf (ms ++ [(k, v)]) = attrOf ms := by
  unfold attrOf attrMembers; rw [given_other _ _ _ _ h]

theorem resourceMembers_other {ms : Ms} {k : Bytes} {v : J} (h : ¬ Names k "resource") :
    resourceMembers (ms ++ [(k, v)]) = resourceMembers ms := by
  unfold resourceMembers; rw [given_other _ _ _ _ h]

/-- A string field takes the new value. -/
theorem toStr_reads {f : String} {ms : Ms} {k : Bytes} {v : J} {old : String} (h : Names k f)
    (ho : old = textOf f ms) :
    (OkText v → ∃ x, toStr old v = some x ∧ x = textOf f (ms ++ [(k, v)])) ∧
    (¬ OkText v → toStr old v = none) := by
  subst ho
  unfold textOf
  rw [given_snoc _ _ _ _ h, List.foldl_append]
  constructor
  · rintro (rfl | ⟨s, rfl⟩)
    · exact ⟨_, rfl, rfl⟩
    · exact ⟨_, rfl, rfl⟩
  · intro hn
    cases v with
    | null => exact absurd (Or.inl rfl) hn
    | str s => exact absurd (Or.inr ⟨s, rfl⟩) hn
    | _ => rfl

theorem toBool_reads {f : String} {ms : Ms} {k : Bytes} {v : J} {old : Bool} (h : Names k f)
    (ho : old = flagOf f ms) :
    (OkFlag v → ∃ x, toBool old v = some x ∧ x = flagOf f (ms ++ [(k, v)])) ∧
    (¬ OkFlag v → toBool old v = none) := by
  subst ho
  unfold flagOf
  rw [given_snoc _ _ _ _ h, List.foldl_append]
  constructor
  · rintro (rfl | ⟨s, rfl⟩)
    · exact ⟨_, rfl, rfl⟩
    · exact ⟨_, rfl, rfl⟩
  · intro hn
    cases v with
    | null => exact absurd (Or.inl rfl) hn
    | bool s => exact absurd (Or.inr ⟨s, rfl⟩) hn
    | _ => rfl

theorem toEntries_reads (l : Members) : ∀ (ms : Ms) (m : AttrMap), (∀ k, m.get? k = lastOf ms k) →
    ((∀ x ∈ list l, OkText x.2) → ∃ m', toEntries l m = some m' ∧ ∀ k, m'.get? k = lastOf (ms ++ list l) k) ∧
    (¬ (∀ x ∈ list l, OkText x.2) → toEntries l m = none) := by
  match l with
  | .nil => exact fun ms m h => ⟨fun _ => ⟨m, rfl, by simpa [list] using h⟩, fun hn => absurd (by simp [list]) hn⟩
  | .cons k v r =>
    intro ms m h
    have hstep : ∀ x, toStr "" v = some x → ∀ k', (m.set (String.ofList k) x).get? k' =
        lastOf (ms ++ [(k, v)]) k' := by
      intro x hx k'
      rw [GoMap.get?_set, h]
      unfold lastOf
      rw [List.foldl_append]
      by_cases hk : String.ofList k = k'
      · subst hk
        simp only [List.foldl, if_true]
        cases v with
        | str s => cases hx; rfl
        | null => cases hx; rfl
        | _ => cases hx
      · simp only [List.foldl, if_neg hk]
        simp [Ne.symm hk]
    have ih := toEntries_reads r
    constructor
    · intro hok
      obtain ⟨x, hx⟩ : ∃ x, toStr "" v = some x := by
        rcases hok (k, v) (by simp [list]) with hv | ⟨s, hv⟩
        · cases hv; exact ⟨_, rfl⟩
        · cases hv; exact ⟨_, rfl⟩
      obtain ⟨m', h1, h2⟩ := (ih _ _ (hstep x hx)).1 fun y hy => hok y (by simp [list, hy])
      refine ⟨m', ?_, fun k' => ?_⟩
      · rw [toEntries, hx]; exact h1
      · rw [h2, list, List.append_assoc]; rfl
    · intro hn
      rw [toEntries]
      cases hx : toStr "" v with
      | none => rfl
      | some x =>
        refine (ih _ _ (hstep x hx)).2 fun hall => hn ?_
        intro y hy
        simp only [list, List.mem_cons] at hy
        rcases hy with rfl | hy
        · cases v with
          | str s => exact Or.inr ⟨s, rfl⟩
          | null => exact Or.inl rfl
          | _ => cases hx
        · exact hall y hy

theorem toAttrs_reads {ms : Ms} {k : Bytes} {v : J} {old : AttrMap} (h : Names k "attrs")
    (ho : ∀ k, old.get? k = attrOf ms k) :
    (OkAttrs v → ∃ x, toAttrs old v = some x ∧ ∀ k', x.get? k' = attrOf (ms ++ [(k, v)]) k') ∧
    (¬ OkAttrs v → toAttrs old v = none) := by
  unfold attrOf attrMembers at *
  rw [given_snoc _ _ _ _ h, List.foldl_append]
  constructor
  · rintro (rfl | ⟨l, rfl, hl⟩)
    · exact ⟨_, rfl, fun k' => rfl⟩
    · obtain ⟨m', h1, h2⟩ := (toEntries_reads l _ old ho).1 hl
      exact ⟨m', h1, h2⟩
  · intro hn
    cases v with
    | null => exact absurd (Or.inl rfl) hn
    | obj l => exact (toEntries_reads l _ old ho).2 fun hl => hn (Or.inr ⟨l, rfl, hl⟩)
    | _ => rfl

/-! ## Structs -/

/-- Decoding into a struct, given what the fields say after each member. -/
theorem decode_reads {σ : Type} {names : List String} {set : String → σ → J → Option σ}
    {Reads : Ms → σ → Prop} {Ok : String → J → Prop} (hl : ∀ n ∈ names, Lower n.toList)
    (hskip : ∀ ms s k v, Reads ms s → (∀ n ∈ names, ¬ Names k n) → Reads (ms ++ [(k, v)]) s)
    (hset : ∀ ms s k v n, Reads ms s → n ∈ names → Names k n →
      (Ok n v → ∃ s', set n s v = some s' ∧ Reads (ms ++ [(k, v)]) s') ∧ (¬ Ok n v → set n s v = none))
    (l : Members) : ∀ (ms : Ms) (s : σ), Reads ms s →
    ((∀ n ∈ names, ∀ v ∈ given n (list l), Ok n v) →
      ∃ s', decodeFields names set l s = some s' ∧ Reads (ms ++ list l) s') ∧
    (¬ (∀ n ∈ names, ∀ v ∈ given n (list l), Ok n v) → decodeFields names set l s = none) := by
  match l with
  | .nil =>
    intro ms s h
    refine ⟨fun _ => ⟨s, rfl, by simpa [list] using h⟩, fun hn => absurd ?_ hn⟩
    intro n _ v hv
    simp [given, list] at hv
  | .cons k v r =>
    intro ms s h
    have ih := decode_reads hl hskip hset r
    have hcons : ∀ n, given n (list (.cons k v r)) = given n [(k, v)] ++ given n (list r) := by
      intro n
      simp only [given, list]
      rw [show (k, v) :: list r = [(k, v)] ++ list r from rfl, List.filter_append, List.map_append]
    have hnil : ∀ n, given n ([] ++ [(k, v)]) = given n [(k, v)] := fun n => rfl
    rw [decodeFields]
    cases hf : fieldOf names k with
    | none =>
      have hno : ∀ n ∈ names, ¬ Names k n := by
        intro n hn hk
        rw [(fieldOf_iff hl k n).mpr ⟨hn, hk⟩] at hf; cases hf
      have heq : ∀ n ∈ names, given n (list (.cons k v r)) = given n (list r) := by
        intro n hn
        rw [hcons, ← hnil, given_other _ _ _ _ (hno n hn)]; rfl
      have := ih _ _ (hskip ms s k v h hno)
      rw [List.append_assoc] at this
      refine ⟨fun hok => this.1 fun n hn v hv => hok n hn v (by rwa [heq n hn]), fun hbad => this.2 fun hok =>
        hbad fun n hn v hv => hok n hn v (by rwa [heq n hn] at hv)⟩
    | some n =>
      obtain ⟨hn, hk⟩ := (fieldOf_iff hl k n).mp hf
      have hone : given n [(k, v)] = [v] := by rw [← hnil, given_snoc _ _ _ _ hk]; rfl
      obtain ⟨hgood, hbad⟩ := hset ms s k v n h hn hk
      dsimp only
      constructor
      · intro hok
        obtain ⟨s', h1, h2⟩ := hgood (hok n hn v (by rw [hcons, hone]; simp))
        have := (ih _ _ h2).1 fun m hm w hw => hok m hm w (by rw [hcons]; simp [hw])
        rw [List.append_assoc] at this
        rw [h1]; exact this
      · intro hno
        by_cases hv : Ok n v
        · obtain ⟨s', h1, h2⟩ := hgood hv
          rw [h1]
          refine (ih _ _ h2).2 fun hall => hno ?_
          intro m hm w hw
          rw [hcons, List.mem_append] at hw
          rcases hw with hw | hw
          · by_cases hkm : Names k m
            · have : m = n := names_unique (hl m hm) (hl n hn) hkm hk
              subst this
              rw [hone] at hw
              rw [List.mem_singleton.mp hw]; exact hv
            · rw [← hnil, given_other _ _ _ _ hkm] at hw
              simp [given] at hw
          · exact hall m hm w hw
        · rw [hbad hv]

/-- A key of one field is no key of another. -/
theorem other {k : Bytes} {n : String} (h : Names k n) (f : String) (hn : Lower n.toList := by decide)
    (hf : Lower f.toList := by decide) (hne : n ≠ f := by decide) : ¬ Names k f :=
  fun h' => hne (names_unique hn hf h h')

def ReadsEntity (ms : Ms) (e : Transport.Entity) : Prop :=
  e.uid = textOf "uid" ms ∧ e.typ = textOf "type" ms ∧ ∀ k, e.attrs.get? k = attrOf ms k

/-- What a field of an entity accepts. -/
def OkEntity (n : String) (v : J) : Prop := if n = "attrs" then OkAttrs v else OkText v

theorem readsEntity_other {ms : Ms} {e : Transport.Entity} {k : Bytes} {v : J} (h : ReadsEntity ms e)
    (h1 : ¬ Names k "uid") (h2 : ¬ Names k "type") (h3 : ¬ Names k "attrs") :
    ReadsEntity (ms ++ [(k, v)]) e := by
  unfold ReadsEntity
  rw [textOf_other h1, textOf_other h2, attrOf_other h3]
  exact h

theorem setEntity_reads (ms : Ms) (e : Transport.Entity) (k : Bytes) (v : J) (n : String)
    (h : ReadsEntity ms e) (hn : n ∈ entityNames) (hk : Names k n) :
    (OkEntity n v → ∃ e', setEntity n e v = some e' ∧ ReadsEntity (ms ++ [(k, v)]) e') ∧
    (¬ OkEntity n v → setEntity n e v = none) := by
  obtain ⟨h1, h2, h3⟩ := h
  simp only [entityNames, List.mem_cons, List.not_mem_nil, or_false] at hn
  rcases hn with rfl | rfl | rfl
  · obtain ⟨a, b⟩ := toStr_reads (v := v) hk h1
    constructor
    · intro hok
      obtain ⟨x, hx, rfl⟩ := a hok
      refine ⟨{ e with uid := textOf "uid" (ms ++ [(k, v)]) }, by simp [setEntity, hx], rfl, ?_, ?_⟩
      · rw [textOf_other (other hk "type")]; exact h2
      · rw [attrOf_other (other hk "attrs")]; exact h3
    · intro hbad
      simp [setEntity, b hbad]
  · obtain ⟨a, b⟩ := toStr_reads (v := v) hk h2
    constructor
    · intro hok
      obtain ⟨x, hx, rfl⟩ := a hok
      refine ⟨{ e with typ := textOf "type" (ms ++ [(k, v)]) }, by simp [setEntity, hx], ?_, rfl, ?_⟩
      · rw [textOf_other (other hk "uid")]; exact h1
      · rw [attrOf_other (other hk "attrs")]; exact h3
    · intro hbad
      simp [setEntity, b hbad]
  · obtain ⟨a, b⟩ := toAttrs_reads (v := v) hk h3
    constructor
    · intro hok
      obtain ⟨x, hx, h3'⟩ := a hok
      refine ⟨{ e with attrs := x }, by simp [setEntity, hx], ?_, ?_, h3'⟩
      · rw [textOf_other (other hk "uid")]; exact h1
      · rw [textOf_other (other hk "type")]; exact h2
    · intro hbad
      simp [setEntity, b hbad]

theorem readsEntity_zero : ReadsEntity [] zeroEntity := ⟨rfl, rfl, fun _ => rfl⟩

theorem decodeEntity (l : Members) :
    (FitsEntity (list l) → ∃ e, toEntity (.obj l) = some e ∧ ReadsEntity (list l) e) ∧
    (¬ FitsEntity (list l) → toEntity (.obj l) = none) := by
  have := decode_reads (names := entityNames) (set := setEntity) (Reads := ReadsEntity) (Ok := OkEntity)
    (by decide) (fun ms s k v h hno => readsEntity_other h (hno _ (by decide)) (hno _ (by decide))
      (hno _ (by decide))) setEntity_reads l [] zeroEntity readsEntity_zero
  have hiff : (∀ n ∈ entityNames, ∀ v ∈ given n (list l), OkEntity n v) ↔ FitsEntity (list l) := by
    simp [entityNames, OkEntity, FitsEntity]
  rw [hiff] at this
  exact this

def ReadsResource (ms : Ms) (r : Transport.Resource) : Prop :=
  ReadsEntity ms r.toEntity ∧ r.name = textOf "name" ms ∧ r.group = textOf "group" ms ∧
    r.version = textOf "version" ms ∧ r.kind = textOf "kind" ms ∧ r.namespaced = flagOf "namespaced" ms

def OkResourceField (n : String) (v : J) : Prop :=
  if n = "attrs" then OkAttrs v else if n = "namespaced" then OkFlag v else OkText v

theorem setResource_reads (ms : Ms) (r : Transport.Resource) (k : Bytes) (v : J) (n : String)
    (h : ReadsResource ms r) (hn : n ∈ resourceNames) (hk : Names k n) :
    (OkResourceField n v → ∃ r', setResource n r v = some r' ∧ ReadsResource (ms ++ [(k, v)]) r') ∧
    (¬ OkResourceField n v → setResource n r v = none) := by
  obtain ⟨h0, h1, h2, h3, h4, h5⟩ := h
  by_cases hent : n ∈ entityNames
  · obtain ⟨a, b⟩ := setEntity_reads ms r.toEntity k v n h0 hent hk
    have hset : setResource n r v = (setEntity n r.toEntity v).map fun e => { r with toEntity := e } := by
      have key : ∀ n ∈ entityNames, n ≠ "name" ∧ n ≠ "group" ∧ n ≠ "version" ∧ n ≠ "kind" ∧ n ≠ "namespaced" := by
        decide
      obtain ⟨k1, k2, k3, k4, k5⟩ := key n hent
      simp only [setResource, k1, k2, k3, k4, k5, if_false]
    have hok : OkResourceField n v ↔ OkEntity n v := by
      have key : ∀ n ∈ entityNames, n ≠ "namespaced" := by decide
      simp [OkResourceField, OkEntity, key n hent]
    have hno : ∀ f, f ∈ ["name", "group", "version", "kind", "namespaced"] → ¬ Names k f := by
      intro f hf hkf
      have key : ∀ n ∈ entityNames, Lower n.toList ∧ ∀ f ∈ ["name", "group", "version", "kind", "namespaced"],
          n ≠ f ∧ Lower f.toList := by decide
      obtain ⟨q1, q2⟩ := key n hent
      exact (q2 f hf).1 (names_unique q1 (q2 f hf).2 hk hkf)
    rw [hset, hok]
    constructor
    · intro hv
      obtain ⟨e', he, hr⟩ := a hv
      refine ⟨{ r with toEntity := e' }, by rw [he]; rfl, hr, ?_⟩
      rw [textOf_other (hno _ (by decide)), textOf_other (hno _ (by decide)), textOf_other (hno _ (by decide)),
        textOf_other (hno _ (by decide)), flagOf_other (hno _ (by decide))]
      exact ⟨h1, h2, h3, h4, h5⟩
    · intro hv; rw [b hv]; rfl
  · have h0' : ∀ n, n ∈ ["name", "group", "version", "kind", "namespaced"] → Names k n →
        ReadsEntity (ms ++ [(k, v)]) r.toEntity := by
      intro n hn hk
      have key : ∀ n ∈ ["name", "group", "version", "kind", "namespaced"], Lower n.toList ∧
          ∀ f ∈ entityNames, n ≠ f ∧ Lower f.toList := by decide
      obtain ⟨q1, q2⟩ := key n hn
      refine readsEntity_other h0 ?_ ?_ ?_
      · exact fun h' => (q2 "uid" (by decide)).1 (names_unique q1 (q2 "uid" (by decide)).2 hk h')
      · exact fun h' => (q2 "type" (by decide)).1 (names_unique q1 (q2 "type" (by decide)).2 hk h')
      · exact fun h' => (q2 "attrs" (by decide)).1 (names_unique q1 (q2 "attrs" (by decide)).2 hk h')
    have hn' : n = "name" ∨ n = "group" ∨ n = "version" ∨ n = "kind" ∨ n = "namespaced" := by
      simp only [resourceNames, entityNames, List.mem_cons, List.not_mem_nil, or_false] at hn hent
      simp_all
    have h0'' := h0' n (by simpa using hn') hk
    rcases hn' with rfl | rfl | rfl | rfl | rfl
    · obtain ⟨a, b⟩ := toStr_reads (v := v) hk h1
      refine ⟨fun hok => ?_, fun hbad => by simp [setResource, b hbad]⟩
      obtain ⟨x, hx, rfl⟩ := a hok
      refine ⟨{ r with name := textOf "name" (ms ++ [(k, v)]) }, by simp [setResource, hx], h0'', rfl, ?_⟩
      rw [textOf_other (other hk "group"), textOf_other (other hk "version"), textOf_other (other hk "kind"),
        flagOf_other (other hk "namespaced")]
      exact ⟨h2, h3, h4, h5⟩
    · obtain ⟨a, b⟩ := toStr_reads (v := v) hk h2
      refine ⟨fun hok => ?_, fun hbad => by simp [setResource, b hbad]⟩
      obtain ⟨x, hx, rfl⟩ := a hok
      refine ⟨{ r with group := textOf "group" (ms ++ [(k, v)]) }, by simp [setResource, hx], h0'', ?_, rfl, ?_⟩
      · rw [textOf_other (other hk "name")]; exact h1
      rw [textOf_other (other hk "version"), textOf_other (other hk "kind"),
        flagOf_other (other hk "namespaced")]
      exact ⟨h3, h4, h5⟩
    · obtain ⟨a, b⟩ := toStr_reads (v := v) hk h3
      refine ⟨fun hok => ?_, fun hbad => by simp [setResource, b hbad]⟩
      obtain ⟨x, hx, rfl⟩ := a hok
      refine ⟨{ r with version := textOf "version" (ms ++ [(k, v)]) }, by simp [setResource, hx], h0'', ?_, ?_,
        rfl, ?_⟩
      · rw [textOf_other (other hk "name")]; exact h1
      · rw [textOf_other (other hk "group")]; exact h2
      rw [textOf_other (other hk "kind"), flagOf_other (other hk "namespaced")]
      exact ⟨h4, h5⟩
    · obtain ⟨a, b⟩ := toStr_reads (v := v) hk h4
      refine ⟨fun hok => ?_, fun hbad => by simp [setResource, b hbad]⟩
      obtain ⟨x, hx, rfl⟩ := a hok
      refine ⟨{ r with kind := textOf "kind" (ms ++ [(k, v)]) }, by simp [setResource, hx], h0'', ?_, ?_, ?_,
        rfl, ?_⟩
      · rw [textOf_other (other hk "name")]; exact h1
      · rw [textOf_other (other hk "group")]; exact h2
      · rw [textOf_other (other hk "version")]; exact h3
      rw [flagOf_other (other hk "namespaced")]
      exact h5
    · obtain ⟨a, b⟩ := toBool_reads (v := v) hk h5
      refine ⟨fun hok => ?_, fun hbad => by simp [setResource, b hbad]⟩
      obtain ⟨x, hx, rfl⟩ := a hok
      refine ⟨{ r with namespaced := flagOf "namespaced" (ms ++ [(k, v)]) }, by simp [setResource, hx], h0'', ?_, ?_,
        ?_, ?_, rfl⟩
      · rw [textOf_other (other hk "name")]; exact h1
      · rw [textOf_other (other hk "group")]; exact h2
      · rw [textOf_other (other hk "version")]; exact h3
      · rw [textOf_other (other hk "kind")]; exact h4

theorem readsResource_zero : ReadsResource [] zeroResource := ⟨readsEntity_zero, rfl, rfl, rfl, rfl, rfl⟩

theorem decodeResource (l : Members) (ms : Ms) (r : Transport.Resource) (h : ReadsResource ms r) :
    (FitsResource (list l) → ∃ r', decodeFields resourceNames setResource l r = some r' ∧
      ReadsResource (ms ++ list l) r') ∧
    (¬ FitsResource (list l) → decodeFields resourceNames setResource l r = none) := by
  have := decode_reads (names := resourceNames) (set := setResource) (Reads := ReadsResource)
    (Ok := OkResourceField) (by decide) (fun ms s k v h hno => by
      obtain ⟨h0, h1⟩ := h
      refine ⟨readsEntity_other h0 (hno _ (by decide)) (hno _ (by decide)) (hno _ (by decide)), ?_⟩
      rw [textOf_other (hno _ (by decide)), textOf_other (hno _ (by decide)), textOf_other (hno _ (by decide)),
        textOf_other (hno _ (by decide)), flagOf_other (hno _ (by decide))]
      exact h1) setResource_reads l ms r h
  have hiff : (∀ n ∈ resourceNames, ∀ v ∈ given n (list l), OkResourceField n v) ↔ FitsResource (list l) := by
    simp [resourceNames, OkResourceField, FitsResource, FitsEntity, and_assoc]
  rw [hiff] at this
  exact this

def ReadsObject (ms : Ms) (o : Transport.Object) : Prop :=
  ReadsEntity ms o.toEntity ∧ o.name = textOf "name" ms ∧ o.ns = textOf "namespace" ms ∧
    match resourceMembers ms, o.res with
    | none, none => True
    | some rs, some r => ReadsResource rs r
    | _, _ => False

def OkObjectField (n : String) (v : J) : Prop :=
  if n = "attrs" then OkAttrs v else if n = "resource" then OkResource v else OkText v

theorem toResourcePtr_reads {ms : Ms} {k : Bytes} {v : J} {old : Option Transport.Resource}
    (h : Names k "resource") (ho : match resourceMembers ms, old with
      | none, none => True
      | some rs, some r => ReadsResource rs r
      | _, _ => False) :
    (OkResource v → ∃ x, toResourcePtr old v = some x ∧ match resourceMembers (ms ++ [(k, v)]), x with
      | none, none => True
      | some rs, some r => ReadsResource rs r
      | _, _ => False) ∧
    (¬ OkResource v → toResourcePtr old v = none) := by
  have hold : ReadsResource ((resourceMembers ms).getD []) (old.getD zeroResource) := by
    cases hm : resourceMembers ms with
    | none =>
      rw [hm] at ho
      cases old with
      | none => exact readsResource_zero
      | some r => exact ho.elim
    | some rs =>
      rw [hm] at ho
      cases old with
      | none => exact ho.elim
      | some r => exact ho
  have hsnoc : resourceMembers (ms ++ [(k, v)]) = match v with
      | .null => none
      | .obj l => some ((resourceMembers ms).getD [] ++ list l)
      | _ => resourceMembers ms := by
    unfold resourceMembers
    rw [given_snoc _ _ _ _ h, List.foldl_append]
    rfl
  constructor
  · rintro (rfl | ⟨l, rfl, hl⟩)
    · refine ⟨none, rfl, ?_⟩
      rw [hsnoc]; trivial
    · obtain ⟨r', h1, h2⟩ := (decodeResource l _ _ hold).1 hl
      refine ⟨some r', by rw [toResourcePtr, h1]; rfl, ?_⟩
      rw [hsnoc]
      exact h2
  · intro hn
    cases v with
    | null => exact absurd (Or.inl rfl) hn
    | obj l =>
      rw [toResourcePtr, (decodeResource l _ _ hold).2 fun hl => hn (Or.inr ⟨l, rfl, hl⟩)]; rfl
    | _ => rfl

theorem setObject_reads (ms : Ms) (o : Transport.Object) (k : Bytes) (v : J) (n : String)
    (h : ReadsObject ms o) (hn : n ∈ objectNames) (hk : Names k n) :
    (OkObjectField n v → ∃ o', setObject n o v = some o' ∧ ReadsObject (ms ++ [(k, v)]) o') ∧
    (¬ OkObjectField n v → setObject n o v = none) := by
  obtain ⟨h0, h1, h2, h3⟩ := h
  by_cases hent : n ∈ entityNames
  · obtain ⟨a, b⟩ := setEntity_reads ms o.toEntity k v n h0 hent hk
    have hset : setObject n o v = (setEntity n o.toEntity v).map fun e => { o with toEntity := e } := by
      have key : ∀ n ∈ entityNames, n ≠ "name" ∧ n ≠ "namespace" ∧ n ≠ "resource" := by decide
      obtain ⟨k1, k2, k3⟩ := key n hent
      simp only [setObject, k1, k2, k3, if_false]
    have hok : OkObjectField n v ↔ OkEntity n v := by
      have key : ∀ n ∈ entityNames, n ≠ "resource" := by decide
      simp [OkObjectField, OkEntity, key n hent]
    have hno : ∀ f, f ∈ ["name", "namespace", "resource"] → ¬ Names k f := by
      intro f hf hkf
      have key : ∀ n ∈ entityNames, Lower n.toList ∧ ∀ f ∈ ["name", "namespace", "resource"],
          n ≠ f ∧ Lower f.toList := by decide
      obtain ⟨q1, q2⟩ := key n hent
      exact (q2 f hf).1 (names_unique q1 (q2 f hf).2 hk hkf)
    rw [hset, hok]
    constructor
    · intro hv
      obtain ⟨e', he, hr⟩ := a hv
      refine ⟨{ o with toEntity := e' }, by rw [he]; rfl, hr, ?_⟩
      rw [textOf_other (hno _ (by decide)), textOf_other (hno _ (by decide)),
        resourceMembers_other (hno _ (by decide))]
      exact ⟨h1, h2, h3⟩
    · intro hv; rw [b hv]; rfl
  · have hn' : n = "name" ∨ n = "namespace" ∨ n = "resource" := by
      simp only [objectNames, entityNames, List.mem_cons, List.not_mem_nil, or_false] at hn hent
      simp_all
    rcases hn' with rfl | rfl | rfl
    · have h0'' : ReadsEntity (ms ++ [(k, v)]) o.toEntity :=
        readsEntity_other h0 (other hk "uid") (other hk "type") (other hk "attrs")
      obtain ⟨a, b⟩ := toStr_reads (v := v) hk h1
      refine ⟨fun hok => ?_, fun hbad => by simp [setObject, b hbad]⟩
      obtain ⟨x, hx, rfl⟩ := a hok
      refine ⟨{ o with name := textOf "name" (ms ++ [(k, v)]) }, by simp [setObject, hx], h0'', rfl, ?_⟩
      rw [textOf_other (other hk "namespace"), resourceMembers_other (other hk "resource")]
      exact ⟨h2, h3⟩
    · have h0'' : ReadsEntity (ms ++ [(k, v)]) o.toEntity :=
        readsEntity_other h0 (other hk "uid") (other hk "type") (other hk "attrs")
      obtain ⟨a, b⟩ := toStr_reads (v := v) hk h2
      refine ⟨fun hok => ?_, fun hbad => by simp [setObject, b hbad]⟩
      obtain ⟨x, hx, rfl⟩ := a hok
      refine ⟨{ o with ns := textOf "namespace" (ms ++ [(k, v)]) }, by simp [setObject, hx], h0'', ?_, rfl, ?_⟩
      · rw [textOf_other (other hk "name")]; exact h1
      · rw [resourceMembers_other (other hk "resource")]; exact h3
    · have h0'' : ReadsEntity (ms ++ [(k, v)]) o.toEntity :=
        readsEntity_other h0 (other hk "uid") (other hk "type") (other hk "attrs")
      obtain ⟨a, b⟩ := toResourcePtr_reads (v := v) hk h3
      refine ⟨fun hok => ?_, fun hbad => by simp [setObject, b hbad]⟩
      obtain ⟨x, hx, h3'⟩ := a hok
      refine ⟨{ o with res := x }, by simp [setObject, hx], h0'', ?_, ?_, h3'⟩
      · rw [textOf_other (other hk "name")]; exact h1
      · rw [textOf_other (other hk "namespace")]; exact h2

theorem decodeObject (l : Members) :
    (FitsObject (list l) → ∃ o, toObject (.obj l) = some o ∧ ReadsObject (list l) o) ∧
    (¬ FitsObject (list l) → toObject (.obj l) = none) := by
  have := decode_reads (names := objectNames) (set := setObject) (Reads := ReadsObject)
    (Ok := OkObjectField) (by decide) (fun ms s k v h hno => by
      obtain ⟨h0, h1⟩ := h
      refine ⟨readsEntity_other h0 (hno _ (by decide)) (hno _ (by decide)) (hno _ (by decide)), ?_⟩
      rw [textOf_other (hno _ (by decide)), textOf_other (hno _ (by decide)),
        resourceMembers_other (hno _ (by decide))]
      exact h1) setObject_reads l [] ⟨zeroEntity, "", "", none⟩ ⟨readsEntity_zero, rfl, rfl, trivial⟩
  have hiff : (∀ n ∈ objectNames, ∀ v ∈ given n (list l), OkObjectField n v) ↔ FitsObject (list l) := by
    simp [objectNames, OkObjectField, FitsObject, FitsEntity, and_assoc]
  rw [hiff] at this
  exact this

def ReadsLink (ms : Ms) (l : Transport.Link) : Prop :=
  l.uid = textOf "uid" ms ∧ l.from' = textOf "from" ms ∧ l.to = textOf "to" ms ∧
    ∀ k, l.attrs.get? k = attrOf ms k

theorem setLink_reads (ms : Ms) (x : Transport.Link) (k : Bytes) (v : J) (n : String)
    (h : ReadsLink ms x) (hn : n ∈ linkNames) (hk : Names k n) :
    (OkEntity n v → ∃ e', setLink n x v = some e' ∧ ReadsLink (ms ++ [(k, v)]) e') ∧
    (¬ OkEntity n v → setLink n x v = none) := by
  obtain ⟨h1, h2, h3, h4⟩ := h
  simp only [linkNames, List.mem_cons, List.not_mem_nil, or_false] at hn
  rcases hn with rfl | rfl | rfl | rfl
  · obtain ⟨a, b⟩ := toStr_reads (v := v) hk h1
    refine ⟨fun hok => ?_, fun hbad => by simp [setLink, b hbad]⟩
    obtain ⟨y, hy, rfl⟩ := a hok
    refine ⟨{ x with uid := textOf "uid" (ms ++ [(k, v)]) }, by simp [setLink, hy], rfl, ?_, ?_, ?_⟩
    · rw [textOf_other (other hk "from")]; exact h2
    · rw [textOf_other (other hk "to")]; exact h3
    · rw [attrOf_other (other hk "attrs")]; exact h4
  · obtain ⟨a, b⟩ := toStr_reads (v := v) hk h2
    refine ⟨fun hok => ?_, fun hbad => by simp [setLink, b hbad]⟩
    obtain ⟨y, hy, rfl⟩ := a hok
    refine ⟨{ x with from' := textOf "from" (ms ++ [(k, v)]) }, by simp [setLink, hy], ?_, rfl, ?_, ?_⟩
    · rw [textOf_other (other hk "uid")]; exact h1
    · rw [textOf_other (other hk "to")]; exact h3
    · rw [attrOf_other (other hk "attrs")]; exact h4
  · obtain ⟨a, b⟩ := toStr_reads (v := v) hk h3
    refine ⟨fun hok => ?_, fun hbad => by simp [setLink, b hbad]⟩
    obtain ⟨y, hy, rfl⟩ := a hok
    refine ⟨{ x with to := textOf "to" (ms ++ [(k, v)]) }, by simp [setLink, hy], ?_, ?_, rfl, ?_⟩
    · rw [textOf_other (other hk "uid")]; exact h1
    · rw [textOf_other (other hk "from")]; exact h2
    · rw [attrOf_other (other hk "attrs")]; exact h4
  · obtain ⟨a, b⟩ := toAttrs_reads (v := v) hk h4
    refine ⟨fun hok => ?_, fun hbad => by simp [setLink, b hbad]⟩
    obtain ⟨y, hy, h4'⟩ := a hok
    refine ⟨{ x with attrs := y }, by simp [setLink, hy], ?_, ?_, ?_, h4'⟩
    · rw [textOf_other (other hk "uid")]; exact h1
    · rw [textOf_other (other hk "from")]; exact h2
    · rw [textOf_other (other hk "to")]; exact h3

theorem decodeLink (l : Members) :
    (FitsLink (list l) → ∃ e, toLink (.obj l) = some e ∧ ReadsLink (list l) e) ∧
    (¬ FitsLink (list l) → toLink (.obj l) = none) := by
  have := decode_reads (names := linkNames) (set := setLink) (Reads := ReadsLink) (Ok := OkEntity)
    (by decide) (fun ms s k v h hno => by
      unfold ReadsLink
      rw [textOf_other (hno _ (by decide)), textOf_other (hno _ (by decide)), textOf_other (hno _ (by decide)),
        attrOf_other (hno _ (by decide))]
      exact h) setLink_reads l [] ⟨"", "", "", GoMap.empty⟩ ⟨rfl, rfl, rfl, fun _ => rfl⟩
  have hiff : (∀ n ∈ linkNames, ∀ v ∈ given n (list l), OkEntity n v) ↔ FitsLink (list l) := by
    simp [linkNames, OkEntity, FitsLink]
  rw [hiff] at this
  exact this

end Netscrape.Marshal
