import Verif.Spec.Json

/-!
# The JSON writer and parser are inverse, up to invalid UTF-8
-/

namespace Netscrape.Json
open Netscrape.Spec.Json

/-- Replacing invalid bytes by U+FFFD. -/
def sanitizeLoop : Nat → Bytes → Bytes
  | _, [] => []
  | k + 1, c :: t => c :: sanitizeLoop k t
  | 0, c :: t =>
    if c.toNat < 0x80 then c :: sanitizeLoop 0 t
    else match contLen c t with
      | some k => c :: sanitizeLoop k t
      | none => replacement ++ sanitizeLoop 0 t

def sanitize (s : Bytes) : Bytes := sanitizeLoop 0 s

theorem contLen_le {c : Char} {t : Bytes} {k : Nat} (h : contLen c t = some k) : k ≤ t.length := by
  unfold contLen at h
  rcases t with _ | ⟨b, _ | ⟨d, _ | ⟨e, t⟩⟩⟩ <;> simp only [] at h <;> (repeat' split at h) <;>
    simp_all <;> omega

theorem contLen_take {c : Char} {t : Bytes} {k : Nat} (h : contLen c t = some k) (u : Bytes) :
    contLen c (t.take k ++ u) = some k := by
  unfold contLen at h
  rcases t with _ | ⟨b, _ | ⟨d, _ | ⟨e, t⟩⟩⟩ <;> simp only [] at h <;> (repeat' split at h) <;>
    simp_all [contLen] <;> subst h <;> simp_all <;> (repeat' split) <;> first | rfl | omega

theorem quoteLoop_copy (t : Bytes) : ∀ k, k ≤ t.length →
    quoteLoop k 0 t = t.take k ++ quoteLoop 0 0 (t.drop k) := by
  induction t with
  | nil => intro k h; cases k <;> simp_all [quoteLoop]
  | cons c t ih =>
    intro k h
    cases k with
    | zero => simp
    | succ k => simp [quoteLoop, ih k (by simpa using h)]

theorem quoteLoop_drop (t : Bytes) : ∀ k, quoteLoop 0 k t = quoteLoop 0 0 (t.drop k) := by
  induction t with
  | nil => intro k; cases k <;> simp [quoteLoop]
  | cons c t ih =>
    intro k
    cases k with
    | zero => simp
    | succ k => simp [quoteLoop, ih k]

theorem sanitizeLoop_copy (t : Bytes) : ∀ k, k ≤ t.length →
    sanitizeLoop k t = t.take k ++ sanitizeLoop 0 (t.drop k) := by
  induction t with
  | nil => intro k h; cases k <;> simp_all [sanitizeLoop]
  | cons c t ih =>
    intro k h
    cases k with
    | zero => simp
    | succ k => simp [sanitizeLoop, ih k (by simpa using h)]

theorem prepend_append (p q : Bytes) (o : Option (Bytes × Bytes)) :
    prepend p (prepend q o) = prepend (p ++ q) o := by
  cases o <;> simp [prepend]

theorem unquote_copy (t : Bytes) : ∀ k, k ≤ t.length →
    unquote k t = prepend (t.take k) (unquote 0 (t.drop k)) := by
  induction t with
  | nil => intro k h; cases k <;> simp_all [prepend, unquote]
  | cons c t ih =>
    intro k h
    cases k with
    | zero => cases h : unquote 0 (c :: t) <;> simp [prepend, h]
    | succ k =>
      show prepend [c] (unquote k t) = _
      rw [ih k (by simpa using h), prepend_append]
      simp

theorem hex4_small : ∀ n < 128, hex4 '0' '0' (hexDigit (n / 16)) (hexDigit (n % 16)) = some n := by
  decide

theorem unquote_escape {c : Char} (hc : c.toNat < 0x80) (u : Bytes) :
    unquote 0 (escape c ++ u) = prepend [c] (unquote 0 u) := by
  unfold escape
  split
  · rename_i h
    rcases h with h | h <;> subst h <;> rw [List.cons_append, unquote.eq_def] <;> rfl
  · rename_i h0
    split
    · rename_i h; subst h; rw [List.cons_append, unquote.eq_def]; rfl
    · split
      · rename_i h; subst h; rw [List.cons_append, unquote.eq_def]; rfl
      · split
        · rename_i h; subst h; rw [List.cons_append, unquote.eq_def]; rfl
        · split
          · have h4 := hex4_small c.toNat hc
            have e : encodeRune c.toNat = [c] := by
              simp [encodeRune, hc, byte, Char.ofNat_toNat]
            rw [List.cons_append, unquote.eq_def]
            simp only [List.cons_append, List.nil_append, h4]
            have : ¬ (0xD800 ≤ c.toNat ∧ c.toNat < 0xE000) := by omega
            simp [this, e]
          · rename_i h
            have h1 : c ≠ '"' := fun x => h0 (Or.inl x)
            have h2 : c ≠ '\\' := fun x => h0 (Or.inr x)
            have h3 : ¬ c.toNat < 0x20 := fun x => h (Or.inl x)
            rw [List.cons_append, unquote.eq_def]
            simp only [List.nil_append, if_neg h1, if_neg h2, if_neg h3, if_pos hc]

theorem unquote_fffd (u : Bytes) :
    unquote 0 (['\\', 'u', 'f', 'f', 'f', 'd'] ++ u) = prepend replacement (unquote 0 u) := by
  rw [List.cons_append, unquote.eq_def]; rfl

theorem toNat_inj {a : Char} {n : Nat} (h : a.toNat = n) : a = byte n := by
  subst h; simp [byte, Char.ofNat_toNat]

theorem quoteLoop_ascii {c : Char} (hc : c.toNat < 0x80) (t : Bytes) :
    quoteLoop 0 0 (c :: t) = escape c ++ quoteLoop 0 0 t := by
  rw [quoteLoop.eq_4]; simp [hc]

theorem ge_ne {c : Char} (hc : ¬ c.toNat < 0x80) (x : Char) (hx : x.toNat < 0x80) : c ≠ x := by
  intro h; subst h; exact hc hx

/-- Reading back a quoted string. -/
theorem unquote_quote (n : Nat) : ∀ s : Bytes, s.length ≤ n → ∀ rest,
    unquote 0 (quoteLoop 0 0 s ++ '"' :: rest) = some (sanitize s, rest) := by
  induction n with
  | zero =>
    intro s hs rest
    cases s with
    | nil => show unquote 0 ('"' :: rest) = _; rw [unquote.eq_def]; rfl
    | cons c t => simp at hs
  | succ n ih =>
    intro s hs rest
    cases s with
    | nil => show unquote 0 ('"' :: rest) = _; rw [unquote.eq_def]; rfl
    | cons c t =>
      have ht : t.length ≤ n := by simpa using hs
      by_cases hc : c.toNat < 0x80
      · rw [quoteLoop_ascii hc, List.append_assoc, unquote_escape hc, ih t ht]
        simp [prepend, sanitize, sanitizeLoop, hc]
      · cases hl : contLen c t with
        | none =>
          have e : quoteLoop 0 0 (c :: t) = ['\\', 'u', 'f', 'f', 'f', 'd'] ++ quoteLoop 0 0 t := by
            rw [quoteLoop.eq_4]; simp [hc, hl]
          rw [e, List.append_assoc, unquote_fffd, ih t ht]
          simp [prepend, sanitize, sanitizeLoop, hc, hl]
        | some k =>
          have hk := contLen_le hl
          have es : sanitize (c :: t) = c :: (t.take k ++ sanitize (t.drop k)) := by
            simp [sanitize, sanitizeLoop, hc, hl, sanitizeLoop_copy t k hk]
          cases hq : lineSep c t with
          | none =>
            have e : quoteLoop 0 0 (c :: t) = c :: (t.take k ++ quoteLoop 0 0 (t.drop k)) := by
              rw [quoteLoop.eq_4]; simp [hc, hl, hq, quoteLoop_copy t k hk]
            rw [e, es]
            have hct := contLen_take hl (quoteLoop 0 0 (t.drop k) ++ '"' :: rest)
            rw [List.cons_append, List.append_assoc]
            rw [unquote.eq_def]
            simp only []
            rw [if_neg (ge_ne hc _ (by decide)), if_neg (ge_ne hc _ (by decide)),
              if_neg (by omega), if_neg hc, hct]
            simp only []
            have hlen : (t.take k).length = k := by simp; omega
            rw [unquote_copy _ k (by simp; omega)]
            rw [show (List.take k t ++ (quoteLoop 0 0 (List.drop k t) ++ '"' :: rest)).take k
              = t.take k from by rw [List.take_append_of_le_length (by omega),
                List.take_take, Nat.min_self],
              show (List.take k t ++ (quoteLoop 0 0 (List.drop k t) ++ '"' :: rest)).drop k
              = quoteLoop 0 0 (List.drop k t) ++ '"' :: rest from by
                rw [List.drop_append_of_le_length (by omega)]; simp]
            rw [ih _ (by simp; omega)]
            simp [prepend]
          | some d =>
            rcases t with _ | ⟨b, _ | ⟨x, t⟩⟩
            · simp [lineSep] at hq
            · simp [lineSep] at hq
            · have e : quoteLoop 0 0 (c :: b :: x :: t) =
                  ['\\', 'u', '2', '0', '2', d] ++ quoteLoop 0 0 t := by
                rw [quoteLoop.eq_4]; simp [hc, hl, hq, quoteLoop]
              have h8 : (c = byte 0xE2 ∧ b = byte 0x80 ∧ x = byte 0xA8 ∧ d = '8') ∨
                  (c = byte 0xE2 ∧ b = byte 0x80 ∧ x = byte 0xA9 ∧ d = '9') := by
                unfold lineSep at hq
                simp only [] at hq
                split at hq
                · rename_i h
                  cases hq
                  exact Or.inl ⟨toNat_inj h.1, toNat_inj h.2.1, toNat_inj h.2.2, rfl⟩
                · split at hq
                  · rename_i h
                    cases hq
                    exact Or.inr ⟨toNat_inj h.1, toNat_inj h.2.1, toNat_inj h.2.2, rfl⟩
                  · cases hq
              have hk2 : k = 2 := by
                rcases h8 with ⟨rfl, rfl, rfl, -⟩ | ⟨rfl, rfl, rfl, -⟩ <;>
                · have := hl.symm.trans (show contLen (byte 0xE2) (byte 0x80 :: byte _ :: t) = some 2
                    from rfl)
                  cases this; rfl
              subst hk2
              rw [e, es, List.append_assoc]
              have hi := ih t (by simp at ht; omega) rest
              rcases h8 with ⟨rfl, rfl, rfl, rfl⟩ | ⟨rfl, rfl, rfl, rfl⟩
              · rw [List.cons_append, unquote.eq_def]
                show prepend (encodeRune 0x2028) (unquote 0 (quoteLoop 0 0 t ++ '"' :: rest)) = _
                rw [hi]; rfl
              · rw [List.cons_append, unquote.eq_def]
                show prepend (encodeRune 0x2029) (unquote 0 (quoteLoop 0 0 t ++ '"' :: rest)) = _
                rw [hi]; rfl

theorem unquote_quote' (s rest : Bytes) :
    unquote 0 (quoteLoop 0 0 s ++ '"' :: rest) = some (sanitize s, rest) :=
  unquote_quote s.length s (Nat.le_refl _) rest

/-! ## Values -/

mutual
/-- Replacing invalid bytes in all strings. -/
def sanJ : J → J
  | .null => .null
  | .bool b => .bool b
  | .num t => .num t
  | .str s => .str (sanitize s)
  | .arr l => .arr (sanE l)
  | .obj l => .obj (sanM l)
def sanE : Elems → Elems
  | .nil => .nil
  | .cons v r => .cons (sanJ v) (sanE r)
def sanM : Members → Members
  | .nil => .nil
  | .cons k v r => .cons (sanitize k) (sanJ v) (sanM r)
end

mutual
/-- A value without numbers. -/
def NoNum : J → Prop
  | .null => True
  | .bool _ => True
  | .num _ => False
  | .str _ => True
  | .arr l => NoNumE l
  | .obj l => NoNumM l
def NoNumE : Elems → Prop
  | .nil => True
  | .cons v r => NoNum v ∧ NoNumE r
def NoNumM : Members → Prop
  | .nil => True
  | .cons _ v r => NoNum v ∧ NoNumM r
end

mutual
/-- Recursion depth the parser needs. -/
def weight : J → Nat
  | .null => 1
  | .bool _ => 1
  | .num _ => 1
  | .str _ => 1
  | .arr l => 1 + weightE l
  | .obj l => 1 + weightM l
def weightE : Elems → Nat
  | .nil => 0
  | .cons v r => 1 + weight v + weightE r
def weightM : Members → Nat
  | .nil => 0
  | .cons _ v r => 1 + weight v + weightM r
end

theorem render_head : ∀ j, NoNum j → ∃ c t, render j = c :: t ∧ isSpace c = false ∧ c ≠ ']'
  | .null, _ => ⟨_, _, rfl, rfl, by decide⟩
  | .bool true, _ => ⟨_, _, rfl, rfl, by decide⟩
  | .bool false, _ => ⟨_, _, rfl, rfl, by decide⟩
  | .num _, h => h.elim
  | .str _, _ => ⟨_, _, rfl, rfl, by decide⟩
  | .arr .nil, _ => ⟨_, _, rfl, rfl, by decide⟩
  | .arr (.cons _ _), _ => ⟨_, _, rfl, rfl, by decide⟩
  | .obj .nil, _ => ⟨_, _, rfl, rfl, by decide⟩
  | .obj (.cons _ _ _), _ => ⟨_, _, rfl, rfl, by decide⟩

theorem skipSpace_head {c : Char} (h : isSpace c = false) (t : Bytes) :
    skipSpace (c :: t) = c :: t := by simp [skipSpace, h]

theorem quote_append (s r : Bytes) : quote s ++ r = '"' :: (quoteLoop 0 0 s ++ '"' :: r) := by
  simp [quote]

mutual
theorem value_render : ∀ (j : J) (n : Nat) (rest : Bytes), NoNum j → weight j ≤ n →
    value n (render j ++ rest) = some (sanJ j, rest)
  | .null, n + 1, rest, _, _ => rfl
  | .bool true, n + 1, rest, _, _ => rfl
  | .bool false, n + 1, rest, _, _ => rfl
  | .num _, _, _, h, _ => h.elim
  | .str s, n + 1, rest, _, _ => by
    show value (n + 1) (quote s ++ rest) = _
    rw [quote_append]
    show (match unquote 0 _ with | some (x, r) => some (J.str x, r) | none => none) = _
    rw [unquote_quote']
    rfl
  | .arr .nil, n + 1, rest, _, _ => rfl
  | .arr (.cons v r), n + 1, rest, h, hw => by
    have := elems_render v r n rest h.1 h.2 (by simp [weight] at hw; omega)
    show value (n + 1) ('[' :: ((render v ++ renderElems r) ++ rest)) = _
    obtain ⟨c, t, hc, hs, hne⟩ := render_head v h.1
    rw [List.append_assoc] at this ⊢
    rw [hc, List.cons_append] at this ⊢
    show (match skipSpace (c :: (t ++ (renderElems r ++ rest))) with
      | ']' :: r => some (J.arr .nil, r)
      | t => match elems n t with
        | some (m, r) => some (.arr m, r)
        | none => none) = _
    rw [skipSpace_head hs]
    split
    · rename_i heq; cases heq; exact absurd rfl hne
    · rw [this]; rfl
  | .obj .nil, n + 1, rest, _, _ => rfl
  | .obj (.cons k v r), n + 1, rest, h, hw => by
    have := members_render k v r n rest h.1 h.2 (by simp [weight] at hw; omega)
    show value (n + 1) ('{' :: ((quote k ++ ':' :: (render v ++ renderMembers r)) ++ rest)) = _
    rw [List.append_assoc] at this ⊢
    rw [quote_append] at this ⊢
    show (match members n _ with
        | some (m, r) => some (J.obj m, r)
        | none => none) = _
    rw [this]
    rfl
  | .null, 0, _, _, h | .bool _, 0, _, _, h | .str _, 0, _, _, h => by simp [weight] at h
  | .arr _, 0, _, _, h | .obj _, 0, _, _, h => by simp [weight] at h
theorem elems_render : ∀ (v : J) (r : Elems) (n : Nat) (rest : Bytes), NoNum v → NoNumE r →
    weightE (.cons v r) ≤ n →
    elems n ((render v ++ renderElems r) ++ rest) = some (sanE (.cons v r), rest)
  | v, .nil, n + 1, rest, hv, _, hw => by
    rw [List.append_assoc]
    have := value_render v n (renderElems .nil ++ rest) hv (by simp [weightE] at hw; omega)
    rw [elems, this]
    rfl
  | v, .cons w r, n + 1, rest, hv, hr, hw => by
    rw [List.append_assoc]
    have := value_render v n (renderElems (.cons w r) ++ rest) hv (by simp [weightE] at hw; omega)
    rw [elems, this]
    have h2 := elems_render w r n rest hr.1 hr.2 (by simp [weightE] at hw ⊢; omega)
    show (match elems n ((render w ++ renderElems r) ++ rest) with
        | some (l, r) => some (Elems.cons (sanJ v) l, r)
        | none => none) = _
    rw [h2]
    rfl
  | v, r, 0, _, _, _, h => by simp [weightE] at h
theorem members_render : ∀ (k : Bytes) (v : J) (r : Members) (n : Nat) (rest : Bytes), NoNum v →
    NoNumM r → weightM (.cons k v r) ≤ n →
    members n ((quote k ++ ':' :: (render v ++ renderMembers r)) ++ rest) =
      some (sanM (.cons k v r), rest)
  | k, v, .nil, n + 1, rest, hv, _, hw => by
    rw [List.append_assoc, quote_append]
    have := value_render v n (renderMembers .nil ++ rest) hv (by simp [weightM] at hw; omega)
    rw [members, skipSpace_head (by decide)]
    simp only [unquote_quote', List.cons_append, skipSpace_head (show isSpace ':' = false by decide),
      List.append_assoc, this]
    rfl
  | k, v, .cons k' w r, n + 1, rest, hv, hr, hw => by
    rw [List.append_assoc, quote_append]
    have := value_render v n (renderMembers (.cons k' w r) ++ rest) hv
      (by simp [weightM] at hw; omega)
    have h2 := members_render k' w r n rest hr.1 hr.2 (by simp [weightM] at hw ⊢; omega)
    rw [members, skipSpace_head (by decide)]
    simp only [unquote_quote', List.cons_append, skipSpace_head (show isSpace ':' = false by decide),
      List.append_assoc, this]
    rw [show renderMembers (.cons k' w r) ++ rest =
      ',' :: ((quote k' ++ ':' :: (render w ++ renderMembers r)) ++ rest) from rfl,
      skipSpace_head (by decide)]
    simp only [h2]
    rfl
  | k, v, r, 0, _, _, _, h => by simp [weightM] at h
end

mutual
theorem weight_le : ∀ j, weight j ≤ 2 * (render j).length + 1
  | .null => by decide
  | .bool true => by decide
  | .bool false => by decide
  | .num _ => by simp [weight]
  | .str s => by simp [weight]
  | .arr .nil => by decide
  | .arr (.cons v r) => by
    have := weight_le v; have := weightE_le r
    simp [weight, weightE, render]; omega
  | .obj .nil => by decide
  | .obj (.cons k v r) => by
    have := weight_le v; have := weightM_le r
    simp [weight, weightM, render, quote]; omega
theorem weightE_le : ∀ l, weightE l ≤ 2 * (renderElems l).length
  | .nil => by decide
  | .cons v r => by
    have := weight_le v; have := weightE_le r
    simp [weightE, renderElems]; omega
theorem weightM_le : ∀ l, weightM l ≤ 2 * (renderMembers l).length
  | .nil => by decide
  | .cons k v r => by
    have := weight_le v; have := weightM_le r
    simp [weightM, renderMembers, quote]; omega
end

/-- Parsing what was written gives back the value, invalid bytes replaced. -/
theorem parse_render (j : J) (h : NoNum j) : parse (render j) = some (sanJ j) := by
  have := value_render j (2 * (render j).length + 2) [] h (by have := weight_le j; omega)
  rw [List.append_nil] at this
  unfold parse
  rw [this]
  rfl

end Netscrape.Json
