import Verif.Lemmas.Utf8
import Verif.Spec.JsonText

/-!
# The parser accepts exactly the texts of the grammar
-/

namespace Netscrape.Json
open Netscrape.Spec.Json

/-! ## Strings -/

theorem hexVal_iff (c : Char) (n : Nat) : hexVal c = some n ↔ (c, n) ∈ hexTable := by
  constructor
  · intro h
    have hc : c.toNat < 128 ∧ n < 16 := by
      unfold hexVal at h
      simp only [] at h
      split at h
      · cases h; omega
      · split at h
        · cases h; omega
        · split at h
          · cases h; omega
          · cases h
    have key : ∀ m < 128, ∀ n < 16, ¬ (hexVal (byte m) = some n) ∨ hexTable.contains (byte m, n) := by
      decide
    have e : byte c.toNat = c := byte_eq rfl
    have := key c.toNat hc.1 n hc.2
    rw [e] at this
    exact List.contains_iff_mem.mp (this.resolve_left fun hn => hn h)
  · have key : ∀ p ∈ hexTable, hexVal p.1 = some p.2 := by decide
    exact fun h => key _ h

theorem hex4_iff (a b c d : Char) (n : Nat) : hex4 a b c d = some n ↔ Code a b c d n := by
  unfold hex4 Code
  constructor
  · intro h
    split at h
    · rename_i w x y z h1 h2 h3 h4
      cases h
      exact ⟨w, x, y, z, (hexVal_iff _ _).mp h1, (hexVal_iff _ _).mp h2, (hexVal_iff _ _).mp h3,
        (hexVal_iff _ _).mp h4, by omega⟩
    · cases h
  · rintro ⟨w, x, y, z, h1, h2, h3, h4, rfl⟩
    rw [(hexVal_iff _ _).mpr h1, (hexVal_iff _ _).mpr h2, (hexVal_iff _ _).mpr h3,
      (hexVal_iff _ _).mpr h4]
    simp only [Option.some.injEq]
    omega

theorem code_lt {a b c d : Char} {n : Nat} (h : Code a b c d n) : n < 0x10000 := by
  obtain ⟨w, x, y, z, h1, h2, h3, h4, rfl⟩ := h
  have key : ∀ p ∈ hexTable, p.2 < 16 := by decide
  have := key _ h1; have := key _ h2; have := key _ h3; have := key _ h4
  simp only [] at *
  omega

theorem shortEscape_iff (e x : Char) : shortEscape e = some x ↔ (e, x) ∈ escapes := by
  constructor
  · intro h
    unfold shortEscape at h
    split at h
    · rename_i he; cases h
      rcases he with rfl | rfl | rfl <;> decide
    · repeat (split at h; (rename_i he; cases h; subst he; decide))
      cases h
  · have key : ∀ p ∈ escapes, shortEscape p.1 = some p.2 := by decide
    exact fun h => key _ h

theorem encodeRune_eq (n : Nat) (h : n < 0xD800 ∨ (0xDFFF < n ∧ n < 0x110000)) :
    encodeRune n = utf8 [Char.ofNat n] := by
  have hv : n.isValidChar := h
  have hx : (Char.ofNat n).val.toNat = n := by simp [Char.ofNat, hv, Char.ofNatAux]
  rw [utf8_one]
  unfold String.utf8EncodeChar encodeRune byte
  rw [hx]
  simp only []
  by_cases h1 : n < 0x80
  · rw [if_pos h1, if_pos (show n ≤ 0x7f by omega)]
    simp only [List.map, UInt8.toNat_ofNat']
    congr 2; omega
  rw [if_neg h1, if_neg (show ¬ n ≤ 0x7f by omega)]
  by_cases h2 : n < 0x800
  · rw [if_pos h2, if_pos (show n ≤ 0x7ff by omega)]
    simp only [List.map, UInt8.toNat_ofNat']
    rw [show 0xC0 + n / 64 = (n / 64 % 32 + 192) % 2 ^ 8 by omega,
      show 0x80 + n % 64 = (n % 64 + 128) % 2 ^ 8 by omega]
  rw [if_neg h2, if_neg (show ¬ n ≤ 0x7ff by omega)]
  by_cases h3 : n < 0x10000
  · rw [if_pos h3, if_pos (show n ≤ 0xffff by omega)]
    simp only [List.map, UInt8.toNat_ofNat']
    rw [show 0xE0 + n / 4096 = (n / 4096 % 16 + 224) % 2 ^ 8 by omega,
      show 0x80 + n / 64 % 64 = (n / 64 % 64 + 128) % 2 ^ 8 by omega,
      show 0x80 + n % 64 = (n % 64 + 128) % 2 ^ 8 by omega]
  rw [if_neg h3, if_neg (show ¬ n ≤ 0xffff by omega)]
  simp only [List.map, UInt8.toNat_ofNat']
  rw [show 0xF0 + n / 262144 = (n / 262144 % 8 + 240) % 2 ^ 8 by omega,
    show 0x80 + n / 4096 % 64 = (n / 4096 % 64 + 128) % 2 ^ 8 by omega,
    show 0x80 + n / 64 % 64 = (n / 64 % 64 + 128) % 2 ^ 8 by omega,
    show 0x80 + n % 64 = (n % 64 + 128) % 2 ^ 8 by omega]

theorem replacement_eq : replacement = utf8 [Char.ofNat 0xFFFD] :=
  (encodeRune_eq 0xFFFD (by omega)).symm ▸ by decide

theorem contLen_cont {c : Char} {t : Bytes} {k : Nat} (h : contLen c t = some k) :
    ∀ d ∈ t.take k, 0x80 ≤ d.toNat := by
  obtain ⟨x, hx⟩ := contLen_char h
  unfold contLen at h
  rcases t with _ | ⟨b, t⟩
  · cases h
  simp only [] at h
  split at h
  · split at h
    · rename_i hb
      cases h; simp [isCont] at hb; simp; omega
    · cases h
  · rcases t with _ | ⟨d, t⟩
    · cases h
    simp only [] at h
    split at h
    · split at h
      · rename_i hb
        cases h; simp [isCont] at hb; simp; omega
      · cases h
    · rcases t with _ | ⟨e, t⟩
      · cases h
      simp only [] at h
      split at h
      · split at h
        · rename_i hb
          cases h; simp [isCont] at hb; simp; omega
        · cases h
      · cases h

theorem utf8_head (x : Char) (hx : 0x80 ≤ x.toNat) : ∃ c u, ¬ c.toNat < 0x80 ∧ utf8 [x] = c :: u ∧
    ∀ rest, contLen c (u ++ rest) = some u.length := by
  rcases utf8_char x with ⟨c, hc, h⟩ | h
  · exfalso
    rw [utf8_one] at h
    unfold String.utf8EncodeChar at h
    simp only [] at h
    have hv : 0x80 ≤ x.val.toNat := hx
    rw [if_neg (by omega)] at h
    split at h
    · cases h
    · split at h <;> cases h
  · exact h

theorem lowSurrogate_some {r : Nat} {t : Bytes} {n : Nat} (h : lowSurrogate r t = some n) :
    ∃ a b c d u, t = '\\' :: 'u' :: a :: b :: c :: d :: u ∧ Code a b c d n ∧ Low n ∧ r < 0xDC00 := by
  unfold lowSurrogate at h
  split at h
  · rename_i a b c d u
    split at h
    · rename_i r' hr
      split at h
      · rename_i hl
        cases h
        exact ⟨a, b, c, d, u, rfl, (hex4_iff _ _ _ _ _).mp hr, ⟨hl.2.1, hl.2.2⟩, hl.1⟩
      · cases h
    · cases h
  · cases h

theorem lowSurrogate_of {r : Nat} {a b c d : Char} {n : Nat} (h : Code a b c d n) (hn : Low n)
    (hr : r < 0xDC00) (u : Bytes) :
    lowSurrogate r ('\\' :: 'u' :: a :: b :: c :: d :: u) = some n := by
  simp only [lowSurrogate, (hex4_iff _ _ _ _ _).mpr h]
  rw [if_pos ⟨hr, hn.1, hn.2⟩]

/-- Looking ahead past the closing quotation mark makes no difference. -/
theorem startsLow_append {t r : Bytes} (h : StartsLow (t ++ '"' :: r)) : StartsLow t := by
  obtain ⟨a, b, c, d, n, u, h, hc, hn⟩ := h
  have hq : ∀ n, ('"', n) ∉ hexTable := by
    have : ∀ p ∈ hexTable, p.1 ≠ '"' := by decide
    exact fun n hm => this _ hm rfl
  obtain ⟨w, x, y, z, h1, h2, h3, h4, he⟩ := hc
  rcases t with _ | ⟨t0, _ | ⟨t1, _ | ⟨t2, _ | ⟨t3, _ | ⟨t4, _ | ⟨t5, t⟩⟩⟩⟩⟩⟩ <;>
    simp only [List.nil_append, List.cons_append, List.cons.injEq] at h
  · exact absurd h.1 (by decide)
  · exact absurd h.2.1 (by decide)
  · obtain ⟨-, -, rfl, -⟩ := h; exact absurd h1 (hq _)
  · obtain ⟨-, -, -, rfl, -⟩ := h; exact absurd h2 (hq _)
  · obtain ⟨-, -, -, -, rfl, -⟩ := h; exact absurd h3 (hq _)
  · obtain ⟨-, -, -, -, -, rfl, -⟩ := h; exact absurd h4 (hq _)
  · obtain ⟨rfl, rfl, rfl, rfl, rfl, rfl, -⟩ := h
    exact ⟨_, _, _, _, n, t, rfl, ⟨w, x, y, z, h1, h2, h3, h4, he⟩, hn⟩

theorem prepend_some {p : Bytes} {o : Option (Bytes × Bytes)} {x r : Bytes}
    (h : prepend p o = some (x, r)) : ∃ y, o = some (y, r) ∧ x = p ++ y := by
  cases o with
  | none => cases h
  | some q => obtain ⟨y, r'⟩ := q; cases h; exact ⟨y, rfl, rfl⟩

/-- What `unquote` accepts is the body of a string. -/
theorem unquote_sound (n : Nat) : ∀ s x r, s.length ≤ n → unquote 0 s = some (x, r) →
    ∃ b, Body b x ∧ s = b ++ '"' :: r := by
  induction n with
  | zero =>
    intro s x r hn h
    rw [List.length_eq_zero_iff.mp (by omega : s.length = 0)] at h
    cases h
  | succ n ih =>
    intro s x r hn h
    rcases s with _ | ⟨c, t⟩
    · cases h
    simp only [List.length_cons] at hn
    by_cases hq : c = '"'
    · subst hq
      have : unquote 0 ('"' :: t) = some ([], t) := by unfold unquote; rw [if_pos rfl]
      rw [this] at h; cases h
      exact ⟨[], .nil, rfl⟩
    by_cases hs : c = '\\'
    · subst hs
      rcases t with _ | ⟨e, t⟩
      · cases h
      by_cases he : e = 'u'
      · subst he
        rcases t with _ | ⟨a, _ | ⟨b, _ | ⟨c, _ | ⟨d, t⟩⟩⟩⟩ <;> try (cases h; done)
        simp only [List.length_cons] at hn
        unfold unquote at h
        rw [if_neg (by decide), if_pos rfl] at h
        simp only [if_pos] at h
        cases hx : hex4 a b c d with
        | none => rw [hx] at h; cases h
        | some n0 =>
          rw [hx] at h
          have hcode := (hex4_iff _ _ _ _ _).mp hx
          have hlt := code_lt hcode
          dsimp only at h
          by_cases hsur : 0xD800 ≤ n0 ∧ n0 < 0xE000
          · rw [if_pos hsur] at h
            cases hl : lowSurrogate n0 t with
            | none =>
              rw [hl] at h
              dsimp only at h
              obtain ⟨y, hy, rfl⟩ := prepend_some h
              obtain ⟨b', hb, rfl⟩ := ih t y r (by omega) hy
              rw [replacement_eq]
              by_cases hh : n0 < 0xDC00
              · refine ⟨_, .high hcode ⟨hsur.1, hh⟩ ?_ hb, rfl⟩
                rintro ⟨_, _, _, _, m, u, rfl, hm, hlow⟩
                have := lowSurrogate_of (r := n0) hm hlow hh (u ++ '"' :: r)
                simp only [List.cons_append] at hl
                rw [this] at hl; cases hl
              · exact ⟨_, .low hcode ⟨by omega, hsur.2⟩ hb, rfl⟩
            | some lo =>
              obtain ⟨a', b', c', d', u, rfl, hc', hlow, hh⟩ := lowSurrogate_some hl
              rw [hl] at h
              dsimp only at h
              generalize hm : 0x10000 + (n0 - 0xD800) * 1024 + (lo - 0xDC00) = m at h
              obtain ⟨y, hy, rfl⟩ := prepend_some h
              simp only [List.length_cons] at hn
              obtain ⟨b'', hb, rfl⟩ := ih u y r (by omega) hy
              rw [encodeRune_eq _ (by unfold Low at hlow; omega), ← hm]
              exact ⟨_, .pair hcode ⟨hsur.1, hh⟩ hc' hlow hb, rfl⟩
          · rw [if_neg hsur] at h
            obtain ⟨y, hy, rfl⟩ := prepend_some h
            obtain ⟨b', hb, rfl⟩ := ih t y r (by omega) hy
            rw [encodeRune_eq _ (by omega)]
            exact ⟨_, .code hcode (by unfold High; omega) (by unfold Low; omega) hb, rfl⟩
      · unfold unquote at h
        rw [if_neg (by decide), if_pos rfl] at h
        dsimp only at h
        rw [if_neg he] at h
        cases hx : shortEscape e with
        | none => rw [hx] at h; cases h
        | some x' =>
          rw [hx] at h
          dsimp only at h
          obtain ⟨y, hy, rfl⟩ := prepend_some h
          simp only [List.length_cons] at hn
          obtain ⟨b', hb, rfl⟩ := ih t y r (by omega) hy
          exact ⟨_, .short ((shortEscape_iff _ _).mp hx) hb, rfl⟩
    · unfold unquote at h
      rw [if_neg hq, if_neg hs] at h
      by_cases h20 : c.toNat < 0x20
      · rw [if_pos h20] at h; cases h
      rw [if_neg h20] at h
      by_cases h80 : c.toNat < 0x80
      · rw [if_pos h80] at h
        obtain ⟨y, hy, rfl⟩ := prepend_some h
        obtain ⟨b', hb, rfl⟩ := ih t y r (by omega) hy
        exact ⟨_, .plain (by omega) h80 hq hs hb, rfl⟩
      rw [if_neg h80] at h
      cases hc : contLen c t with
      | none =>
        rw [hc] at h
        dsimp only at h
        obtain ⟨y, hy, rfl⟩ := prepend_some h
        obtain ⟨b', hb, rfl⟩ := ih t y r (by omega) hy
        rw [replacement_eq]
        refine ⟨_, .invalid (by omega) ?_ hb, rfl⟩
        intro z r' he
        rcases utf8_char z with ⟨c', hc', hz⟩ | ⟨c', u, hc', hz, hcl⟩
        · rw [hz] at he; cases he; omega
        · rw [hz] at he; cases he
          have := hcl (r' ++ '"' :: r)
          rw [← List.append_assoc] at this
          exact absurd (hc.symm.trans this) nofun
      | some k =>
        rw [hc] at h
        dsimp only at h
        rw [unquote_copy t k (contLen_le hc), prepend_append] at h
        obtain ⟨y, hy, rfl⟩ := prepend_some h
        obtain ⟨b', hb, he⟩ := ih (t.drop k) y r (by simp; omega) hy
        obtain ⟨z, hz⟩ := contLen_char hc
        rw [List.singleton_append, hz]
        refine ⟨utf8 [z] ++ b', .multi ?_ hb, ?_⟩
        · by_cases hzz : z.toNat < 0x80
          · rw [← ascii_char hzz] at hz
            have := (List.cons.inj hz).1
            subst this
            omega
          · omega
        · rw [List.append_assoc, ← he, ← hz, List.cons_append, List.take_append_drop]

/-- The body of a string is accepted by `unquote`. -/
theorem unquote_complete {b x : Bytes} (h : Body b x) (r : Bytes) :
    unquote 0 (b ++ '"' :: r) = some (x, r) := by
  have fffd : ∀ (n : Nat) (t s : Bytes), unquote 0 (t ++ '"' :: r) = some (s, r) →
      prepend replacement (unquote 0 (t ++ '"' :: r)) = some (utf8 [Char.ofNat 0xFFFD] ++ s, r) := by
    intro n t s h; rw [h, replacement_eq]; rfl
  induction h with
  | nil =>
    rw [List.nil_append]; unfold unquote; rw [if_pos rfl]
  | plain h1 h2 h3 h4 _ ih =>
    rw [List.cons_append]; unfold unquote
    rw [if_neg h3, if_neg h4, if_neg (by omega), if_pos h2, ih]; rfl
  | @multi z t s hz _ ih =>
    obtain ⟨c, u, h1, h2, h3⟩ := utf8_head z hz
    rw [h2, List.append_assoc, List.cons_append]
    unfold unquote
    rw [if_neg (by rintro rfl; exact h1 (by decide)), if_neg (by rintro rfl; exact h1 (by decide)),
      if_neg (by omega), if_neg h1, h3]
    dsimp only
    rw [unquote_copy _ _ (by simp), prepend_append]
    simp only [List.take_left, List.drop_left, ih]
    rfl
  | @short e x t s he _ ih =>
    have hu : e ≠ 'u' := by
      rintro rfl
      have : ∀ p ∈ escapes, p.1 ≠ 'u' := by decide
      exact this _ he rfl
    rw [List.cons_append, List.cons_append]
    unfold unquote
    rw [if_neg (by decide), if_pos rfl]
    dsimp only
    rw [if_neg hu, (shortEscape_iff _ _).mpr he]
    dsimp only
    rw [ih]; rfl
  | @code a b c d n t s hc h1 h2 _ ih =>
    simp only [List.cons_append]
    unfold unquote
    rw [if_neg (by decide), if_pos rfl]
    dsimp only
    rw [if_pos rfl, (hex4_iff _ _ _ _ _).mpr hc]
    dsimp only
    have := code_lt hc
    unfold High at h1; unfold Low at h2
    rw [if_neg (by omega), encodeRune_eq _ (by omega), ih]; rfl
  | @pair a b c d hi a' b' c' d' lo t s hc h1 hc' h2 _ ih =>
    simp only [List.cons_append]
    unfold unquote
    rw [if_neg (by decide), if_pos rfl]
    dsimp only
    rw [if_pos rfl, (hex4_iff _ _ _ _ _).mpr hc]
    dsimp only
    rw [if_pos (by unfold High at h1; omega), lowSurrogate_of hc' h2 h1.2]
    dsimp only
    unfold High at h1; unfold Low at h2
    rw [encodeRune_eq _ (by omega), ih]; rfl
  | @high a b c d n t s hc h1 h2 _ ih =>
    simp only [List.cons_append]
    unfold unquote
    rw [if_neg (by decide), if_pos rfl]
    dsimp only
    rw [if_pos rfl, (hex4_iff _ _ _ _ _).mpr hc]
    dsimp only
    rw [if_pos (by unfold High at h1; omega)]
    cases hl : lowSurrogate n (t ++ '"' :: r) with
    | none => exact fffd n t s ih
    | some lo =>
      obtain ⟨a', b', c', d', u, he, hc', hlow, -⟩ := lowSurrogate_some hl
      exact absurd (startsLow_append (r := r) ⟨a', b', c', d', lo, u, he, hc', hlow⟩) h2
  | @low a b c d n t s hc h1 _ ih =>
    simp only [List.cons_append]
    unfold unquote
    rw [if_neg (by decide), if_pos rfl]
    dsimp only
    rw [if_pos rfl, (hex4_iff _ _ _ _ _).mpr hc]
    dsimp only
    rw [if_pos (by unfold Low at h1; omega)]
    cases hl : lowSurrogate n (t ++ '"' :: r) with
    | none => exact fffd n t s ih
    | some lo =>
      obtain ⟨a', b', c', d', u, he, hc', hlow, hh⟩ := lowSurrogate_some hl
      unfold Low at h1; omega
  | @invalid c t s h1 h2 _ ih =>
    rw [List.cons_append]
    unfold unquote
    rw [if_neg (by rintro rfl; exact absurd h1 (by decide)),
      if_neg (by rintro rfl; exact absurd h1 (by decide)), if_neg (by omega), if_neg (by omega)]
    cases hc : contLen c (t ++ '"' :: r) with
    | none => exact fffd 0 t s ih
    | some k =>
      exfalso
      obtain ⟨z, hz⟩ := contLen_char hc
      by_cases hk : k ≤ t.length
      · refine h2 z (t.drop k) ?_
        rw [← hz, List.take_append_of_le_length hk, List.cons_append, List.take_append_drop]
      · have hm : '"' ∈ (t ++ '"' :: r).take k := by
          rw [List.take_append]
          have : k - t.length = (k - t.length - 1) + 1 := by omega
          rw [this]; simp
        have := contLen_cont hc _ hm
        exact absurd this (by decide)

/-! ## Space and numbers -/

theorem isSpace_iff (c : Char) : isSpace c = true ↔ (c = ' ' ∨ c = '\t' ∨ c = '\n' ∨ c = '\r') := by
  simp only [isSpace, Bool.or_eq_true, decide_eq_true_eq]
  constructor
  · rintro (((h | h) | h) | h) <;> simp [h]
  · rintro (h | h | h | h) <;> simp [h]

theorem skipSpace_sound (s : Bytes) : ∃ w, Ws w ∧ s = w ++ skipSpace s := by
  induction s with
  | nil => exact ⟨[], by simp [Ws], rfl⟩
  | cons c t ih =>
    unfold skipSpace
    split
    · rename_i hc
      obtain ⟨w, hw, he⟩ := ih
      refine ⟨c :: w, ?_, by rw [List.cons_append, ← he]⟩
      intro d hd
      rcases List.mem_cons.mp hd with rfl | hd
      · exact (isSpace_iff _).mp hc
      · exact hw d hd
    · exact ⟨[], by simp [Ws], rfl⟩

theorem skipSpace_ws {w : Bytes} (hw : Ws w) (t : Bytes) : skipSpace (w ++ t) = skipSpace t := by
  induction w with
  | nil => rfl
  | cons c w ih =>
    rw [List.cons_append, skipSpace, if_pos ((isSpace_iff _).mpr (hw c (by simp)))]
    exact ih fun d hd => hw d (by simp [hd])

theorem digit_iff (c : Char) : isDigit c = true ↔ Digit c := by
  constructor
  · intro h
    simp only [isDigit, Bool.and_eq_true, decide_eq_true_eq] at h
    have key : ∀ m < 58, m < 48 ∨ "0123456789".toList.contains (byte m) := by decide
    have e : byte c.toNat = c := byte_eq rfl
    have := key c.toNat (by omega)
    rw [e] at this
    exact List.contains_iff_mem.mp (this.resolve_left (by omega))
  · have key : ∀ c ∈ "0123456789".toList, isDigit c = true := by decide
    exact fun h => key c h

theorem digits_sound (s : Bytes) : (∀ c ∈ (digits s).1, Digit c) ∧ s = (digits s).1 ++ (digits s).2 := by
  induction s with
  | nil => simp [digits]
  | cons c t ih =>
    unfold digits
    split
    · rename_i hc
      refine ⟨?_, by simp only [List.cons_append]; rw [← ih.2]⟩
      intro d hd
      rcases List.mem_cons.mp hd with rfl | hd
      · exact (digit_iff _).mp hc
      · exact ih.1 d hd
    · simp

theorem digits_complete {ds r : Bytes} (h : ∀ c ∈ ds, Digit c)
    (hr : ∀ c u, r = c :: u → ¬ Digit c) : digits (ds ++ r) = (ds, r) := by
  induction ds with
  | nil =>
    rcases r with _ | ⟨c, u⟩
    · rfl
    · rw [List.nil_append, digits, if_neg (by rw [digit_iff]; exact hr c u rfl)]
  | cons c t ih =>
    rw [List.cons_append, digits, if_pos ((digit_iff c).mpr (h c (by simp))),
      ih fun d hd => h d (by simp [hd])]

theorem intPart_sound {s i r : Bytes} (h : intPart s = some (i, r)) : IntPart i ∧ s = i ++ r := by
  obtain ⟨h1, h2⟩ := digits_sound s
  unfold intPart at h
  split at h
  · cases h
  · rename_i ds r' he
    rw [he] at h1 h2
    cases h
    exact ⟨.zero, by rw [h2]; rfl⟩
  · rename_i hne hz
    have he := Option.some.inj h
    rw [he] at h1 h2 hne hz
    simp only [] at h1 h2
    rcases i with _ | ⟨d, ds⟩
    · exact absurd rfl (hne r)
    · refine ⟨.other (h1 d (by simp)) ?_ fun c hc => h1 c (by simp [hc]), h2⟩
      rintro rfl; exact hz ds r rfl

/-- The text goes on with something that cannot belong to a number. -/
def Stops (r : Bytes) : Prop := ∀ c u, r = c :: u → ¬ Digit c ∧ c ≠ '.' ∧ c ≠ 'e' ∧ c ≠ 'E'

theorem intPart_complete {i r : Bytes} (h : IntPart i) (hr : ∀ c u, r = c :: u → ¬ Digit c) :
    intPart (i ++ r) = some (i, r) := by
  unfold intPart
  cases h with
  | zero =>
    rw [digits_complete (by intro c hc; rw [List.mem_singleton.mp hc]; exact (digit_iff _).mp rfl) hr]
    rfl
  | @other d ds h1 h2 h3 =>
    rw [digits_complete (by
      intro c hc
      rcases List.mem_cons.mp hc with rfl | hc
      · exact h1
      · exact h3 c hc) hr]
    split
    · rename_i he; cases he
    · rename_i he; cases he; exact absurd rfl h2
    · rfl

theorem fracPart_sound {s f r : Bytes} (h : fracPart s = some (f, r)) : FracPart f ∧ s = f ++ r := by
  unfold fracPart at h
  split at h
  · rename_i t
    obtain ⟨h1, h2⟩ := digits_sound t
    split at h
    · cases h
    · rename_i ds r' hne he
      cases h
      rw [he] at h1 h2
      rcases ds with _ | ⟨d, ds⟩
      · exact absurd rfl hne
      · exact ⟨.present (h1 d (by simp)) fun c hc => h1 c (by simp [hc]), by rw [h2]; rfl⟩
  · cases h; exact ⟨.absent, rfl⟩

theorem fracPart_complete {f r : Bytes} (h : FracPart f) (hr : ∀ c u, r = c :: u → ¬ Digit c ∧ c ≠ '.') :
    fracPart (f ++ r) = some (f, r) := by
  cases h with
  | absent =>
    rw [List.nil_append]
    unfold fracPart
    split
    · exact absurd rfl (hr _ _ rfl).2
    · rfl
  | @present d ds h1 h2 =>
    simp only [List.cons_append, fracPart]
    rw [show d :: (ds ++ r) = (d :: ds) ++ r from rfl, digits_complete (by
      intro c hc
      rcases List.mem_cons.mp hc with rfl | hc
      · exact h1
      · exact h2 c hc) (fun c u e => (hr c u e).1)]

theorem expPart_sound {s e r : Bytes} (h : expPart s = some (e, r)) : ExpPart e ∧ s = e ++ r := by
  unfold expPart at h
  rcases s with _ | ⟨c, t⟩
  · cases h; exact ⟨.absent, rfl⟩
  simp only [] at h
  split at h
  · rename_i hc
    rcases t with _ | ⟨d, t'⟩
    · cases h
    simp only [] at h
    split at h
    · rename_i hd
      obtain ⟨h1, h2⟩ := digits_sound t'
      split at h
      · cases h
      · rename_i ds r' hne he
        cases h
        rw [he] at h1 h2
        rcases ds with _ | ⟨x, ds⟩
        · exact absurd rfl hne
        · refine ⟨.present (sign := [d]) hc (Or.inr ?_) (h1 x (by simp)) fun c hc => h1 c (by simp [hc]), ?_⟩
          · rcases hd with rfl | rfl <;> simp
          · simp only [] at h2; rw [h2]; rfl
    · obtain ⟨h1, h2⟩ := digits_sound (d :: t')
      split at h
      · cases h
      · rename_i ds r' hne he
        cases h
        rw [he] at h1 h2
        rcases ds with _ | ⟨x, ds⟩
        · exact absurd rfl hne
        · refine ⟨.present (sign := []) hc (Or.inl rfl) (h1 x (by simp)) fun c hc => h1 c (by simp [hc]), ?_⟩
          simp only [] at h2; rw [h2]; rfl
  · cases h; exact ⟨.absent, rfl⟩

theorem expPart_complete {e r : Bytes} (h : ExpPart e)
    (hr : ∀ c u, r = c :: u → ¬ Digit c ∧ c ≠ 'e' ∧ c ≠ 'E') : expPart (e ++ r) = some (e, r) := by
  cases h with
  | absent =>
    rw [List.nil_append]
    rcases r with _ | ⟨c, u⟩
    · rfl
    · have := hr c u rfl
      simp only [expPart]
      rw [if_neg (by rintro (h | h) <;> simp_all)]
  | @present e sign d ds he hs h1 h2 =>
    have hdig : digits (d :: ds ++ r) = (d :: ds, r) := digits_complete (by
      intro c hc
      rcases List.mem_cons.mp hc with rfl | hc
      · exact h1
      · exact h2 c hc) (fun c u e => (hr c u e).1)
    rw [List.cons_append] at hdig
    rcases hs with rfl | rfl | rfl
    · have hd : ¬ (d = '+' ∨ d = '-') := by
        have := (digit_iff d).mpr h1
        rintro (rfl | rfl) <;> exact absurd this (by decide)
      simp only [expPart, List.nil_append, List.cons_append]
      rw [if_pos he, if_neg hd, hdig]
    · simp only [expPart, List.nil_append, List.cons_append]
      rw [if_pos he, if_pos (Or.inl trivial), hdig]
    · simp only [expPart, List.nil_append, List.cons_append]
      rw [if_pos he, if_pos (Or.inr trivial), hdig]

theorem number_sound {s x r : Bytes} (h : number s = some (x, r)) : Number x ∧ s = x ++ r := by
  unfold number at h
  have key : ∀ (sign u : Bytes), (sign = [] ∨ sign = ['-']) → s = sign ++ u →
      (match intPart u with
        | none => none
        | some (i, r) => match fracPart r with
          | none => none
          | some (f, r) => match expPart r with
            | none => none
            | some (e, r) => some (sign ++ i ++ f ++ e, r)) = some (x, r) → Number x ∧ s = x ++ r := by
    intro sign u hs he h
    cases h1 : intPart u with
    | none => rw [h1] at h; cases h
    | some p =>
      obtain ⟨i, r1⟩ := p
      rw [h1] at h; dsimp only at h
      cases h2 : fracPart r1 with
      | none => rw [h2] at h; cases h
      | some p =>
        obtain ⟨f, r2⟩ := p
        rw [h2] at h; dsimp only at h
        cases h3 : expPart r2 with
        | none => rw [h3] at h; cases h
        | some p =>
          obtain ⟨e, r3⟩ := p
          rw [h3] at h; cases h
          obtain ⟨a1, b1⟩ := intPart_sound h1
          obtain ⟨a2, b2⟩ := fracPart_sound h2
          obtain ⟨a3, b3⟩ := expPart_sound h3
          exact ⟨.mk hs a1 a2 a3, by rw [he, b1, b2, b3]; simp⟩
  split at h
  rename_i sign u he
  split at he
  · cases he; exact key ['-'] _ (Or.inr rfl) rfl h
  · cases he; exact key [] _ (Or.inl rfl) rfl h

theorem digit_ne {c d : Char} (h : Digit c) (hd : isDigit d = false) : c ≠ d := by
  rintro rfl; rw [(digit_iff c).mpr h] at hd; cases hd

theorem intPart_head {i : Bytes} (h : IntPart i) : ∃ c u, i = c :: u ∧ Digit c := by
  cases h with
  | zero => exact ⟨_, _, rfl, (digit_iff _).mp rfl⟩
  | other h => exact ⟨_, _, rfl, h⟩

theorem expPart_head {e r : Bytes} (h : ExpPart e) (hr : Stops r) {c : Char} {u : Bytes}
    (he : e ++ r = c :: u) : ¬ Digit c ∧ c ≠ '.' := by
  cases h with
  | absent => exact ⟨(hr c u he).1, (hr c u he).2.1⟩
  | present h =>
    rw [List.cons_append] at he; cases he
    rcases h with rfl | rfl
    · exact ⟨fun h => absurd ((digit_iff _).mpr h) (by decide), by decide⟩
    · exact ⟨fun h => absurd ((digit_iff _).mpr h) (by decide), by decide⟩

theorem fracPart_head {f r : Bytes} (h : FracPart f) (hr : ∀ c u, r = c :: u → ¬ Digit c) {c : Char}
    {u : Bytes} (he : f ++ r = c :: u) : ¬ Digit c := by
  cases h with
  | absent => exact hr c u he
  | present h =>
    rw [List.cons_append] at he; cases he
    exact fun h => absurd ((digit_iff _).mpr h) (by decide)

theorem number_complete {t r : Bytes} (h : Number t) (hr : Stops r) : number (t ++ r) = some (t, r) := by
  cases h with
  | @mk sign i f e hs hi hf he =>
    have h1 : intPart (i ++ (f ++ (e ++ r))) = some (i, f ++ (e ++ r)) :=
      intPart_complete hi fun c u h => fracPart_head hf (fun c u h => (expPart_head he hr h).1) h
    have h2 : fracPart (f ++ (e ++ r)) = some (f, e ++ r) :=
      fracPart_complete hf fun c u h => expPart_head he hr h
    have h3 : expPart (e ++ r) = some (e, r) :=
      expPart_complete he fun c u h => ⟨(hr c u h).1, (hr c u h).2.2⟩
    simp only [List.append_assoc]
    rcases hs with rfl | rfl
    · unfold number
      obtain ⟨c, u, hcu, hc⟩ := intPart_head hi
      have hne : c ≠ '-' := digit_ne hc rfl
      split
      rename_i sign u' hm
      split at hm
      · rename_i t ht
        rw [hcu] at ht; cases ht; exact absurd rfl hne
      · cases hm
        simp only [h1, h2, h3, List.nil_append, List.append_assoc]
    · unfold number
      simp only [List.cons_append, List.nil_append, h1, h2, h3, List.append_assoc]

/-! ## Values -/

theorem ws_append {w w' : Bytes} (h : Ws w) (h' : Ws w') : Ws (w ++ w') := by
  intro c hc
  rcases List.mem_append.mp hc with hc | hc
  · exact h c hc
  · exact h' c hc

theorem value_sound (n : Nat) :
    (∀ s v r, value n s = some (v, r) → ∃ w t, Ws w ∧ Denotes t v ∧ s = w ++ t ++ r) ∧
    (∀ s l r, elems n s = some (l, r) → ∃ t, DenotesElems t l ∧ s = t ++ ']' :: r) ∧
    (∀ s l r, members n s = some (l, r) → ∃ t, DenotesMembers t l ∧ s = t ++ '}' :: r) := by
  induction n with
  | zero => exact ⟨fun s v r h => by simp [value] at h, fun s l r h => by simp [elems] at h,
      fun s l r h => by simp [members] at h⟩
  | succ n ih =>
    obtain ⟨ihv, ihe, ihm⟩ := ih
    refine ⟨?_, ?_, ?_⟩
    · intro s v r h
      obtain ⟨w, hw, hs⟩ := skipSpace_sound s
      unfold value at h
      split at h
      · cases h
      · rename_i t ht
        cases hu : unquote 0 t with
        | none => rw [hu] at h; cases h
        | some p =>
          rw [hu] at h; cases h
          obtain ⟨b, hb, he⟩ := unquote_sound _ _ _ _ (Nat.le_refl _) hu
          exact ⟨w, _, hw, .str hb, by rw [hs, ht, he]; simp⟩
      · rename_i t ht
        obtain ⟨w', hw', ht'⟩ := skipSpace_sound t
        split at h
        · rename_i r' hr
          cases h
          exact ⟨w, _, hw, .objNil hw', by rw [hs, ht, ht', hr]; simp⟩
        · cases hm : members n (skipSpace t) with
          | none => rw [hm] at h; cases h
          | some p =>
            obtain ⟨m', r'⟩ := p
            rw [hm] at h; cases h
            obtain ⟨b, hb, he⟩ := ihm _ _ _ hm
            refine ⟨w, '{' :: ((w' ++ b) ++ ['}']), hw, .obj ?_, by rw [hs, ht, ht', he]; simp⟩
            cases hb with
            | one a1 a2 a3 a4 a5 a6 =>
              rw [← List.append_assoc]
              exact .one (ws_append hw' a1) a2 a3 a4 a5 a6
            | more a1 a2 a3 a4 a5 a6 a7 =>
              rw [← List.append_assoc]
              exact .more (ws_append hw' a1) a2 a3 a4 a5 a6 a7
      · rename_i t ht
        obtain ⟨w', hw', ht'⟩ := skipSpace_sound t
        split at h
        · rename_i r' hr
          cases h
          exact ⟨w, _, hw, .arrNil hw', by rw [hs, ht, ht', hr]; simp⟩
        · cases hm : elems n (skipSpace t) with
          | none => rw [hm] at h; cases h
          | some p =>
            obtain ⟨m', r'⟩ := p
            rw [hm] at h; cases h
            obtain ⟨b, hb, he⟩ := ihe _ _ _ hm
            refine ⟨w, '[' :: ((w' ++ b) ++ [']']), hw, .arr ?_, by rw [hs, ht, ht', he]; simp⟩
            cases hb with
            | one a1 a2 a3 =>
              simp only [← List.append_assoc]
              exact .one (ws_append hw' a1) a2 a3
            | more a1 a2 a3 a4 =>
              simp only [← List.append_assoc]
              exact .more (ws_append hw' a1) a2 a3 a4
      · rename_i hr; cases h
        exact ⟨w, _, hw, .null, by rw [hs, hr]; simp⟩
      · rename_i hr; cases h
        exact ⟨w, _, hw, .true, by rw [hs, hr]; simp⟩
      · rename_i hr; cases h
        exact ⟨w, _, hw, .false, by rw [hs, hr]; simp⟩
      · cases hu : number (skipSpace s) with
        | none => rw [hu] at h; cases h
        | some p =>
          rw [hu] at h; cases h
          obtain ⟨hb, he⟩ := number_sound hu
          exact ⟨w, _, hw, .num hb, by rw [List.append_assoc, ← he]; exact hs⟩
    · intro s l r h
      unfold elems at h
      cases hv : value n s with
      | none => rw [hv] at h; cases h
      | some p =>
        obtain ⟨v, r'⟩ := p
        rw [hv] at h; dsimp only at h
        obtain ⟨w, t, hw, ht, hs⟩ := ihv _ _ _ hv
        obtain ⟨w', hw', hr'⟩ := skipSpace_sound r'
        split at h
        · rename_i hr; cases h
          exact ⟨_, .one hw ht hw', by rw [hs, hr', hr]; simp⟩
        · rename_i r'' hr
          cases hm : elems n r'' with
          | none => rw [hm] at h; cases h
          | some p =>
            rw [hm] at h; cases h
            obtain ⟨b, hb, he⟩ := ihe _ _ _ hm
            exact ⟨_, .more hw ht hw' hb, by rw [hs, hr', hr, he]; simp⟩
        · cases h
    · intro s l r h
      unfold members at h
      obtain ⟨w, hw, hs⟩ := skipSpace_sound s
      split at h
      · rename_i t ht
        cases hu : unquote 0 t with
        | none => rw [hu] at h; cases h
        | some p =>
          obtain ⟨k, r1⟩ := p
          rw [hu] at h; dsimp only at h
          obtain ⟨b, hb, he⟩ := unquote_sound _ _ _ _ (Nat.le_refl _) hu
          obtain ⟨w1, hw1, hr1⟩ := skipSpace_sound r1
          split at h
          · rename_i r2 hr2
            cases hv : value n r2 with
            | none => rw [hv] at h; cases h
            | some p =>
              obtain ⟨v, r3⟩ := p
              rw [hv] at h; dsimp only at h
              obtain ⟨w2, t', hw2, ht', hs'⟩ := ihv _ _ _ hv
              obtain ⟨w3, hw3, hr3⟩ := skipSpace_sound r3
              split at h
              · rename_i hr; cases h
                exact ⟨_, .one hw hb hw1 hw2 ht' hw3, by rw [hs, ht, he, hr1, hr2, hs', hr3, hr]; simp⟩
              · rename_i r'' hr
                cases hm : members n r'' with
                | none => rw [hm] at h; cases h
                | some p =>
                  rw [hm] at h; cases h
                  obtain ⟨b', hb', he'⟩ := ihm _ _ _ hm
                  exact ⟨_, .more hw hb hw1 hw2 ht' hw3 hb',
                    by rw [hs, ht, he, hr1, hr2, hs', hr3, hr, he']; simp⟩
              · cases h
          · cases h
      · cases h
theorem number_head {t : Bytes} (h : Number t) : ∃ c u, t = c :: u ∧ (c = '-' ∨ Digit c) := by
  cases h with
  | mk hs hi _ _ =>
    obtain ⟨c, u, rfl, hc⟩ := intPart_head hi
    rcases hs with rfl | rfl
    · exact ⟨_, _, rfl, Or.inr hc⟩
    · exact ⟨_, _, rfl, Or.inl rfl⟩

theorem signOrDigit {c : Char} (h : c = '-' ∨ Digit c) : c ∈ "-0123456789".toList := by
  rcases h with rfl | h
  · decide
  · exact List.mem_cons_of_mem _ h

theorem denotes_head {t : Bytes} {v : J} (h : Denotes t v) :
    ∃ c u, t = c :: u ∧ isSpace c = false ∧ c ≠ ']' ∧ c ≠ '}' := by
  cases h with
  | null => exact ⟨_, _, rfl, by decide⟩
  | true => exact ⟨_, _, rfl, by decide⟩
  | false => exact ⟨_, _, rfl, by decide⟩
  | str => exact ⟨_, _, rfl, by decide⟩
  | arrNil => exact ⟨_, _, rfl, by decide⟩
  | arr => exact ⟨_, _, rfl, by decide⟩
  | objNil => exact ⟨_, _, rfl, by decide⟩
  | obj => exact ⟨_, _, rfl, by decide⟩
  | num h =>
    obtain ⟨c, u, rfl, hc⟩ := number_head h
    refine ⟨c, u, rfl, ?_⟩
    have key : ∀ c ∈ "-0123456789".toList, isSpace c = false ∧ c ≠ ']' ∧ c ≠ '}' := by decide
    exact key c (signOrDigit hc)

theorem skipSpace_idem (s : Bytes) : skipSpace (skipSpace s) = skipSpace s := by
  induction s with
  | nil => rfl
  | cons c t ih =>
    by_cases h : isSpace c = true
    · rw [show skipSpace (c :: t) = skipSpace t by rw [skipSpace, if_pos h]]; exact ih
    · rw [show skipSpace (c :: t) = c :: t by rw [skipSpace, if_neg h], skipSpace, if_neg h]

theorem value_skip (n : Nat) (s : Bytes) : value n (skipSpace s) = value n s := by
  cases n with
  | zero => simp [value]
  | succ n => unfold value; rw [skipSpace_idem]

theorem elems_skip (n : Nat) (s : Bytes) : elems n (skipSpace s) = elems n s := by
  cases n with
  | zero => simp [elems]
  | succ n => unfold elems; rw [value_skip]

theorem members_skip (n : Nat) (s : Bytes) : members n (skipSpace s) = members n s := by
  cases n with
  | zero => simp [members]
  | succ n => unfold members; rw [skipSpace_idem]

theorem value_number {t : Bytes} (h : Number t) (n : Nat) (r : Bytes) (hr : Stops r) :
    value (n + 1) (t ++ r) = some (.num t, r) := by
  have hn := number_complete h hr
  obtain ⟨c, u, rfl, hc⟩ := number_head h
  have hm := signOrDigit hc
  rw [List.cons_append] at *
  have hs : skipSpace (c :: (u ++ r)) = c :: (u ++ r) := by
    have key : ∀ c ∈ "-0123456789".toList, isSpace c = false := by decide
    rw [skipSpace, if_neg (by rw [key c hm]; decide)]
  unfold value
  rw [hs]
  have key : ∀ c ∈ "-0123456789".toList, c ≠ '"' ∧ c ≠ '{' ∧ c ≠ '[' ∧ c ≠ 'n' ∧ c ≠ 't' ∧ c ≠ 'f' := by
    decide
  obtain ⟨k1, k2, k3, k4, k5, k6⟩ := key c hm
  split
  · rename_i h; cases h
  · rename_i h; cases h; exact absurd rfl k1
  · rename_i h; cases h; exact absurd rfl k2
  · rename_i h; cases h; exact absurd rfl k3
  · rename_i h; exact absurd (List.cons.inj h).1 k4
  · rename_i h; exact absurd (List.cons.inj h).1 k5
  · rename_i h; exact absurd (List.cons.inj h).1 k6
  · rw [hn]

theorem stops_of {c : Char} (h : c ∈ [' ', '\t', '\n', '\r', ',', ']', '}']) (u : Bytes) :
    Stops (c :: u) := by
  intro c' u' he
  cases he
  have key : ∀ c ∈ [' ', '\t', '\n', '\r', ',', ']', '}'],
      isDigit c = false ∧ c ≠ '.' ∧ c ≠ 'e' ∧ c ≠ 'E' := by decide
  have := key c h
  exact ⟨fun hd => by have := (digit_iff c).mpr hd; simp_all, this.2⟩

theorem stops_ws {w : Bytes} (hw : Ws w) {r : Bytes} (hr : Stops r) : Stops (w ++ r) := by
  rcases w with _ | ⟨c, w⟩
  · exact hr
  · refine stops_of ?_ _
    rcases hw c (by simp) with rfl | rfl | rfl | rfl <;> decide

theorem value_complete (N : Nat) :
    (∀ t v, t.length ≤ N → Denotes t v → ∀ n w r, 2 * t.length ≤ n → Ws w → Stops r →
      value n (w ++ t ++ r) = some (v, r)) ∧
    (∀ t l, t.length ≤ N → DenotesElems t l → ∀ n r, 2 * t.length + 1 ≤ n →
      elems n (t ++ ']' :: r) = some (l, r)) ∧
    (∀ t l, t.length ≤ N → DenotesMembers t l → ∀ n r, 2 * t.length + 1 ≤ n →
      members n (t ++ '}' :: r) = some (l, r)) := by
  induction N using Nat.strongRecOn with
  | ind N ih =>
  have hval : ∀ t v, t.length ≤ N → Denotes t v → ∀ n w r, 2 * t.length ≤ n → Ws w → Stops r →
      value n (w ++ t ++ r) = some (v, r) := by
    intro t v hN h n w r hn hw hr
    rw [List.append_assoc, ← value_skip, skipSpace_ws hw, value_skip]
    obtain ⟨c, u, rfl, hc⟩ := denotes_head h
    obtain ⟨n, rfl⟩ : ∃ m, n = m + 1 := ⟨n - 1, by simp only [List.length_cons] at hn; omega⟩
    have hs : skipSpace (c :: u ++ r) = c :: (u ++ r) := by
      rw [List.cons_append, skipSpace, if_neg (by rw [hc.1]; decide)]
    generalize hcu : c :: u = t at h hs hN hn
    cases h with
    | null => cases hcu; unfold value; rw [hs]; rfl
    | true => cases hcu; unfold value; rw [hs]; rfl
    | false => cases hcu; unfold value; rw [hs]; rfl
    | num h => exact value_number h n r hr
    | str h =>
      cases hcu
      unfold value
      rw [hs]
      simp only [List.append_assoc, List.singleton_append, unquote_complete h]
    | arrNil h =>
      cases hcu
      unfold value
      rw [hs]
      simp only [List.append_assoc, List.singleton_append, skipSpace_ws h]
      simp only [skipSpace, show isSpace ']' = false from rfl, Bool.false_eq_true, if_false]
    | objNil h =>
      cases hcu
      unfold value
      rw [hs]
      simp only [List.append_assoc, List.singleton_append, skipSpace_ws h]
      simp only [skipSpace, show isSpace '}' = false from rfl, Bool.false_eq_true, if_false]
    | @arr t l h =>
      cases hcu
      unfold value
      rw [hs]
      simp only [List.append_assoc, List.singleton_append]
      simp only [List.length_cons, List.length_append, List.length_nil] at hN hn
      have he := (ih t.length (by omega)).2.1 t l (Nat.le_refl _) h n r (by omega)
      obtain ⟨d, x, hd, hdc⟩ : ∃ d x, skipSpace (t ++ ']' :: r) = d :: x ∧ d ≠ ']' := by
        cases h with
        | one hw ht _ =>
          obtain ⟨d, x, rfl, h1, h2, -⟩ := denotes_head ht
          simp only [List.append_assoc]
          rw [skipSpace_ws hw, List.cons_append, skipSpace, if_neg (by rw [h1]; decide)]
          exact ⟨_, _, rfl, h2⟩
        | more hw ht _ _ =>
          obtain ⟨d, x, rfl, h1, h2, -⟩ := denotes_head ht
          simp only [List.append_assoc]
          rw [skipSpace_ws hw, List.cons_append, skipSpace, if_neg (by rw [h1]; decide)]
          exact ⟨_, _, rfl, h2⟩
      split
      · rename_i r' hr'; rw [hd] at hr'; cases hr'; exact absurd rfl hdc
      · rw [elems_skip, he]
    | @obj t l h =>
      cases hcu
      unfold value
      rw [hs]
      simp only [List.append_assoc, List.singleton_append]
      simp only [List.length_cons, List.length_append, List.length_nil] at hN hn
      have he := (ih t.length (by omega)).2.2 t l (Nat.le_refl _) h n r (by omega)
      obtain ⟨d, x, hd, hdc⟩ : ∃ d x, skipSpace (t ++ '}' :: r) = d :: x ∧ d ≠ '}' := by
        cases h with
        | one hw _ _ _ _ _ =>
          simp only [List.append_assoc]
          rw [skipSpace_ws hw, List.cons_append, skipSpace, if_neg (by decide)]
          exact ⟨_, _, rfl, by decide⟩
        | more hw _ _ _ _ _ _ =>
          simp only [List.append_assoc]
          rw [skipSpace_ws hw, List.cons_append, skipSpace, if_neg (by decide)]
          exact ⟨_, _, rfl, by decide⟩
      split
      · rename_i r' hr'; rw [hd] at hr'; cases hr'; exact absurd rfl hdc
      · rw [members_skip, he]
  have after : ∀ (c : Char) (r : Bytes), isSpace c = false → skipSpace (c :: r) = c :: r := by
    intro c r h; rw [skipSpace, if_neg (by rw [h]; decide)]
  refine ⟨hval, ?_, ?_⟩
  · intro t l hN h n r hn
    obtain ⟨n, rfl⟩ : ∃ m, n = m + 1 := ⟨n - 1, by omega⟩
    cases h with
    | @one w t w' v hw ht hw' =>
      simp only [List.length_append] at hN hn
      have := hval t v (by omega) ht n w (w' ++ ']' :: r) (by omega) hw (stops_ws hw' (stops_of (by decide) _))
      rw [List.append_assoc (w ++ t)]
      unfold elems
      rw [this]
      simp only [skipSpace_ws hw', after ']' r rfl]
    | @more w t w' u v l hw ht hw' hu =>
      simp only [List.length_append, List.length_cons] at hN hn
      have := hval t v (by omega) ht n w (w' ++ ',' :: (u ++ ']' :: r)) (by omega) hw
        (stops_ws hw' (stops_of (by decide) _))
      have he := (ih u.length (by omega)).2.1 u l (Nat.le_refl _) hu n r (by omega)
      rw [show w ++ t ++ w' ++ ',' :: u ++ ']' :: r = w ++ t ++ (w' ++ ',' :: (u ++ ']' :: r)) by simp]
      unfold elems
      rw [this]
      simp only [skipSpace_ws hw', after ',' _ rfl, he]
  · intro t l hN h n r hn
    obtain ⟨n, rfl⟩ : ∃ m, n = m + 1 := ⟨n - 1, by omega⟩
    cases h with
    | @one w k s w1 w2 t w3 v hw hk hw1 hw2 ht hw3 =>
      simp only [List.length_append, List.length_cons] at hN hn
      have := hval t v (by omega) ht n w2 (w3 ++ '}' :: r) (by omega) hw2 (stops_ws hw3 (stops_of (by decide) _))
      rw [show w ++ '"' :: (k ++ '"' :: (w1 ++ ':' :: (w2 ++ t ++ w3))) ++ '}' :: r =
        w ++ '"' :: (k ++ '"' :: (w1 ++ ':' :: (w2 ++ t ++ (w3 ++ '}' :: r)))) by simp]
      unfold members
      simp only [skipSpace_ws hw, after '"' _ rfl, unquote_complete hk, skipSpace_ws hw1, after ':' _ rfl,
        this, skipSpace_ws hw3, after '}' _ rfl]
    | @more w k s w1 w2 t w3 u v l hw hk hw1 hw2 ht hw3 hu =>
      simp only [List.length_append, List.length_cons] at hN hn
      have := hval t v (by omega) ht n w2 (w3 ++ ',' :: (u ++ '}' :: r)) (by omega) hw2
        (stops_ws hw3 (stops_of (by decide) _))
      have he := (ih u.length (by omega)).2.2 u l (Nat.le_refl _) hu n r (by omega)
      rw [show w ++ '"' :: (k ++ '"' :: (w1 ++ ':' :: (w2 ++ t ++ w3 ++ ',' :: u))) ++ '}' :: r =
        w ++ '"' :: (k ++ '"' :: (w1 ++ ':' :: (w2 ++ t ++ (w3 ++ ',' :: (u ++ '}' :: r))))) by simp]
      unfold members
      simp only [skipSpace_ws hw, after '"' _ rfl, unquote_complete hk, skipSpace_ws hw1, after ':' _ rfl,
        this, skipSpace_ws hw3, after ',' _ rfl, he]

/-- The parser accepts exactly the texts of the grammar and returns what they denote. -/
theorem parse_iff (s : Bytes) (v : J) : parse s = some v ↔ Text s v := by
  constructor
  · intro h
    unfold parse at h
    split at h
    · rename_i v' r hv
      split at h
      · rename_i hr; cases h
        obtain ⟨w, t, hw, ht, hs⟩ := (value_sound _).1 _ _ _ hv
        obtain ⟨w', hw', hr'⟩ := skipSpace_sound r
        rw [hr, List.append_nil] at hr'
        exact ⟨w, t, w', hw, ht, hw', by rw [hs, ← hr']⟩
      · cases h
    · cases h
  · rintro ⟨w, t, w', hw, ht, hw', rfl⟩
    have hst : Stops w' := by
      have := stops_ws hw' (r := []) (by intro c u h; cases h)
      rwa [List.append_nil] at this
    unfold parse
    rw [(value_complete _).1 t v (Nat.le_refl _) ht _ w w' (by simp only [List.length_append]; omega) hw hst]
    have : skipSpace w' = [] := by
      have := skipSpace_ws hw' []
      rwa [List.append_nil] at this
    simp only [this, if_true]

end Netscrape.Json
