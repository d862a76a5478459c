import Verif.Lemmas.Json

/-!
# Sanitising is the identity exactly on valid UTF-8
-/

namespace Netscrape.Json
open Netscrape.Spec.Json

theorem exists_char (n : Nat) (h : n < 0xD800 ∨ (0xDFFF < n ∧ n < 0x110000)) :
    ∃ x : Char, x.val.toNat = n := by
  refine ⟨Char.ofNat n, ?_⟩
  have hv : n.isValidChar := h
  simp [Char.ofNat, hv, Char.ofNatAux]

theorem utf8_one (x : Char) : utf8 [x] = (String.utf8EncodeChar x).map fun b => Char.ofNat b.toNat := by
  simp [utf8]

theorem byte_eq {c : Char} {n : Nat} (h : c.toNat = n) : Char.ofNat n = c := by
  subst h; exact Char.ofNat_toNat c

theorem contLen_char {c : Char} {t : Bytes} {k : Nat} (h : contLen c t = some k) :
    ∃ x : Char, c :: t.take k = utf8 [x] := by
  unfold contLen at h
  rcases t with _ | ⟨b, t⟩
  · cases h
  simp only [] at h
  split at h
  · rename_i ha
    split at h
    · rename_i hb
      cases h
      simp [isCont] at hb
      obtain ⟨x, hx⟩ := exists_char ((c.toNat - 0xC0) * 64 + (b.toNat - 0x80)) (by omega)
      refine ⟨x, ?_⟩
      rw [utf8_one]
      unfold String.utf8EncodeChar
      rw [hx]
      simp only []
      rw [if_neg (by omega), if_pos (by omega)]
      simp only [List.map, UInt8.toNat_ofNat', List.take]
      rw [byte_eq (c := c) (by omega), byte_eq (c := b) (by omega)]
    · cases h
  · rename_i ha
    rcases t with _ | ⟨d, t⟩
    · cases h
    simp only [] at h
    split at h
    · rename_i ha'
      split at h
      · rename_i hb
        cases h
        simp [isCont] at hb
        obtain ⟨x, hx⟩ := exists_char ((c.toNat - 0xE0) * 4096 + (b.toNat - 0x80) * 64 +
          (d.toNat - 0x80)) (by omega)
        refine ⟨x, ?_⟩
        rw [utf8_one]
        unfold String.utf8EncodeChar
        rw [hx]
        simp only []
        rw [if_neg (by omega), if_neg (by omega), if_pos (by omega)]
        simp only [List.map, UInt8.toNat_ofNat', List.take]
        rw [byte_eq (c := c) (by omega), byte_eq (c := b) (by omega), byte_eq (c := d) (by omega)]
      · cases h
    · rename_i ha'
      rcases t with _ | ⟨e, t⟩
      · cases h
      simp only [] at h
      split at h
      · rename_i ha''
        split at h
        · rename_i hb
          cases h
          simp [isCont] at hb
          obtain ⟨x, hx⟩ := exists_char ((c.toNat - 0xF0) * 262144 + (b.toNat - 0x80) * 4096 +
            (d.toNat - 0x80) * 64 + (e.toNat - 0x80)) (by omega)
          refine ⟨x, ?_⟩
          rw [utf8_one]
          unfold String.utf8EncodeChar
          rw [hx]
          simp only []
          rw [if_neg (by omega), if_neg (by omega), if_neg (by omega)]
          simp only [List.map, UInt8.toNat_ofNat', List.take]
          rw [byte_eq (c := c) (by omega), byte_eq (c := b) (by omega), byte_eq (c := d) (by omega),
            byte_eq (c := e) (by omega)]
        · cases h
      · cases h

theorem toNat_byte (n : Nat) (h : n < 256) : (Char.ofNat n).toNat = n := by
  have hv : n.isValidChar := Or.inl (by omega)
  simp [Char.ofNat, hv, Char.ofNatAux, Char.toNat]

theorem contLen2 {c b : Char} (h : 0xC2 ≤ c.toNat ∧ c.toNat ≤ 0xDF)
    (hb : 0x80 ≤ b.toNat ∧ b.toNat ≤ 0xBF) (rest : Bytes) : contLen c (b :: rest) = some 1 := by
  simp [contLen, h, hb, isCont]

theorem contLen3 {c b d : Char} (h : 0xE0 ≤ c.toNat ∧ c.toNat ≤ 0xEF)
    (hb : 0x80 ≤ b.toNat ∧ b.toNat ≤ 0xBF) (hd : 0x80 ≤ d.toNat ∧ d.toNat ≤ 0xBF)
    (h1 : c.toNat = 0xE0 → 0xA0 ≤ b.toNat) (h2 : c.toNat = 0xED → b.toNat ≤ 0x9F) (rest : Bytes) :
    contLen c (b :: d :: rest) = some 2 := by
  have h0 : ¬ (0xC2 ≤ c.toNat ∧ c.toNat ≤ 0xDF) := by omega
  simp only [contLen, if_neg h0, if_pos h]
  rw [if_pos]
  simp only [isCont]
  exact ⟨by simp [hb], by simp [hd], h1, h2⟩

theorem contLen4 {c b d e : Char} (h : 0xF0 ≤ c.toNat ∧ c.toNat ≤ 0xF4)
    (hb : 0x80 ≤ b.toNat ∧ b.toNat ≤ 0xBF) (hd : 0x80 ≤ d.toNat ∧ d.toNat ≤ 0xBF)
    (he : 0x80 ≤ e.toNat ∧ e.toNat ≤ 0xBF)
    (h1 : c.toNat = 0xF0 → 0x90 ≤ b.toNat) (h2 : c.toNat = 0xF4 → b.toNat ≤ 0x8F) (rest : Bytes) :
    contLen c (b :: d :: e :: rest) = some 3 := by
  have h0 : ¬ (0xC2 ≤ c.toNat ∧ c.toNat ≤ 0xDF) := by omega
  have h0' : ¬ (0xE0 ≤ c.toNat ∧ c.toNat ≤ 0xEF) := by omega
  simp only [contLen, if_neg h0, if_neg h0', if_pos h]
  rw [if_pos]
  simp only [isCont]
  exact ⟨by simp [hb], by simp [hd], by simp [he], h1, h2⟩

/-- The bytes of one character. -/
theorem utf8_char (x : Char) : (∃ c, c.toNat < 0x80 ∧ utf8 [x] = [c]) ∨
    ∃ c u, ¬ c.toNat < 0x80 ∧ utf8 [x] = c :: u ∧ ∀ rest, contLen c (u ++ rest) = some u.length := by
  rw [utf8_one]
  have hx := x.valid
  have hx : x.val.toNat < 0xD800 ∨ (0xDFFF < x.val.toNat ∧ x.val.toNat < 0x110000) := hx
  unfold String.utf8EncodeChar
  simp only []
  generalize x.val.toNat = v at hx
  split
  · refine Or.inl ⟨_, ?_, rfl⟩
    simp only [UInt8.toNat_ofNat']
    rw [toNat_byte _ (by omega)]; omega
  · refine Or.inr ?_
    split
    · refine ⟨_, _, ?_, rfl, ?_⟩
      · simp only [UInt8.toNat_ofNat']
        rw [toNat_byte _ (by omega)]; omega
      · intro rest
        simp only [UInt8.toNat_ofNat', List.map, List.cons_append, List.length]
        apply contLen2 <;> (repeat rw [toNat_byte _ (by omega)]) <;> omega
    · split
      · refine ⟨_, _, ?_, rfl, ?_⟩
        · simp only [UInt8.toNat_ofNat']
          rw [toNat_byte _ (by omega)]; omega
        · intro rest
          simp only [UInt8.toNat_ofNat', List.map, List.cons_append, List.length]
          apply contLen3 <;> (repeat rw [toNat_byte _ (by omega)]) <;> omega
      · refine ⟨_, _, ?_, rfl, ?_⟩
        · simp only [UInt8.toNat_ofNat']
          rw [toNat_byte _ (by omega)]; omega
        · intro rest
          simp only [UInt8.toNat_ofNat', List.map, List.cons_append, List.length]
          apply contLen4 <;> (repeat rw [toNat_byte _ (by omega)]) <;> omega

theorem utf8_cons (x : Char) (cs : List Char) : utf8 (x :: cs) = utf8 [x] ++ utf8 cs := by
  simp [utf8]

theorem ascii_char {c : Char} (h : c.toNat < 0x80) : [c] = utf8 [c] := by
  rw [utf8_one]
  unfold String.utf8EncodeChar
  have hv : c.val.toNat ≤ 0x7f := by have : c.val.toNat < 0x80 := h; omega
  simp only []
  rw [if_pos hv]
  simp only [List.map, UInt8.toNat_ofNat']
  rw [byte_eq (c := c) (by show c.val.toNat = _; omega)]

/-- Sanitised text is valid. -/
theorem sanitize_valid (n : Nat) : ∀ s : Bytes, s.length ≤ n → ValidUtf8 (sanitize s) := by
  induction n with
  | zero =>
    intro s hs
    cases s with
    | nil => exact ⟨[], rfl⟩
    | cons c t => simp at hs
  | succ n ih =>
    intro s hs
    cases s with
    | nil => exact ⟨[], rfl⟩
    | cons c t =>
      have ht : t.length ≤ n := by simpa using hs
      by_cases hc : c.toNat < 0x80
      · obtain ⟨cs, h⟩ := ih t ht
        refine ⟨c :: cs, ?_⟩
        rw [utf8_cons, ← ascii_char hc, ← h]
        simp [sanitize, sanitizeLoop, hc]
      · cases hl : contLen c t with
        | none =>
          obtain ⟨cs, h⟩ := ih t ht
          refine ⟨Char.ofNat 0xFFFD :: cs, ?_⟩
          rw [utf8_cons, ← h]
          simp only [sanitize, sanitizeLoop, hc, hl, if_false]
          rfl
        | some k =>
          have hk := contLen_le hl
          obtain ⟨cs, h⟩ := ih (t.drop k) (by simp; omega)
          obtain ⟨x, hx⟩ := contLen_char hl
          refine ⟨x :: cs, ?_⟩
          rw [utf8_cons, ← hx, ← h]
          simp [sanitize, sanitizeLoop, hc, hl, sanitizeLoop_copy t k hk]

/-- Valid text is left alone. -/
theorem sanitize_utf8 (cs : List Char) : sanitize (utf8 cs) = utf8 cs := by
  induction cs with
  | nil => rfl
  | cons x cs ih =>
    rw [utf8_cons]
    rcases utf8_char x with ⟨c, hc, he⟩ | ⟨c, u, hc, he, hu⟩
    · rw [he]
      show sanitizeLoop 0 (c :: utf8 cs) = _
      simp only [sanitizeLoop, if_pos hc]
      rw [show sanitizeLoop 0 (utf8 cs) = _ from ih]; rfl
    · rw [he]
      show sanitizeLoop 0 (c :: (u ++ utf8 cs)) = _
      simp only [sanitizeLoop, if_neg hc, hu]
      rw [sanitizeLoop_copy _ _ (by simp), List.take_left, List.drop_left,
        show sanitizeLoop 0 (utf8 cs) = _ from ih]; rfl

theorem sanitize_iff (s : Bytes) : sanitize s = s ↔ ValidUtf8 s := by
  constructor
  · intro h; rw [← h]; exact sanitize_valid s.length s (Nat.le_refl _)
  · rintro ⟨cs, rfl⟩; exact sanitize_utf8 cs

end Netscrape.Json
