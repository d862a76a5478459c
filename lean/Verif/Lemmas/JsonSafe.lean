import Verif.Spec.JsonSafe
import Verif.Lemmas.JsonText
import Verif.Lemmas.Marshal

/-! # What the JSON encoder writes is safe to embed -/

namespace Netscrape.Json
open Netscrape.Spec.Json

theorem utf8_append (a b : List Char) : utf8 (a ++ b) = utf8 a ++ utf8 b := by simp [utf8]

theorem utf8_small {x : Char} (hx : x.toNat < 0x80) : utf8 [x] = [x] := by
  rw [utf8_one]
  unfold String.utf8EncodeChar
  have hv : x.val.toNat ≤ 0x7f := by have : x.val.toNat < 0x80 := hx; omega
  simp only [hv, if_true, List.map_cons, List.map_nil]
  congr 1
  have : (x.val.toNat.toUInt8).toNat = x.toNat := by
    rw [Nat.toUInt8, UInt8.toNat_ofNat']
    exact Nat.mod_eq_of_lt (by have : x.val.toNat < 0x80 := hx; omega)
  rw [this]
  exact Char.ofNat_toNat x

theorem _root_.Netscrape.Spec.Json.Safe.nil : Safe [] := ⟨[], rfl, by simp⟩

theorem _root_.Netscrape.Spec.Json.Safe.append {a b : Bytes} (ha : Safe a) (hb : Safe b) : Safe (a ++ b) := by
  obtain ⟨x, rfl, hx⟩ := ha
  obtain ⟨y, rfl, hy⟩ := hb
  exact ⟨x ++ y, (utf8_append x y).symm, fun c hc => (List.mem_append.1 hc).elim (hx c) (hy c)⟩

theorem _root_.Netscrape.Spec.Json.Safe.one {c : Char} (h1 : c.toNat < 0x80) (h2 : ¬ Special c) : Safe [c] :=
  ⟨[c], (utf8_small h1).symm, by simpa using h2⟩

theorem _root_.Netscrape.Spec.Json.Safe.cons {c : Char} {t : Bytes} (h1 : c.toNat < 0x80) (h2 : ¬ Special c) (ht : Safe t) :
    Safe (c :: t) := (Safe.one h1 h2).append ht

instance (x : Char) : Decidable (Special x) := by unfold Special; infer_instance

theorem safe_of_ascii : ∀ {t : Bytes}, (∀ c ∈ t, c.toNat < 0x80 ∧ ¬ Special c) → Safe t
  | [], _ => Safe.nil
  | c :: t, h => Safe.cons (h c (by simp)).1 (h c (by simp)).2 (safe_of_ascii fun d hd => h d (by simp [hd]))

theorem hexDigit_fine : ∀ n < 16, (hexDigit n).toNat < 0x80 ∧ ¬ Special (hexDigit n) := by decide +kernel

theorem safe_escape {c : Char} (hc : c.toNat < 0x80) : Safe (escape c) := by
  unfold escape
  split
  · rename_i h
    rcases h with rfl | rfl <;> exact safe_of_ascii (by decide +kernel)
  split
  · exact safe_of_ascii (by decide +kernel)
  split
  · exact safe_of_ascii (by decide +kernel)
  split
  · exact safe_of_ascii (by decide +kernel)
  split
  · have h1 := hexDigit_fine (c.toNat / 16) (by omega)
    have h2 := hexDigit_fine (c.toNat % 16) (by omega)
    exact (safe_of_ascii (t := ['\\', 'u', '0', '0']) (by decide +kernel)).append
      (Safe.cons h1.1 h1.2 (Safe.one h2.1 h2.2))
  · rename_i h
    refine Safe.one hc fun hs => h ?_
    rcases hs with h | h | h | h | h | h
    · exact .inl h
    · exact .inr (.inl h)
    · exact .inr (.inr (.inl h))
    · exact .inr (.inr (.inr h))
    · omega
    · omega

theorem safe_rune {c : Char} {t : Bytes} {k : Nat} (hc : ¬ c.toNat < 0x80) (h : contLen c t = some k)
    (hl : lineSep c t = none) : Safe (c :: t.take k) := by
  obtain ⟨x, hx⟩ := contLen_char h
  refine ⟨[x], hx, ?_⟩
  intro y hy hs
  simp only [List.mem_singleton] at hy
  subst hy
  by_cases hsm : y.toNat < 0x80
  · rw [utf8_small hsm] at hx
    rw [(List.cons.inj hx).1] at hc
    exact hc hsm
  · have key : ∀ n, y.toNat = n → utf8 [Char.ofNat n] = c :: t.take k := fun n hn => by
      rw [hx, ← hn, Char.ofNat_toNat]
    have e1 : utf8 [Char.ofNat 0x2028] = [byte 0xE2, byte 0x80, byte 0xA8] := by decide +kernel
    have e2 : utf8 [Char.ofNat 0x2029] = [byte 0xE2, byte 0x80, byte 0xA9] := by decide +kernel
    have go : ∀ d, (d = byte 0xA8 ∨ d = byte 0xA9) → [byte 0xE2, byte 0x80, d] = c :: t.take k → False := by
      intro d hd he
      obtain ⟨hce, hq⟩ := List.cons.inj he
      subst hce
      rcases t with _ | ⟨b, _ | ⟨e, t⟩⟩
      · simp at hq
      · have := congrArg List.length hq
        simp at this
        omega
      · rcases k with _ | _ | k
        · simp at hq
        · simp at hq
        · rw [List.take_succ_cons, List.take_succ_cons] at hq
          obtain ⟨hb, hr⟩ := List.cons.inj hq
          have hd' := (List.cons.inj hr).1
          subst hb hd'
          rcases hd with rfl | rfl <;> simp [lineSep, byte] at hl
    rcases hs with h | rfl | rfl | rfl | h | h
    · omega
    · exact hsm (by decide)
    · exact hsm (by decide)
    · exact hsm (by decide)
    · exact go _ (.inl rfl) (e1 ▸ key _ h)
    · exact go _ (.inr rfl) (e2 ▸ key _ h)

theorem safe_quoteLoop (n : Nat) : ∀ s : Bytes, s.length ≤ n → Safe (quoteLoop 0 0 s) := by
  induction n with
  | zero =>
    intro s hs
    cases s with
    | nil => exact Safe.nil
    | cons c t => simp at hs
  | succ n ih =>
    intro s hs
    cases s with
    | nil => exact Safe.nil
    | cons c t =>
      simp only [List.length_cons] at hs
      unfold quoteLoop
      split
      · exact (safe_escape (by assumption)).append (ih t (by omega))
      · rename_i hc
        split
        · exact (safe_of_ascii (t := ['\\', 'u', 'f', 'f', 'f', 'd']) (by decide +kernel)).append (ih t (by omega))
        · rename_i k hk
          split
          · rename_i d hd
            rw [quoteLoop_drop]
            refine Safe.append (safe_of_ascii ?_) (ih _ (by simp; omega))
            have : d = '8' ∨ d = '9' := by
              unfold lineSep at hd
              split at hd
              · split at hd
                · exact .inl (Option.some.inj hd).symm
                · split at hd
                  · exact .inr (Option.some.inj hd).symm
                  · cases hd
              · cases hd
            rcases this with rfl | rfl <;> decide +kernel
          · rename_i hl
            rw [quoteLoop_copy t k (contLen_le hk)]
            exact (safe_rune hc hk hl).append (ih _ (by simp; omega))

theorem safe_quote (s : Bytes) : Safe (quote s) := by
  unfold quote
  exact Safe.cons (by decide) (by decide) ((safe_quoteLoop _ s (Nat.le_refl _)).append
    (Safe.one (by decide) (by decide)))

mutual
theorem safe_render : ∀ j, NoNum j → Safe (render j)
  | .null, _ => by unfold render; exact safe_of_ascii (by decide +kernel)
  | .bool true, _ => by unfold render; exact safe_of_ascii (by decide +kernel)
  | .bool false, _ => by unfold render; exact safe_of_ascii (by decide +kernel)
  | .num t, h => by unfold NoNum at h; exact h.elim
  | .str s, _ => by unfold render; exact safe_quote s
  | .arr .nil, _ => by unfold render; exact safe_of_ascii (by decide +kernel)
  | .arr (.cons v r), h => by
    unfold NoNum NoNumE at h
    unfold render
    exact Safe.cons (by decide) (by decide) ((safe_render v h.1).append (safe_elems r h.2))
  | .obj .nil, _ => by unfold render; exact safe_of_ascii (by decide +kernel)
  | .obj (.cons k v r), h => by
    unfold NoNum NoNumM at h
    unfold render
    exact Safe.cons (by decide) (by decide) ((safe_quote k).append (Safe.cons (by decide) (by decide)
      ((safe_render v h.1).append (safe_members r h.2))))
theorem safe_elems : ∀ l, NoNumE l → Safe (renderElems l)
  | .nil, _ => by unfold renderElems; exact safe_of_ascii (by decide +kernel)
  | .cons v r, h => by
    unfold NoNumE at h
    unfold renderElems
    exact Safe.cons (by decide) (by decide) ((safe_render v h.1).append (safe_elems r h.2))
theorem safe_members : ∀ l, NoNumM l → Safe (renderMembers l)
  | .nil, _ => by unfold renderMembers; exact safe_of_ascii (by decide +kernel)
  | .cons k v r, h => by
    unfold NoNumM at h
    unfold renderMembers
    exact Safe.cons (by decide) (by decide) ((safe_quote k).append (Safe.cons (by decide) (by decide)
      ((safe_render v h.1).append (safe_members r h.2))))
end

/-- No byte of a safe text is a newline. -/
theorem safe_newline {b : Bytes} (h : Safe b) : '\n' ∉ b := by
  obtain ⟨cs, rfl, hcs⟩ := h
  induction cs with
  | nil => simp [utf8]
  | cons x cs ih =>
    rw [utf8_cons, List.mem_append, not_or]
    refine ⟨?_, ih fun y hy => hcs y (by simp [hy])⟩
    by_cases hx : x.toNat < 0x80
    · rw [utf8_small hx]
      intro hm
      simp only [List.mem_singleton] at hm
      subst hm
      exact hcs '\n' (by simp) (.inl (by decide))
    · obtain ⟨c, u, hc, he, hl⟩ := utf8_head x (by omega)
      rw [he]
      intro hm
      rcases List.mem_cons.1 hm with rfl | hm
      · exact hc (by decide)
      · have := contLen_cont (hl []) '\n' (by simpa using hm)
        exact absurd this (by decide)

theorem perLine_inj : ∀ {a b : List Bytes}, (∀ d ∈ a, '\n' ∉ d) → (∀ d ∈ b, '\n' ∉ d) →
    perLine a = perLine b → a = b := by
  have cut : ∀ {x y r s : Bytes}, '\n' ∉ x → '\n' ∉ y → x ++ '\n' :: r = y ++ '\n' :: s → x = y ∧ r = s := by
    intro x
    induction x with
    | nil =>
      intro y r s _ hy h
      cases y with
      | nil => exact ⟨rfl, (List.cons.inj h).2⟩
      | cons c y => exact absurd (List.cons.inj h).1 (fun h => hy (h ▸ List.mem_cons_self))
    | cons c x ih =>
      intro y r s hx hy h
      cases y with
      | nil => exact absurd (List.cons.inj h).1 (fun h => hx (h ▸ List.mem_cons_self))
      | cons d y =>
        have h1 := (List.cons.inj h).1
        have h2 := ih (fun h => hx (List.mem_cons_of_mem _ h)) (fun h => hy (List.mem_cons_of_mem _ h))
          (List.cons.inj h).2
        exact ⟨by rw [h1, h2.1], h2.2⟩
  intro a
  induction a with
  | nil =>
    intro b _ _ h
    cases b with
    | nil => rfl
    | cons d b => simp [perLine] at h
  | cons x a ih =>
    intro b ha hb h
    cases b with
    | nil => simp [perLine] at h
    | cons y b =>
      have h' : x ++ '\n' :: perLine a = y ++ '\n' :: perLine b := by simpa [perLine] using h
      have h2 := cut (ha x (by simp)) (hb y (by simp)) h'
      rw [h2.1, ih (fun d hd => ha d (List.mem_cons_of_mem _ hd))
        (fun d hd => hb d (List.mem_cons_of_mem _ hd)) h2.2]

end Netscrape.Json

namespace Netscrape.Marshal
open Netscrape.Json Netscrape.Spec.Json

theorem safe_marshal {h : Heap} {o : Orders} {d : Dyn} {b : Bytes} (hm : marshal h o d = .ok b) : Safe b := by
  unfold marshal at hm
  split at hm
  · cases hm; exact safe_render _ (noNum_resourceJ ..)
  split at hm
  · cases hm; exact safe_render _ (noNum_objectJ ..)
  split at hm
  · cases hm; exact safe_render _ (noNum_entityJ ..)
  split at hm
  · cases hm; exact safe_render _ (noNum_linkJ ..)
  · cases hm

end Netscrape.Marshal
