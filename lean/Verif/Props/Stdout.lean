import Verif.Spec.Stdout

/-!
# Dumping messages to standard output
-/

namespace Netscrape.Props
open Netscrape.Stdout Netscrape.Spec.Stdout
open Netscrape.Broker (Msg)
open Netscrape.Json (Bytes)

/-! ## C70 -/

private theorem fdWrite_out {p : Bytes} : ∀ {sys : List Sys} {nn k : Nat} {e : Option WErr}
    {l : List (Bytes × Nat)}, fdWrite p nn sys = some ((k, e), l) → Honest l → nn < p.length →
    k ≤ p.length ∧ p.take nn ++ output l = p.take k ∧ (e = none ↔ k = p.length)
  | [], _, _, _, _ => nofun
  | .fail e :: _, nn, k, e', l => by
    intro h _ hn
    simp only [fdWrite, Option.some.injEq, Prod.mk.injEq] at h
    obtain ⟨⟨rfl, rfl⟩, rfl⟩ := h
    refine ⟨Nat.le_of_lt hn, by simp [output], nofun, fun h => absurd h (Nat.ne_of_lt hn)⟩
  | .wrote n :: r, nn, k, e, l => by
    intro h hh hn
    have piece : n ≤ ((p.drop nn).take maxRW).length →
        p.take nn ++ (((p.drop nn).take maxRW).take n) = p.take (nn + n) := by
      intro hle
      rw [List.length_take] at hle
      rw [List.take_take, Nat.min_eq_left (Nat.le_trans hle (Nat.min_le_left _ _)), ← List.take_add]
    have bound : n ≤ ((p.drop nn).take maxRW).length → nn + n ≤ p.length := by
      intro hle
      rw [List.length_take, List.length_drop] at hle
      omega
    simp only [fdWrite] at h
    split at h
    case isTrue heq =>
      simp only [Option.some.injEq, Prod.mk.injEq] at h
      obtain ⟨⟨rfl, rfl⟩, rfl⟩ := h
      have := hh _ List.mem_cons_self
      refine ⟨Nat.le_of_eq heq, ?_, fun _ => heq, fun _ => rfl⟩
      rw [← piece this]; simp [output]
    case isFalse hne =>
      split at h
      case isTrue h0 =>
        simp only [Option.some.injEq, Prod.mk.injEq] at h
        obtain ⟨⟨rfl, rfl⟩, rfl⟩ := h
        refine ⟨Nat.le_of_lt hn, by simp [output], nofun, fun h => absurd h (Nat.ne_of_lt hn)⟩
      case isFalse h0 =>
        cases hr : fdWrite p (nn + n) r with
        | none => rw [hr] at h; cases h
        | some x =>
          obtain ⟨⟨k', e'⟩, l'⟩ := x
          rw [hr] at h
          simp only [Option.some.injEq, Prod.mk.injEq] at h
          obtain ⟨⟨rfl, rfl⟩, rfl⟩ := h
          have h1 := hh _ List.mem_cons_self
          have h2 := bound h1
          have ih := fdWrite_out hr (fun x hx => hh x (List.mem_cons_of_mem _ hx)) (by omega)
          refine ⟨ih.1, ?_, ih.2.2⟩
          rw [← ih.2.1, ← piece h1]
          simp [output]

private theorem fdWrite_done {p : Bytes} : ∀ {sys : List Sys} {nn : Nat}, nn < p.length →
    nn + written sys ≤ p.length → p.length ≤ nn + sys.length → (fdWrite p nn sys).isSome = true
  | [], nn, h1, _, h3 => by rw [List.length_nil] at h3; omega
  | .fail _ :: _, nn, _, _, _ => rfl
  | .wrote n :: r, nn, h1, h2, h3 => by
    simp only [fdWrite]
    rw [written] at h2
    rw [List.length_cons] at h3
    split
    · rfl
    · split
      · rfl
      · have := fdWrite_done (p := p) (sys := r) (nn := nn + n) (by omega) (by omega) (by omega)
        cases h : fdWrite p (nn + n) r with
        | none => rw [h] at this; cases this
        | some x => rfl

/-- C70: what reaches standard output is a beginning of the message's data, in order and unchanged; `DumpData`
returns nil if and only if it is all of it, and never panics. This needs that write(2) does not claim to have
written more than it was given. -/
theorem c70_dump {m : Msg} {sys : List Sys} {res : Res WErr Unit} {l : List (Bytes × Nat)}
    (h : dumpData m sys = some (res, l)) (hh : Honest l) :
    output l <+: m.data.toList ∧ res ≠ .panic ∧ (res = .ok () ↔ output l = m.data.toList) := by
  unfold dumpData writeTo at h
  split at h
  case isTrue h0 =>
    cases h
    exact ⟨List.nil_prefix, nofun, fun _ => h0.symm, fun _ => rfl⟩
  case isFalse h0 =>
    have hpos : 0 < m.data.toList.length := List.length_pos_iff.mpr h0
    unfold fileWrite at h
    cases hf : fdWrite m.data.toList 0 sys with
    | none => rw [hf] at h; cases h
    | some x =>
      obtain ⟨⟨k, e⟩, l'⟩ := x
      rw [hf] at h
      have hl : l' = l := by
        cases e with
        | some e => simp only at h; split at h <;> cases h <;> rfl
        | none => simp only at h; split at h <;> (repeat' split at h) <;> cases h <;> rfl
      subst hl
      obtain ⟨h1, h2, h3⟩ := fdWrite_out hf hh hpos
      rw [List.take_zero, List.nil_append] at h2
      have hk : output l' = m.data.toList ↔ k = m.data.toList.length := by
        rw [h2]
        constructor
        · intro h4
          have := congrArg List.length h4
          rw [List.length_take] at this
          omega
        · rintro rfl; exact List.take_length
      refine ⟨by rw [h2]; exact List.take_prefix _ _, ?_, ?_⟩ <;> rw [← Nat.not_lt] at h1
      · rintro rfl
        cases e with
        | some e => simp only [if_neg h1] at h; cases h
        | none => simp only [h3.mp rfl, ne_eq, not_true_eq_false, if_false] at h; simp at h
      · rw [hk]
        cases e with
        | some e =>
          simp only [if_neg h1] at h
          cases h
          refine ⟨nofun, fun h4 => nomatch h3.mpr h4⟩
        | none =>
          refine ⟨fun _ => h3.mp rfl, fun _ => ?_⟩
          have := h3.mp rfl
          subst this
          simp at h
          exact h.symm

/-- C70: and it returns: after at most as many calls of write(2) as the message has bytes, if these do not claim
to have written more than there is. -/
theorem c70_returns {m : Msg} {sys : List Sys} (h1 : written sys ≤ m.data.toList.length)
    (h2 : m.data.toList.length ≤ sys.length) : (dumpData m sys).isSome = true := by
  unfold dumpData writeTo
  split
  · rfl
  case isFalse h0 =>
    have := fdWrite_done (sys := sys) (List.length_pos_iff.mpr h0) (by omega) (by omega)
    unfold fileWrite
    cases hf : fdWrite m.data.toList 0 sys with
    | none => rw [hf] at this; cases this
    | some x =>
      obtain ⟨⟨k, e⟩, l⟩ := x
      cases e with
      | some e => simp only; split <;> rfl
      | none => simp only; split <;> (repeat' split) <;> rfl

-- three calls write everything; the second of two fails
example : let m : Msg := ⟨"", 0, "hello", GoMap.empty⟩
    dumpData m [.wrote 2, .wrote 1, .wrote 2] = some (.ok (), [("hello".toList, 2), ("llo".toList, 1),
      ("lo".toList, 2)]) ∧
    dumpData m [.wrote 4, .fail 5] = some (.err (.sys 5), [("hello".toList, 4), ("o".toList, 0)]) ∧
    written [.wrote 2, .wrote 1, .wrote 1, .wrote 1, .fail 0] ≤ m.data.toList.length := by
  refine ⟨by decide, by decide, by decide⟩

end Netscrape.Props
