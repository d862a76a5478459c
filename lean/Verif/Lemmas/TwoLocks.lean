import Verif.Lemmas.Linearizable
import Verif.Lemmas.Progress

/-!
# A mutex around another mutex

Methods that run in one critical section of an outer mutex `a`, and inside it use an inner mutex `b`:
for reading only where `a` is held for reading, freely (nested read locks included) where `a` is held
for writing. They do not deadlock: whoever holds `a` for writing has `b` to itself, and without such a
holder nobody asks for `b` for writing.
-/

namespace Netscrape.Conc
open Netscrape.Spec

variable {μ κ σ ρ Op Out : Type} [DecidableEq μ]

/-- Outer phase and inner hold fit: the inner mutex is only held inside, and for writing only if the
outer one is. -/
def Fits : Phase → Hold → Prop
  | .inW, _ => True
  | .inR, h => ∃ n, h = .rd n
  | _, h => h = .rd 0

/-- `Two a b p ph h`: `p`, in phase `ph` of its critical section of `a` and holding `b` as `h` says,
behaves as described above. -/
def Two (a b : μ) : Prog μ κ σ ρ → Phase → Hold → Prop
  | .ret _, ph, h => ph = .post ∧ h = .rd 0
  | .lock m k, ph, h =>
    (m = a ∧ ph = .pre ∧ h = .rd 0 ∧ Two a b k .inW h) ∨
    (m = b ∧ ph = .inW ∧ h = .rd 0 ∧ Two a b k ph .wr)
  | .acquire m k, ph, h =>
    (m = a ∧ ph = .ann ∧ h = .rd 0 ∧ Two a b k .inW h) ∨
    (m = b ∧ ph = .inW ∧ h = .ann ∧ Two a b k ph .wr)
  | .unlock m k, ph, h =>
    (m = a ∧ ph = .inW ∧ h = .rd 0 ∧ Two a b k .post h) ∨
    (m = b ∧ ph = .inW ∧ h = .wr ∧ Two a b k ph (.rd 0))
  | .rlock m k, ph, h =>
    (m = a ∧ ph = .pre ∧ h = .rd 0 ∧ Two a b k .inR h) ∨
    (m = b ∧ (ph = .inW ∨ ph = .inR) ∧ ∃ n, h = .rd n ∧ Two a b k ph (.rd (n + 1)))
  | .runlock m k, ph, h =>
    (m = a ∧ ph = .inR ∧ h = .rd 0 ∧ Two a b k .post h) ∨
    (m = b ∧ (ph = .inW ∨ ph = .inR) ∧ ∃ n, h = .rd (n + 1) ∧ Two a b k ph (.rd n))
  | .read _ k, ph, h => (ph = .inW ∨ ph = .inR) ∧ h ≠ .ann ∧ ∀ s, Two a b (k s) ph h
  | .write _ _ k, ph, h => ph = .inW ∧ h ≠ .ann ∧ ∀ s, Two a b (k s) ph h

/-- What is known about a call. -/
def TwoInv (a b : μ) (p : Prog μ κ σ ρ) (mine : μ → Mu) : Prop :=
  ∃ ph h, mine a = ph.mu ∧ mine b = h.mu ∧ Fits ph h ∧ Two a b p ph h

theorem TwoInv.micro {a b : μ} (hab : a ≠ b) {c : Cfg μ κ σ Op Out} {k k' : Call μ κ σ Op Out}
    {mus : μ → Mu} {d : σ} (h : TwoInv a b k.prog k.mine) (hm : micro c k = some (k', mus, d)) :
    TwoInv a b k'.prog k'.mine := by
  obtain ⟨ph, hd, h1, h2, hf, ht⟩ := h
  unfold Conc.micro at hm
  cases hp : k.prog with
  | ret r => simp only [hp, reduceCtorEq] at hm
  | lock m p =>
    rw [hp] at ht
    simp only [hp] at hm
    split at hm
    · cases hm
      rcases ht with ⟨rfl, rfl, rfl, ht⟩ | ⟨rfl, rfl, rfl, ht⟩
      · refine ⟨.ann, .rd 0, ?_, ?_, rfl, .inl ⟨rfl, rfl, rfl, ht⟩⟩
        · simp only [upd_self, h1]; rfl
        · simp only [upd_ne _ _ (Ne.symm hab), h2]
      · refine ⟨.inW, .ann, ?_, ?_, trivial, .inr ⟨rfl, rfl, rfl, ht⟩⟩
        · simp only [upd_ne _ _ hab, h1]
        · simp only [upd_self, h2]; rfl
    · cases hm
  | acquire m p =>
    rw [hp] at ht
    simp only [hp] at hm
    split at hm
    · cases hm
      rcases ht with ⟨rfl, rfl, rfl, ht⟩ | ⟨rfl, rfl, rfl, ht⟩
      · refine ⟨.inW, .rd 0, ?_, ?_, trivial, ht⟩
        · simp only [upd_self, h1]; rfl
        · simp only [upd_ne _ _ (Ne.symm hab), h2]
      · refine ⟨.inW, .wr, ?_, ?_, trivial, ht⟩
        · simp only [upd_ne _ _ hab, h1]
        · simp only [upd_self, h2]; rfl
    · cases hm
  | unlock m p =>
    rw [hp] at ht
    simp only [hp] at hm
    split at hm
    · cases hm
      rcases ht with ⟨rfl, rfl, rfl, ht⟩ | ⟨rfl, rfl, rfl, ht⟩
      · refine ⟨.post, .rd 0, ?_, ?_, rfl, ht⟩
        · simp only [upd_self, h1]; rfl
        · simp only [upd_ne _ _ (Ne.symm hab), h2]
      · refine ⟨.inW, .rd 0, ?_, ?_, trivial, ht⟩
        · simp only [upd_ne _ _ hab, h1]
        · simp only [upd_self, h2]; rfl
    · cases hm
  | rlock m p =>
    rw [hp] at ht
    simp only [hp] at hm
    split at hm
    · cases hm
      rcases ht with ⟨rfl, rfl, rfl, ht⟩ | ⟨rfl, hph, n, rfl, ht⟩
      · refine ⟨.inR, .rd 0, ?_, ?_, ⟨0, rfl⟩, ht⟩
        · simp only [upd_self, h1]; rfl
        · simp only [upd_ne _ _ (Ne.symm hab), h2]
      · refine ⟨ph, .rd (n + 1), ?_, ?_, ?_, ht⟩
        · simp only [upd_ne _ _ hab, h1]
        · simp only [upd_self, h2]; rfl
        · rcases hph with rfl | rfl
          · trivial
          · exact ⟨_, rfl⟩
    · cases hm
  | runlock m p =>
    rw [hp] at ht
    simp only [hp] at hm
    split at hm
    · cases hm
      rcases ht with ⟨rfl, rfl, rfl, ht⟩ | ⟨rfl, hph, n, rfl, ht⟩
      · refine ⟨.post, .rd 0, ?_, ?_, rfl, ht⟩
        · simp only [upd_self, h1]; rfl
        · simp only [upd_ne _ _ (Ne.symm hab), h2]
      · refine ⟨ph, .rd n, ?_, ?_, ?_, ht⟩
        · simp only [upd_ne _ _ hab, h1]
        · simp only [upd_self, h2]; rfl
        · rcases hph with rfl | rfl
          · trivial
          · exact ⟨_, rfl⟩
    · cases hm
  | read l p =>
    rw [hp] at ht
    simp only [hp, Option.some.injEq, Prod.mk.injEq] at hm
    obtain ⟨rfl, rfl, rfl⟩ := hm
    exact ⟨ph, hd, h1, h2, hf, ht.2.2 _⟩
  | write l f p =>
    rw [hp] at ht
    simp only [hp, Option.some.injEq, Prod.mk.injEq] at hm
    obtain ⟨rfl, rfl, rfl⟩ := hm
    exact ⟨ph, hd, h1, h2, hf, ht.2.2 _⟩

/-- It follows the strict discipline on the outer mutex. -/
theorem Two.outer {a b : μ} (hab : a ≠ b) {p : Prog μ κ σ ρ} : ∀ {ph : Phase} {h : Hold}, Two a b p ph h →
    Disc a (fun _ => True) True True p ph.hold := by
  have hba := Ne.symm hab
  induction p with
  | ret r => rintro ph h ⟨rfl, rfl⟩; exact ⟨0, rfl, fun _ => rfl⟩
  | lock m k ih =>
    rintro ph h (⟨rfl, rfl, rfl, ht⟩ | ⟨rfl, rfl, rfl, ht⟩)
    · simp only [Disc, if_true]; exact ⟨rfl, ih ht⟩
    · simp only [Disc, if_neg hba]; exact ⟨by decide, ih ht⟩
  | acquire m k ih =>
    rintro ph h (⟨rfl, rfl, rfl, ht⟩ | ⟨rfl, rfl, rfl, ht⟩)
    · simp only [Disc, if_true]; exact ⟨rfl, ih ht⟩
    · simp only [Disc, if_neg hba]; exact ⟨by decide, ih ht⟩
  | unlock m k ih =>
    rintro ph h (⟨rfl, rfl, rfl, ht⟩ | ⟨rfl, rfl, rfl, ht⟩)
    · simp only [Disc, if_true]; exact ⟨rfl, ih ht⟩
    · simp only [Disc, if_neg hba]; exact ⟨by decide, ih ht⟩
  | rlock m k ih =>
    rintro ph h (⟨rfl, rfl, rfl, ht⟩ | ⟨rfl, hph, n, rfl, ht⟩)
    · simp only [Disc, if_true]; exact ⟨0, rfl, fun _ => rfl, ih ht⟩
    · simp only [Disc, if_neg hba]; exact ⟨by rcases hph with rfl | rfl <;> decide, ih ht⟩
  | runlock m k ih =>
    rintro ph h (⟨rfl, rfl, rfl, ht⟩ | ⟨rfl, hph, n, rfl, ht⟩)
    · simp only [Disc, if_true]; exact ⟨0, rfl, ih ht⟩
    · simp only [Disc, if_neg hba]; exact ⟨by rcases hph with rfl | rfl <;> decide, ih ht⟩
  | read l k ih =>
    rintro ph h ⟨hph, hh, ht⟩
    exact ⟨by rcases hph with rfl | rfl <;> decide, fun _ => by rcases hph with rfl | rfl <;> decide,
      fun s => ih s (ht s)⟩
  | write l f k ih =>
    rintro ph h ⟨rfl, hh, ht⟩
    exact ⟨by decide, fun _ => rfl, fun s => ih s (ht s)⟩

/-- It leaves nothing behind on the inner mutex. -/
theorem Two.inner {a b : μ} (hab : a ≠ b) {p : Prog μ κ σ ρ} : ∀ {ph : Phase} {h : Hold}, Two a b p ph h →
    Disc b (fun _ => False) True False p h := by
  induction p with
  | ret r => rintro ph h ⟨rfl, rfl⟩; exact ⟨0, rfl, fun _ => rfl⟩
  | lock m k ih =>
    rintro ph h (⟨rfl, rfl, rfl, ht⟩ | ⟨rfl, rfl, rfl, ht⟩)
    · simp only [Disc, if_neg hab]; exact ⟨by decide, ih ht⟩
    · simp only [Disc, if_true]; exact ⟨trivial, ih ht⟩
  | acquire m k ih =>
    rintro ph h (⟨rfl, rfl, rfl, ht⟩ | ⟨rfl, rfl, rfl, ht⟩)
    · simp only [Disc, if_neg hab]; exact ⟨by decide, ih ht⟩
    · simp only [Disc, if_true]; exact ⟨trivial, ih ht⟩
  | unlock m k ih =>
    rintro ph h (⟨rfl, rfl, rfl, ht⟩ | ⟨rfl, rfl, rfl, ht⟩)
    · simp only [Disc, if_neg hab]; exact ⟨by decide, ih ht⟩
    · simp only [Disc, if_true]; exact ⟨trivial, ih ht⟩
  | rlock m k ih =>
    rintro ph h (⟨rfl, rfl, rfl, ht⟩ | ⟨rfl, hph, n, rfl, ht⟩)
    · simp only [Disc, if_neg hab]; exact ⟨by decide, ih ht⟩
    · simp only [Disc, if_true]; exact ⟨n, rfl, False.elim, ih ht⟩
  | runlock m k ih =>
    rintro ph h (⟨rfl, rfl, rfl, ht⟩ | ⟨rfl, hph, n, rfl, ht⟩)
    · simp only [Disc, if_neg hab]; exact ⟨by decide, ih ht⟩
    · simp only [Disc, if_true]; exact ⟨n, rfl, ih ht⟩
  | read l k ih =>
    rintro ph h ⟨hph, hh, ht⟩
    exact ⟨hh, False.elim, fun s => ih s (ht s)⟩
  | write l f k ih =>
    rintro ph h ⟨rfl, hh, ht⟩
    exact ⟨hh, False.elim, fun s => ih s (ht s)⟩

/-- Such methods do not deadlock. -/
theorem no_deadlock_two {a b : μ} (hab : a ≠ b) {prog : Op → Prog μ κ σ Out} {allowed : Op → Prop}
    (htwo : ∀ op, allowed op → Two a b (prog op) .pre (.rd 0)) {s : σ} {c : Cfg μ κ σ Op Out}
    (hr : Reach prog allowed s c) : ¬ Deadlock prog c := by
  rintro ⟨⟨t0, k0, hk0⟩, hstuck⟩
  have ha := (lockInv (fun op h => (htwo op h).outer hab) hr).count
  have hb := (lockInv (fun op h => (htwo op h).inner hab) hr).count
  have hi := callInv (I := fun k => TwoInv a b k.prog k.mine) (fun _ op h => ⟨.pre, .rd 0, rfl, rfl, rfl, htwo op h⟩)
    (fun _ _ _ _ _ => TwoInv.micro hab) hr
  have hmic : ∀ t k, c.calls t = some k → micro c k = none := fun t k hk => tau_isSome hk (hstuck t).1
  have hnone : ∀ m t, c.calls t = none → mineOf m c t = .init := by
    intro m t h; unfold mineOf; simp only [h]
  -- what another goroutine adds to the inner mutex when `t` is in for writing
  have hsole : ∀ t k, c.calls t = some k → k.mine a = Phase.inW.mu → ∀ t', t' ≠ t →
      mineOf b c t' = .init := by
    intro t k hk hm t' hne
    cases hk' : c.calls t' with
    | none => exact hnone b t' hk'
    | some k' =>
      obtain ⟨ph, h, h1, h2, hf, -⟩ := hi t' k' hk'
      have hheld : (mineOf a c t).wr = .held := by rw [mineOf_some hk, hm]; rfl
      have hfree := (ha.wr_eq (by decide) hheld).2 t' hne
      have hzero := ha.excl hheld t'
      rw [mineOf_some hk', h1] at hfree hzero
      rw [mineOf_some hk', h2]
      cases ph with
      | inW => cases hfree
      | inR => cases hzero
      | pre => cases hf; rfl
      | ann => cases hfree
      | post => cases hf; rfl
  -- nobody is in for writing
  have hnoW : ∀ t k, c.calls t = some k → k.mine a ≠ Phase.inW.mu := by
    intro t k hk hm
    obtain ⟨ph, h, h1, h2, hf, ht⟩ := hi t k hk
    have hph : ph = .inW := by rw [hm] at h1; cases ph <;> first | rfl | cases h1
    subst hph
    have hs := hmic t k hk
    have hA : (c.mus a).wr = .held := (ha.wr_eq (by decide) (by rw [mineOf_some hk, hm]; rfl)).1
    have hBw : ∀ w, h.mu.wr = w → (c.mus b).wr = w := by
      intro w hw
      by_cases hwf : w = .free
      · subst hwf
        apply Classical.byContradiction
        intro hne
        obtain ⟨t', ht', -⟩ := hb.one hne
        by_cases e : t' = t
        · subst e; rw [mineOf_some hk, h2, hw] at ht'; exact hne ht'.symm
        · rw [hsole t k hk hm t' e] at ht'; exact hne ht'.symm
      · exact (hb.wr_eq hwf (by rw [mineOf_some hk, h2, hw])).1
    have hBr : h.mu.readers = 0 → (c.mus b).readers = 0 := by
      intro h0
      apply Classical.byContradiction
      intro hne
      obtain ⟨t', ht'⟩ := hb.exists_reader trivial hne
      by_cases e : t' = t
      · subst e; rw [mineOf_some hk, h2] at ht'; exact ht' h0
      · rw [hsole t k hk hm t' e] at ht'; exact ht' rfl
    have hBr' : h.mu.readers ≠ 0 → (c.mus b).readers ≠ 0 := fun h0 =>
      hb.readers_ne (t := t) (by rw [mineOf_some hk, h2]; exact h0)
    unfold micro at hs
    cases hp : k.prog with
    | ret r => rw [hp] at ht; cases ht.1
    | lock m' p =>
      rw [hp] at ht
      rcases ht with ⟨-, e, -⟩ | ⟨rfl, -, rfl, -⟩
      · cases e
      · simp only [hp, hBw .free rfl, if_true, reduceCtorEq] at hs
    | acquire m' p =>
      rw [hp] at ht
      rcases ht with ⟨-, e, -⟩ | ⟨rfl, -, rfl, -⟩
      · cases e
      · simp only [hp, hBr rfl, if_true, reduceCtorEq] at hs
    | unlock m' p =>
      rw [hp] at ht
      rcases ht with ⟨rfl, -, -, -⟩ | ⟨rfl, -, rfl, -⟩
      · simp only [hp, hA, if_true, reduceCtorEq] at hs
      · simp only [hp, hBw .held rfl, if_true, reduceCtorEq] at hs
    | rlock m' p =>
      rw [hp] at ht
      rcases ht with ⟨-, e, -⟩ | ⟨rfl, -, n, rfl, -⟩
      · cases e
      · simp only [hp, hBw .free rfl, if_true, reduceCtorEq] at hs
    | runlock m' p =>
      rw [hp] at ht
      rcases ht with ⟨-, e, -⟩ | ⟨rfl, -, n, rfl, -⟩
      · cases e
      · simp only [hp, ne_eq, hBr' (Nat.succ_ne_zero n), not_false_eq_true, if_true, reduceCtorEq] at hs
    | read l p => simp only [hp, reduceCtorEq] at hs
    | write l f p => simp only [hp, reduceCtorEq] at hs
  -- so nobody wants the inner mutex for writing
  have hBfree : (c.mus b).wr = .free := by
    apply Classical.byContradiction
    intro hne
    obtain ⟨t, ht, -⟩ := hb.one hne
    cases hk : c.calls t with
    | none => rw [hnone b t hk] at ht; exact hne ht.symm
    | some k =>
      obtain ⟨ph, h, h1, h2, hf, -⟩ := hi t k hk
      rw [mineOf_some hk, h2] at ht
      cases ph with
      | inW => exact hnoW t k hk h1
      | inR => obtain ⟨n, rfl⟩ := hf; exact hne ht.symm
      | pre => cases hf; exact hne ht.symm
      | ann => cases hf; exact hne ht.symm
      | post => cases hf; exact hne ht.symm
  -- nobody is in for reading
  have hnoR : ∀ t k, c.calls t = some k → k.mine a ≠ Phase.inR.mu := by
    intro t k hk hm
    obtain ⟨ph, h, h1, h2, hf, ht⟩ := hi t k hk
    have hph : ph = .inR := by rw [hm] at h1; cases ph <;> first | rfl | cases h1
    subst hph
    have hs := hmic t k hk
    have hAr : (c.mus a).readers ≠ 0 := ha.readers_ne (t := t) (by
      rw [mineOf_some hk, hm]; exact Nat.succ_ne_zero 0)
    unfold micro at hs
    cases hp : k.prog with
    | ret r => rw [hp] at ht; cases ht.1
    | lock m' p => rw [hp] at ht; rcases ht with ⟨-, e, -⟩ | ⟨-, e, -⟩ <;> cases e
    | acquire m' p => rw [hp] at ht; rcases ht with ⟨-, e, -⟩ | ⟨-, e, -⟩ <;> cases e
    | unlock m' p => rw [hp] at ht; rcases ht with ⟨-, e, -⟩ | ⟨-, e, -⟩ <;> cases e
    | rlock m' p =>
      rw [hp] at ht
      rcases ht with ⟨-, e, -⟩ | ⟨rfl, -, n, rfl, -⟩
      · cases e
      · simp only [hp, hBfree, if_true, reduceCtorEq] at hs
    | runlock m' p =>
      rw [hp] at ht
      rcases ht with ⟨rfl, -, -, -⟩ | ⟨rfl, -, n, rfl, -⟩
      · simp only [hp, ne_eq, hAr, not_false_eq_true, if_true, reduceCtorEq] at hs
      · have hBr : (c.mus m').readers ≠ 0 := hb.readers_ne (t := t) (by
          rw [mineOf_some hk, h2]; exact Nat.succ_ne_zero n)
        simp only [hp, ne_eq, hBr, not_false_eq_true, if_true, reduceCtorEq] at hs
    | read l p => simp only [hp, reduceCtorEq] at hs
    | write l f p => simp only [hp, reduceCtorEq] at hs
  have hA0 : (c.mus a).readers = 0 := by
    apply Classical.byContradiction
    intro h0
    obtain ⟨t, ht⟩ := ha.exists_reader trivial h0
    cases hk : c.calls t with
    | none => rw [hnone a t hk] at ht; exact ht rfl
    | some k =>
      obtain ⟨ph, h, h1, -, -, -⟩ := hi t k hk
      rw [mineOf_some hk, h1] at ht
      cases ph with
      | inR => exact hnoR t k hk h1
      | _ => exact ht rfl
  -- nobody is waiting to write
  have hnoA : ∀ t k, c.calls t = some k → k.mine a ≠ Phase.ann.mu := by
    intro t k hk hm
    obtain ⟨ph, h, h1, h2, hf, ht⟩ := hi t k hk
    have hph : ph = .ann := by rw [hm] at h1; cases ph <;> first | rfl | cases h1
    subst hph
    have hs := hmic t k hk
    unfold micro at hs
    cases hp : k.prog with
    | ret r => rw [hp] at ht; cases ht.1
    | lock m' p => rw [hp] at ht; rcases ht with ⟨-, e, -⟩ | ⟨-, e, -⟩ <;> cases e
    | acquire m' p =>
      rw [hp] at ht
      rcases ht with ⟨rfl, -, -, -⟩ | ⟨-, e, -⟩
      · simp only [hp, hA0, if_true, reduceCtorEq] at hs
      · cases e
    | unlock m' p => rw [hp] at ht; rcases ht with ⟨-, e, -⟩ | ⟨-, e, -⟩ <;> cases e
    | rlock m' p => rw [hp] at ht; rcases ht with ⟨-, e, -⟩ | ⟨-, e | e, -⟩ <;> cases e
    | runlock m' p => rw [hp] at ht; rcases ht with ⟨-, e, -⟩ | ⟨-, e | e, -⟩ <;> cases e
    | read l p => simp only [hp, reduceCtorEq] at hs
    | write l f p => simp only [hp, reduceCtorEq] at hs
  have hAfree : (c.mus a).wr = .free := by
    apply Classical.byContradiction
    intro hne
    obtain ⟨t, ht, -⟩ := ha.one hne
    cases hk : c.calls t with
    | none => rw [hnone a t hk] at ht; exact hne ht.symm
    | some k =>
      obtain ⟨ph, h, h1, -, -, -⟩ := hi t k hk
      rw [mineOf_some hk, h1] at ht
      cases ph with
      | inW => exact hnoW t k hk h1
      | ann => exact hnoA t k hk h1
      | _ => exact hne ht.symm
  -- so the first call can step
  have hs := hmic t0 k0 hk0
  obtain ⟨ph, h, h1, -, -, ht⟩ := hi t0 k0 hk0
  have hW := hnoW t0 k0 hk0
  have hR := hnoR t0 k0 hk0
  have hA := hnoA t0 k0 hk0
  rw [h1] at hW hR hA
  unfold micro at hs
  cases hp : k0.prog with
  | ret r =>
    have := (hstuck t0).2
    unfold Conc.step at this
    simp only [hk0, hp, reduceCtorEq] at this
  | lock m' p =>
    rw [hp] at ht
    rcases ht with ⟨rfl, -, -, -⟩ | ⟨-, rfl, -⟩
    · simp only [hp, hAfree, if_true, reduceCtorEq] at hs
    · exact hW rfl
  | acquire m' p =>
    rw [hp] at ht
    rcases ht with ⟨-, rfl, -⟩ | ⟨-, rfl, -⟩
    · exact hA rfl
    · exact hW rfl
  | unlock m' p =>
    rw [hp] at ht
    rcases ht with ⟨-, rfl, -⟩ | ⟨-, rfl, -⟩ <;> exact hW rfl
  | rlock m' p =>
    rw [hp] at ht
    rcases ht with ⟨rfl, -, -, -⟩ | ⟨-, rfl | rfl, -⟩
    · simp only [hp, hAfree, if_true, reduceCtorEq] at hs
    · exact hW rfl
    · exact hR rfl
  | runlock m' p =>
    rw [hp] at ht
    rcases ht with ⟨-, rfl, -⟩ | ⟨-, rfl | rfl, -⟩
    · exact hR rfl
    · exact hW rfl
    · exact hR rfl
  | read l p => simp only [hp, reduceCtorEq] at hs
  | write l f p => simp only [hp, reduceCtorEq] at hs

/-! ## Showing that programs behave so -/

/-- Inside the outer section (for writing if `ph` is `inW`): starting with inner hold `h`, the program
returns with `e` read locks of the inner mutex. -/
def Nests (b : μ) (ph : Phase) (e : Nat) : Prog μ κ σ ρ → Hold → Prop
  | .ret _, h => h = .rd e
  | .lock m k, h => m = b ∧ ph = .inW ∧ h = .rd 0 ∧ Nests b ph e k .wr
  | .acquire m k, h => m = b ∧ ph = .inW ∧ h = .ann ∧ Nests b ph e k .wr
  | .unlock m k, h => m = b ∧ ph = .inW ∧ h = .wr ∧ Nests b ph e k (.rd 0)
  | .rlock m k, h => m = b ∧ ∃ n, h = .rd n ∧ Nests b ph e k (.rd (n + 1))
  | .runlock m k, h => m = b ∧ ∃ n, h = .rd (n + 1) ∧ Nests b ph e k (.rd n)
  | .read _ k, h => h ≠ .ann ∧ ∀ s, Nests b ph e (k s) h
  | .write _ _ k, h => ph = .inW ∧ h ≠ .ann ∧ ∀ s, Nests b ph e (k s) h

omit [DecidableEq μ] in
theorem Nests.bind {α β : Type} {b : μ} {ph : Phase} {e e' : Nat} {f : α → Prog μ κ σ β}
    (hf : ∀ x, Nests b ph e' (f x) (.rd e)) {p : Prog μ κ σ α} :
    ∀ {h : Hold}, Nests b ph e p h → Nests b ph e' (p.bind f) h := by
  induction p with
  | ret r => rintro h rfl; exact hf r
  | lock m k ih => exact fun h => ⟨h.1, h.2.1, h.2.2.1, ih h.2.2.2⟩
  | acquire m k ih => exact fun h => ⟨h.1, h.2.1, h.2.2.1, ih h.2.2.2⟩
  | unlock m k ih => exact fun h => ⟨h.1, h.2.1, h.2.2.1, ih h.2.2.2⟩
  | rlock m k ih => rintro h ⟨h1, n, h2, h3⟩; exact ⟨h1, n, h2, ih h3⟩
  | runlock m k ih => rintro h ⟨h1, n, h2, h3⟩; exact ⟨h1, n, h2, ih h3⟩
  | read l k ih => exact fun h => ⟨h.1, fun s => ih s (h.2 s)⟩
  | write l f k ih => exact fun h => ⟨h.1, h.2.1, fun s => ih s (h.2.2 s)⟩

omit [DecidableEq μ] in
private theorem Nests.two {a b : μ} {ph : Phase} (hph : ph = .inW ∨ ph = .inR) {e : Nat}
    {α : Type} {f : α → Prog μ κ σ Out} (hf : ∀ x, Two a b (f x) ph (.rd e)) {p : Prog μ κ σ α} :
    ∀ {h : Hold}, Nests b ph e p h → Two a b (p.bind f) ph h := by
  induction p with
  | ret r => rintro h rfl; exact hf r
  | lock m k ih => exact fun h => .inr ⟨h.1, h.2.1, h.2.2.1, ih h.2.2.2⟩
  | acquire m k ih => exact fun h => .inr ⟨h.1, h.2.1, h.2.2.1, ih h.2.2.2⟩
  | unlock m k ih => exact fun h => .inr ⟨h.1, h.2.1, h.2.2.1, ih h.2.2.2⟩
  | rlock m k ih => rintro h ⟨h1, n, h2, h3⟩; exact .inr ⟨h1, hph, n, h2, ih h3⟩
  | runlock m k ih => rintro h ⟨h1, n, h2, h3⟩; exact .inr ⟨h1, hph, n, h2, ih h3⟩
  | read l k ih => exact fun h => ⟨hph, h.1, fun s => ih s (h.2 s)⟩
  | write l f k ih => exact fun h => ⟨h.1, h.2.1, fun s => ih s (h.2.2 s)⟩

omit [DecidableEq μ] in
theorem two_excl {a b : μ} {p : Prog μ κ σ Out} (h : Nests b .inW 0 p (.rd 0)) :
    Two a b (p.excl a) .pre (.rd 0) := by
  refine .inl ⟨rfl, rfl, rfl, Nests.two (.inl rfl) ?_ h⟩
  exact fun _ => .inl ⟨rfl, rfl, rfl, rfl, rfl⟩

omit [DecidableEq μ] in
theorem two_shared {a b : μ} {p : Prog μ κ σ Out} (h : Nests b .inR 0 p (.rd 0)) :
    Two a b (p.shared a) .pre (.rd 0) := by
  refine .inl ⟨rfl, rfl, rfl, Nests.two (.inr rfl) ?_ h⟩
  exact fun _ => .inl ⟨rfl, rfl, rfl, rfl, rfl⟩

omit [DecidableEq μ] in
theorem sub_excl {b : μ} {p : Prog μ κ σ ρ} (h : Nests b .inW 0 (p.bind fun r => .unlock b (.ret r)) .wr) :
    Nests b .inW 0 (p.excl b) (.rd 0) := ⟨rfl, rfl, rfl, h⟩

end Netscrape.Conc
