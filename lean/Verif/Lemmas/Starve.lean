import Verif.Spec.FairExec
import Verif.Lemmas.Leak
import Verif.Lemmas.Ordered
import Verif.Lemmas.Erase

/-!
# Under a fair scheduler and fair mutexes every call returns

Mutexes have ranks; who waits for one holds only such of lower rank. A call that stays where it is for ever waits for a
mutex; take one that waits for a mutex of the highest rank. Nobody who holds this mutex is stuck, so all let go of it,
and its turn comes.
-/

namespace Netscrape.Conc
open Netscrape.Spec

variable {μ κ σ ρ Op Out : Type}

/-- The first moment from `n` on at which `P`. -/
theorem first_time {P : Nat → Prop} {n : Nat} : ∀ {m}, n ≤ m → P m → ∃ j, n ≤ j ∧ P j ∧ ∀ i, n ≤ i → i < j → ¬ P i := by
  intro m
  induction m using Nat.strongRecOn with
  | ind m ih =>
    intro hm hp
    by_cases h : ∃ i, n ≤ i ∧ i < m ∧ P i
    · obtain ⟨i, h1, h2, h3⟩ := h
      exact ih i h2 h1 h3
    · exact ⟨m, hm, hp, fun i h1 h2 h3 => h ⟨i, h1, h2, h3⟩⟩

/-- A step at which `P` is lost. -/
theorem last_time {P : Nat → Prop} {n : Nat} (h0 : P n) : ∀ {m}, n ≤ m → ¬ P m → ∃ j, n ≤ j ∧ P j ∧ ¬ P (j + 1) := by
  intro m hm hp
  obtain ⟨j, h1, h2, h3⟩ := first_time (P := fun i => ¬ P i) hm hp
  cases j with
  | zero => exact absurd (by rwa [Nat.le_zero.mp h1] at h0) h2
  | succ j =>
    by_cases e : n = j + 1
    · subst e; exact absurd h0 h2
    · exact ⟨j, by omega, Classical.byContradiction fun h => h3 j (by omega) (by omega) h, h2⟩

/-- What does not grow and is not 0 stays the same in the end. -/
theorem settles {g : Nat → Nat} {n : Nat} (h : ∀ i, n ≤ i → g (i + 1) ≤ g i) : ∃ N, n ≤ N ∧ ∀ i, N ≤ i → g i = g N := by
  have mono : ∀ i j, n ≤ i → i ≤ j → g j ≤ g i := by
    intro i j hi hj
    induction hj with
    | refl => exact Nat.le_refl _
    | step hj ih => exact Nat.le_trans (h _ (Nat.le_trans hi hj)) ih
  suffices ∀ v N, n ≤ N → g N = v → ∃ N, n ≤ N ∧ ∀ i, N ≤ i → g i = g N from this _ n (Nat.le_refl _) rfl
  intro v
  induction v using Nat.strongRecOn with
  | ind v ih =>
    intro N hN hv
    by_cases hc : ∃ i, N ≤ i ∧ g i < v
    · obtain ⟨i, h1, h2⟩ := hc
      exact ih _ h2 i (Nat.le_trans hN h1) rfl
    · refine ⟨N, hN, fun i hi => ?_⟩
      have := mono N i hN hi
      have : ¬ g i < v := fun h => hc ⟨i, hi, h⟩
      omega

variable [DecidableEq μ]

/-- What one step does to goroutine `t`'s call. -/
theorem track {prog : Op → Prog μ κ σ Out} {allowed : Op → Prop} {f : Nat → Cfg μ κ σ Op Out}
    {acts : Nat → Option (Act Op)} (hf : FairExec prog allowed f acts) {n t : Nat} {k : Call μ κ σ Op Out}
    (hk : (f n).calls t = some k) :
    (acts n = some (.tau t) ∧ ∃ k' mus d, micro (f n) k = some (k', mus, d) ∧ (f (n + 1)).calls t = some k' ∧ k'.id = k.id) ∨
    (acts n = some (.ret t) ∧ (∃ r, k.prog = .ret r ∧ Ev.res k.id t r ∈ (f (n + 1)).hist) ∧ (f (n + 1)).calls t = none) ∨
    (¬ Goes t (acts n) ∧ (f (n + 1)).calls t = some k) := by
  cases ha : acts n with
  | none =>
    refine .inr (.inr ⟨?_, by rw [hf.idle n ha]; exact hk⟩)
    rintro (h | h) <;> cases h
  | some a =>
    have hs := (hf.step n a ha).2
    cases a with
    | call t' op =>
      refine .inr (.inr ⟨?_, ?_⟩)
      · rintro (h | h) <;> cases h
      · unfold Conc.step at hs
        cases hc : (f n).calls t' with
        | some k' => simp only [hc, reduceCtorEq] at hs
        | none =>
          simp only [hc, Option.some.injEq] at hs
          rw [← hs]
          have : t ≠ t' := by rintro rfl; rw [hk] at hc; cases hc
          simp only [upd_ne _ _ this]; exact hk
    | tau t' =>
      unfold Conc.step at hs
      cases hc : (f n).calls t' with
      | none => simp only [hc, reduceCtorEq] at hs
      | some k1 =>
        simp only [hc] at hs
        cases hm : micro (f n) k1 with
        | none => simp only [hm, reduceCtorEq] at hs
        | some r =>
          obtain ⟨k', mus, d⟩ := r
          simp only [hm, Option.some.injEq] at hs
          by_cases e : t = t'
          · subst e
            rw [hk] at hc
            cases hc
            refine .inl ⟨rfl, k', mus, d, hm, by rw [← hs]; exact upd_self _ _ _, (micro_id hm).1⟩
          · refine .inr (.inr ⟨?_, by rw [← hs]; simp only [upd_ne _ _ e]; exact hk⟩)
            rintro (h | h) <;> cases h
            exact e rfl
    | ret t' =>
      unfold Conc.step at hs
      cases hc : (f n).calls t' with
      | none => simp only [hc, reduceCtorEq] at hs
      | some k1 =>
        cases hp : k1.prog with
        | ret r =>
          simp only [hc, hp, Option.some.injEq] at hs
          by_cases e : t = t'
          · subst e
            rw [hk] at hc
            cases hc
            exact .inr (.inl ⟨rfl, ⟨r, hp, by rw [← hs]; simp⟩, by rw [← hs]; exact upd_self _ _ _⟩)
          · refine .inr (.inr ⟨?_, by rw [← hs]; simp only [upd_ne _ _ e]; exact hk⟩)
            rintro (h | h) <;> cases h
            exact e rfl
        | _ => simp only [hc, hp, reduceCtorEq] at hs

/-- Goroutine `t` stays for ever where it is in its call. -/
def Stays (f : Nat → Cfg μ κ σ Op Out) (t : Nat) (k : Call μ κ σ Op Out) (n : Nat) : Prop :=
  ∀ m, n ≤ m → (f m).calls t = some k

/-- A call returns or gets stuck. -/
theorem returns_or_stays {prog : Op → Prog μ κ σ Out} {allowed : Op → Prop} {f : Nat → Cfg μ κ σ Op Out}
    {acts : Nat → Option (Act Op)} (hf : FairExec prog allowed f acts) {t : Nat} {p : Prog μ κ σ Out} (hacc : Acc Next p) :
    ∀ {n : Nat} {k : Call μ κ σ Op Out}, k.prog = p → (f n).calls t = some k →
    ∃ j k', n ≤ j ∧ k'.id = k.id ∧ (f j).calls t = some k' ∧ ((∃ r, k'.prog = .ret r ∧ Ev.res k.id t r ∈ (f (j + 1)).hist) ∨
      Stays f t k' j) := by
  induction hacc with
  | intro p _ ih =>
    intro n k hp hk
    by_cases h : ∃ m, n ≤ m ∧ Goes t (acts m)
    · obtain ⟨m, h1, h2⟩ := h
      obtain ⟨j, h1, h2, h3⟩ := first_time (P := fun m => Goes t (acts m)) h1 h2
      have hkj : (f j).calls t = some k := by
        have : ∀ i, n ≤ i → i ≤ j → (f i).calls t = some k := by
          intro i hi
          induction hi with
          | refl => exact fun _ => hk
          | step hi ih' =>
            intro hj
            rcases track hf (ih' (by omega)) with ⟨ha, -⟩ | ⟨ha, -⟩ | ⟨-, h⟩
            · exact absurd (.inl ha) (h3 _ hi hj)
            · exact absurd (.inr ha) (h3 _ hi hj)
            · exact h
        exact this j h1 (Nat.le_refl _)
      rcases track hf hkj with ⟨ha, k', mus, d, hm, hk', hid⟩ | ⟨ha, ⟨r, h4, h5⟩, -⟩ | ⟨ha, -⟩
      · obtain ⟨j', k'', a1, a2, a3, a4⟩ := ih _ (by rw [← hp]; exact micro_next hm) rfl hk'
        rw [hid] at a2 a4
        exact ⟨j', k'', by omega, a2, a3, a4⟩
      · exact ⟨j, k, h1, rfl, hkj, .inl ⟨r, h4, h5⟩⟩
      · exact absurd h2 ha
    · refine ⟨n, k, Nat.le_refl _, rfl, hk, .inr fun m hm => ?_⟩
      induction hm with
      | refl => exact hk
      | step hm ih' =>
        rcases track hf ih' with ⟨ha, -⟩ | ⟨ha, -⟩ | ⟨-, h⟩
        · exact absurd ⟨_, hm, .inl ha⟩ h
        · exact absurd ⟨_, hm, .inr ha⟩ h
        · exact h

theorem Stays.not_goes {prog : Op → Prog μ κ σ Out} {allowed : Op → Prop} {f : Nat → Cfg μ κ σ Op Out}
    {acts : Nat → Option (Act Op)} (hf : FairExec prog allowed f acts) {t n : Nat} {k : Call μ κ σ Op Out}
    (h : Stays f t k n) : ¬ ∃ m, n ≤ m ∧ Goes t (acts m) := by
  rintro ⟨m, hm, hg⟩
  have h1 := h m hm
  have h2 := h (m + 1) (by omega)
  rcases track hf h1 with ⟨-, k', mus, d, hmi, hk', -⟩ | ⟨-, -, e⟩ | ⟨hn, -⟩
  · rw [h2] at hk'
    cases hk'
    have hirr : ∀ {q : Prog μ κ σ Out}, Acc Next q → ¬ Next q q := by
      intro q ha
      induction ha with
      | intro q _ ih => exact fun hq => ih q hq hq
    exact hirr (next_acc _) (micro_next hmi)
  · rw [h2] at e; cases e
  · exact hn hg

/-- Holds mutex `m`, for reading or for writing. -/
def Holds (k : Call μ κ σ Op Out) (m : μ) : Prop := (k.mine m).readers ≠ 0 ∨ (k.mine m).wr = .held

/-- Is about to lock mutex `m`, or is waiting for the readers to leave. -/
def AtLock (k : Call μ κ σ Op Out) (m : μ) : Prop := ∃ p, k.prog = .lock m p ∨ k.prog = .rlock m p ∨ k.prog = .acquire m p

theorem reach_fair {prog : Op → Prog μ κ σ Out} {allowed : Op → Prop} {f : Nat → Cfg μ κ σ Op Out}
    {acts : Nat → Option (Act Op)} (hf : FairExec prog allowed f acts) {s : σ} (hr : Reach prog allowed s (f 0)) :
    ∀ n, Reach prog allowed s (f n) := by
  intro n
  induction n with
  | zero => exact hr
  | succ n ih =>
    cases ha : acts n with
    | none => rw [hf.idle n ha]; exact ih
    | some a => exact .step _ _ a ih (hf.step n a ha).1 (hf.step n a ha).2

/-- What one step does to mutex `m` while a writer has it or has announced itself, and what happens when it is given
free. -/
theorem mutex_step {prog : Op → Prog μ κ σ Out} {m : μ} {prot : κ → Prop} {flat : Prop} {c c' : Cfg μ κ σ Op Out} {a : Act Op}
    (hi : LockInv m prot True flat c) (hs : step prog c a = some c') :
    ((c.mus m).wr ≠ .free → (c'.mus m).readers ≤ (c.mus m).readers ∧ ∀ t, (mineOf m c t).readers ≠ (mineOf m c' t).readers →
      (c'.mus m).readers < (c.mus m).readers) ∧
    ∀ t, (mineOf m c t).wr ≠ .free → (mineOf m c' t).wr = .free → (c'.mus m).wr = .free := by
  cases a with
  | call t op =>
    unfold Conc.step at hs
    cases hc : c.calls t with
    | some k' => simp only [hc, reduceCtorEq] at hs
    | none =>
      simp only [hc, Option.some.injEq] at hs
      have hmine : ∀ t', mineOf m c' t' = mineOf m c t' := by
        intro t'
        rw [← hs]
        unfold mineOf
        by_cases e : t' = t
        · subst e; simp only [upd_self, hc]
        · simp only [upd_ne _ _ e]
      have hmu : c'.mus = c.mus := by rw [← hs]
      refine ⟨fun _ => ⟨by rw [hmu]; exact Nat.le_refl _, fun t' h => absurd (by rw [hmine]) h⟩, fun t' h1 h2 => ?_⟩
      rw [hmine] at h2; exact absurd h2 h1
  | ret t =>
    unfold Conc.step at hs
    cases hc : c.calls t with
    | none => simp only [hc, reduceCtorEq] at hs
    | some k =>
      cases hp : k.prog with
      | ret r =>
        simp only [hc, hp, Option.some.injEq] at hs
        have hmine : ∀ t', mineOf m c' t' = mineOf m c t' := by
          intro t'
          rw [← hs]
          unfold mineOf
          by_cases e : t' = t
          · subst e
            simp only [upd_self, hc]
            obtain ⟨h, h1, h2⟩ := hi.disc t' k hc
            rw [hp] at h2
            obtain ⟨n, rfl, h3⟩ := h2
            rw [h1, h3 trivial]; rfl
          · simp only [upd_ne _ _ e]
        have hmu : c'.mus = c.mus := by rw [← hs]
        refine ⟨fun _ => ⟨by rw [hmu]; exact Nat.le_refl _, fun t' h => absurd (by rw [hmine]) h⟩, fun t' h1 h2 => ?_⟩
        rw [hmine] at h2; exact absurd h2 h1
      | _ => simp only [hc, hp, reduceCtorEq] at hs
  | tau t =>
    unfold Conc.step at hs
    cases hc : c.calls t with
    | none => simp only [hc, reduceCtorEq] at hs
    | some k =>
      simp only [hc] at hs
      cases hm : micro c k with
      | none => simp only [hm, reduceCtorEq] at hs
      | some r =>
        obtain ⟨k', mus, d⟩ := r
        simp only [hm, Option.some.injEq] at hs
        have hoth : ∀ t', t' ≠ t → mineOf m c' t' = mineOf m c t' := by
          intro t' e
          rw [← hs, mineOf_upd, upd_ne _ _ e]
        have hown : mineOf m c' t = k'.mine m := by rw [← hs, mineOf_upd, upd_self]
        have hmu : c'.mus = mus := by rw [← hs]
        obtain ⟨h, hmine, hd⟩ := hi.disc t k hc
        rw [hmu]
        -- it is enough to look at `t`
        suffices hsu : ((c.mus m).wr ≠ .free → (mus m).readers ≤ (c.mus m).readers ∧
            ((k.mine m).readers ≠ (k'.mine m).readers → (mus m).readers < (c.mus m).readers)) ∧
            ((k.mine m).wr ≠ .free → (k'.mine m).wr = .free → (mus m).wr = .free) by
          refine ⟨fun hw => ⟨(hsu.1 hw).1, fun t' hne => ?_⟩, fun t' h1 h2 => ?_⟩
          · by_cases e : t' = t
            · subst e
              rw [hown, mineOf_some hc] at hne
              exact (hsu.1 hw).2 hne
            · rw [hoth t' e] at hne; exact absurd rfl hne
          · by_cases e : t' = t
            · subst e
              rw [hown] at h2
              rw [mineOf_some hc] at h1
              exact hsu.2 h1 h2
            · rw [hoth t' e] at h2; exact absurd h2 h1
        have same : mus m = c.mus m → k'.mine m = k.mine m → ((c.mus m).wr ≠ .free → (mus m).readers ≤ (c.mus m).readers ∧
            ((k.mine m).readers ≠ (k'.mine m).readers → (mus m).readers < (c.mus m).readers)) ∧
            ((k.mine m).wr ≠ .free → (k'.mine m).wr = .free → (mus m).wr = .free) := by
          intro e1 e2
          rw [e1, e2]
          exact ⟨fun _ => ⟨Nat.le_refl _, fun h => absurd rfl h⟩, fun h1 h2 => absurd h2 h1⟩
        unfold micro at hm
        cases hp : k.prog with
        | ret r => simp only [hp, reduceCtorEq] at hm
        | read l p =>
          simp only [hp, Option.some.injEq, Prod.mk.injEq] at hm
          obtain ⟨rfl, rfl, rfl⟩ := hm
          exact same rfl rfl
        | write l g p =>
          simp only [hp, Option.some.injEq, Prod.mk.injEq] at hm
          obtain ⟨rfl, rfl, rfl⟩ := hm
          exact same rfl rfl
        | lock m' p =>
          simp only [hp] at hm
          split at hm
          · next hfree =>
            cases hm
            by_cases e : m' = m
            · subst e
              simp only [upd_self]
              exact ⟨fun hw => absurd hfree hw, fun _ h => by cases h⟩
            · exact same (upd_ne _ _ (Ne.symm e)) (upd_ne _ _ (Ne.symm e))
          · cases hm
        | acquire m' p =>
          simp only [hp] at hm
          split at hm
          · cases hm
            by_cases e : m' = m
            · subst e
              simp only [upd_self]
              exact ⟨fun _ => ⟨Nat.le_refl _, fun h => absurd rfl h⟩, fun _ h => by cases h⟩
            · exact same (upd_ne _ _ (Ne.symm e)) (upd_ne _ _ (Ne.symm e))
          · cases hm
        | unlock m' p =>
          simp only [hp] at hm
          split at hm
          · cases hm
            by_cases e : m' = m
            · subst e
              simp only [upd_self]
              exact ⟨fun _ => ⟨Nat.le_refl _, fun h => absurd rfl h⟩, fun _ _ => trivial⟩
            · exact same (upd_ne _ _ (Ne.symm e)) (upd_ne _ _ (Ne.symm e))
          · cases hm
        | rlock m' p =>
          simp only [hp] at hm
          split at hm
          · next hfree =>
            cases hm
            by_cases e : m' = m
            · subst e
              simp only [upd_self]
              exact ⟨fun hw => absurd hfree hw, fun h1 h2 => absurd h2 h1⟩
            · exact same (upd_ne _ _ (Ne.symm e)) (upd_ne _ _ (Ne.symm e))
          · cases hm
        | runlock m' p =>
          simp only [hp] at hm
          split at hm
          · next hne =>
            cases hm
            by_cases e : m' = m
            · subst e
              simp only [upd_self]
              exact ⟨fun _ => ⟨Nat.sub_le _ _, fun _ => by omega⟩, fun h1 h2 => absurd h2 h1⟩
            · exact same (upd_ne _ _ (Ne.symm e)) (upd_ne _ _ (Ne.symm e))
          · cases hm

/-- A call that cannot go on waits for a mutex. -/
theorem blocked {prog : Op → Prog μ κ σ Out} {c : Cfg μ κ σ Op Out}
    (hi : ∀ m, LockInv m (fun _ => False) True False c) {t : Nat} {k : Call μ κ σ Op Out} (hk : c.calls t = some k)
    (hn : ¬ CanGo prog c t) : micro c k = none ∧ ∃ m, AtLock k m := by
  have hm : micro c k = none := tau_isSome (prog := prog) hk (by
    cases h : step prog c (.tau t) with
    | none => rfl
    | some c' => exact absurd (.inl (by rw [h]; rfl)) hn)
  refine ⟨hm, ?_⟩
  cases hp : k.prog with
  | ret r => exact absurd (.inr (by simp only [Conc.step, hk, hp, Option.isSome_some])) hn
  | lock m p => exact ⟨m, p, .inl hp⟩
  | rlock m p => exact ⟨m, p, .inr (.inl hp)⟩
  | acquire m p => exact ⟨m, p, .inr (.inr hp)⟩
  | unlock m p =>
    obtain ⟨h, h1, h2⟩ := (hi m).disc t k hk
    rw [hp] at h2
    simp only [Disc, if_true] at h2
    obtain ⟨rfl, -⟩ := h2
    have := ((hi m).count.wr_eq (t := t) (w := .held) (by decide) (by rw [mineOf_some hk, h1]; rfl)).1
    simp only [micro, hp, this, if_true, reduceCtorEq] at hm
  | runlock m p =>
    obtain ⟨h, h1, h2⟩ := (hi m).disc t k hk
    rw [hp] at h2
    simp only [Disc, if_true] at h2
    obtain ⟨n, rfl, -⟩ := h2
    have := (hi m).count.readers_ne (t := t) (by rw [mineOf_some hk, h1]; exact Nat.succ_ne_zero n)
    simp only [micro, hp, ne_eq, this, not_false_eq_true, if_true, reduceCtorEq] at hm
  | read l p => simp only [micro, hp, reduceCtorEq] at hm
  | write l g p => simp only [micro, hp, reduceCtorEq] at hm

/-- If who waits for a mutex holds only such of lower rank, nobody gets stuck. -/
theorem nobody_stays {prog : Op → Prog μ κ σ Out} {allowed : Op → Prop}
    (hdisc : ∀ m op, allowed op → Disc m (fun _ => False) True False (prog op) (.rd 0)) {s : σ} (rank : μ → Nat) (R : Nat)
    (hR : ∀ m, rank m < R)
    (hord : ∀ c t k, Reach prog allowed s c → c.calls t = some k → micro c k = none →
      ∀ m, AtLock k m → ∀ m', Holds k m' → rank m' < rank m)
    {f : Nat → Cfg μ κ σ Op Out} {acts : Nat → Option (Act Op)} (hf : FairExec prog allowed f acts)
    (hr : Reach prog allowed s (f 0)) : ∀ t k n, ¬ Stays f t k n := by
  have hreach := reach_fair hf hr
  have hlock : ∀ n m, LockInv m (fun _ => False) True False (f n) := fun n m => lockInv (hdisc m) (hreach n)
  -- one step of the execution
  have hstep : ∀ n m, (((f n).mus m).wr ≠ .free → ((f (n + 1)).mus m).readers ≤ ((f n).mus m).readers ∧
      ∀ t, (mineOf m (f n) t).readers ≠ (mineOf m (f (n + 1)) t).readers →
        ((f (n + 1)).mus m).readers < ((f n).mus m).readers) ∧
      ∀ t, (mineOf m (f n) t).wr ≠ .free → (mineOf m (f (n + 1)) t).wr = .free → ((f (n + 1)).mus m).wr = .free := by
    intro n m
    cases ha : acts n with
    | none =>
      rw [hf.idle n ha]
      exact ⟨fun _ => ⟨Nat.le_refl _, fun t h => absurd rfl h⟩, fun t h1 h2 => absurd h2 h1⟩
    | some a => exact mutex_step (hlock n m) (hf.step n a ha).2
  -- who is stuck waits for a mutex
  have hwait : ∀ t k n, Stays f t k n → ∃ m, AtLock k m ∧ ∀ m', Holds k m' → rank m' < rank m := by
    intro t k n h
    have : ¬ ∀ j, n ≤ j → CanGo prog (f j) t := fun hc => h.not_goes hf (hf.turn t n hc)
    obtain ⟨j, hj⟩ := Classical.not_forall.mp this
    obtain ⟨hj, hn⟩ := Classical.not_imp.mp hj
    obtain ⟨h1, m, h2⟩ := blocked (hlock j) (h j hj) hn
    exact ⟨m, h2, hord _ t k (hreach j) (h j hj) h1 m h2⟩
  -- who holds something of some mutex for ever is stuck
  have hforever : ∀ {P : Mu → Prop} {m t n}, ¬ P .init → (∀ j, n ≤ j → P (mineOf m (f j) t)) →
      ∃ k N, n ≤ N ∧ Stays f t k N ∧ P (k.mine m) := by
    intro P m t n h0 h
    cases hk : (f n).calls t with
    | none =>
      have := h n (Nat.le_refl _)
      unfold mineOf at this
      rw [hk] at this
      exact absurd this h0
    | some k =>
      obtain ⟨j, k', h1, -, h3, h4⟩ := returns_or_stays hf (next_acc k.prog) rfl hk
      have hP := h j h1
      rw [mineOf_some h3] at hP
      rcases h4 with ⟨r, h4, -⟩ | h4
      · obtain ⟨hd, e1, e2⟩ := (hlock j m).disc t k' h3
        rw [h4] at e2
        obtain ⟨i, rfl, e3⟩ := e2
        rw [e1, e3 trivial] at hP
        exact absurd hP h0
      · exact ⟨k', j, h1, h4, hP⟩
  suffices ∀ d m, R ≤ rank m + d → ¬ ∃ t k n, Stays f t k n ∧ AtLock k m by
    intro t k n h
    obtain ⟨m, h1, -⟩ := hwait t k n h
    exact this R m (by omega) ⟨t, k, n, h, h1⟩
  intro d
  induction d with
  | zero => exact fun m h => absurd (hR m) (by omega)
  | succ d ih =>
    intro m hd
    -- nobody who holds the mutex is stuck
    have hfree : ∀ t k n, Stays f t k n → ¬ Holds k m := by
      intro t k n h hh
      obtain ⟨m', h1, h2⟩ := hwait t k n h
      exact ih m' (by have := h2 m hh; omega) ⟨t, k, n, h, h1⟩
    -- so no writer waits for readers to leave for ever
    have hacq : ∀ t k n p, Stays f t k n → k.prog ≠ .acquire m p := by
      intro t k n p h hp
      have hann : ∀ j, n ≤ j → ((f j).mus m).wr = .announced := by
        intro j hj
        obtain ⟨hd', e1, e2⟩ := (hlock j m).disc t k (h j hj)
        rw [hp] at e2
        simp only [Disc, if_true] at e2
        obtain ⟨rfl, -⟩ := e2
        exact ((hlock j m).count.wr_eq (t := t) (w := .announced) (by decide) (by rw [mineOf_some (h j hj), e1]; rfl)).1
      have hne : ∀ j, n ≤ j → ((f j).mus m).wr ≠ .free := fun j hj e => by rw [hann j hj] at e; cases e
      obtain ⟨N, hN, hset⟩ := settles (g := fun j => ((f j).mus m).readers) (n := n) (fun i hi => ((hstep i m).1 (hne i hi)).1)
      by_cases h0 : ((f N).mus m).readers = 0
      · refine h.not_goes hf (hf.turn t N ?_ |>.imp fun j hj => ⟨by omega, hj.2⟩)
        intro j hj
        have : ((f j).mus m).readers = 0 := (hset j hj).trans h0
        left
        simp only [Conc.step, h j (by omega), micro, hp, this, if_true, Option.isSome_some]
      · obtain ⟨t', ht'⟩ := (hlock N m).count.exists_reader trivial h0
        by_cases hall : ∀ j, N ≤ j → (mineOf m (f j) t').readers ≠ 0
        · obtain ⟨k', N', -, h1, h2⟩ := hforever (P := fun x => x.readers ≠ 0) (fun h => h rfl) hall
          exact hfree t' k' N' h1 (.inl h2)
        · obtain ⟨j, hj⟩ := Classical.not_forall.mp hall
          obtain ⟨hj, hj0⟩ := Classical.not_imp.mp hj
          obtain ⟨i, h1, h2, h3⟩ := last_time (P := fun j => (mineOf m (f j) t').readers ≠ 0) ht' hj hj0
          have h3 := Classical.not_not.mp h3
          have := ((hstep i m).1 (hne i (by omega))).2 t' (by rw [h3]; exact h2)
          rw [hset i h1, hset (i + 1) (by omega)] at this
          exact absurd this (Nat.lt_irrefl _)
    rintro ⟨t, k, n, h, p, hp⟩
    -- the mutex is free again and again
    have hagain : ∀ i, ∃ j, i ≤ j ∧ ((f j).mus m).wr = .free := by
      intro i
      apply Classical.byContradiction
      intro hno
      have hno : ∀ j, i ≤ j → ((f j).mus m).wr ≠ .free := fun j hj e => hno ⟨j, hj, e⟩
      obtain ⟨t', ht', -⟩ := (hlock i m).count.one (hno i (Nat.le_refl _))
      have hall : ∀ j, i ≤ j → (mineOf m (f j) t').wr ≠ .free := by
        intro j hj
        induction hj with
        | refl => rw [ht']; exact hno i (Nat.le_refl _)
        | step hj ih => exact fun e => hno _ (Nat.le_succ_of_le hj) ((hstep _ m).2 t' ih e)
      obtain ⟨k', N, hN, h1, h2⟩ := hforever (P := fun x => x.wr ≠ .free) (fun h => h rfl) hall
      obtain ⟨hd', e1, e2⟩ := (hlock N m).disc t' k' (h1 N (Nat.le_refl _))
      cases hd' with
      | rd _ => rw [e1] at h2; exact h2 rfl
      | wr => exact hfree t' k' N h1 (.inr (by rw [e1]; rfl))
      | ann =>
        cases hq : k'.prog with
        | acquire m' q =>
          by_cases e : m' = m
          · subst e; exact hacq t' k' N q h1 hq
          · rw [hq] at e2; simp only [Disc, if_neg e] at e2; exact e2.1 rfl
        | ret r => rw [hq] at e2; obtain ⟨_, e, _⟩ := e2; cases e
        | read l q => rw [hq] at e2; exact e2.1 rfl
        | write l g q => rw [hq] at e2; exact e2.1 rfl
        | lock m' q =>
          rw [hq] at e2; simp only [Disc] at e2
          split at e2
          · cases e2.1
          · exact e2.1 rfl
        | unlock m' q =>
          rw [hq] at e2; simp only [Disc] at e2
          split at e2
          · cases e2.1
          · exact e2.1 rfl
        | rlock m' q =>
          rw [hq] at e2; simp only [Disc] at e2
          split at e2
          · obtain ⟨_, e, _⟩ := e2; cases e
          · exact e2.1 rfl
        | runlock m' q =>
          rw [hq] at e2; simp only [Disc] at e2
          split at e2
          · obtain ⟨_, e, _⟩ := e2; cases e
          · exact e2.1 rfl
    refine h.not_goes hf (hf.mutex t n fun j hj => ⟨⟨k, m, p, h j hj, ?_⟩, ?_⟩)
    · rcases hp with hp | hp | hp
      · exact .inl hp
      · exact .inr hp
      · exact absurd hp (hacq t k n p h)
    · obtain ⟨i, hi, hw⟩ := hagain j
      refine ⟨i, hi, .inl ?_⟩
      rcases hp with hp | hp | hp
      · simp only [Conc.step, h i (by omega), micro, hp, hw, if_true, Option.isSome_some]
      · simp only [Conc.step, h i (by omega), micro, hp, hw, if_true, Option.isSome_some]
      · exact absurd hp (hacq t k n p h)

/-! ## Calls are in progress until they return -/

/-- A call that has been made has returned or is in progress. -/
theorem made {prog : Op → Prog μ κ σ Out} {allowed : Op → Prop} {s : σ} {c : Cfg μ κ σ Op Out} (hr : Reach prog allowed s c)
    {i t : Nat} {op : Op} (h : Ev.inv i t op ∈ c.hist) :
    (∃ out, Ev.res i t out ∈ c.hist) ∨ ∃ k, c.calls t = some k ∧ k.id = i := by
  induction hr with
  | init => cases h
  | step c c' a _ _ hs ih =>
    cases a with
    | call t' op' =>
      unfold Conc.step at hs
      cases hc : c.calls t' with
      | some k' => simp only [hc, reduceCtorEq] at hs
      | none =>
        simp only [hc, Option.some.injEq] at hs
        subst hs
        rcases List.mem_append.mp h with h | h
        · rcases ih h with ⟨out, h⟩ | ⟨k, h1, h2⟩
          · exact .inl ⟨out, List.mem_append_left _ h⟩
          · refine .inr ⟨k, ?_, h2⟩
            have : t ≠ t' := by rintro rfl; rw [h1] at hc; cases hc
            simp only [upd_ne _ _ this]; exact h1
        · cases List.mem_singleton.mp h
          exact .inr ⟨_, upd_self _ _ _, rfl⟩
    | tau t' =>
      unfold Conc.step at hs
      cases hc : c.calls t' with
      | none => simp only [hc, reduceCtorEq] at hs
      | some k1 =>
        simp only [hc] at hs
        cases hm : micro c k1 with
        | none => simp only [hm, reduceCtorEq] at hs
        | some r =>
          obtain ⟨k', mus, d⟩ := r
          simp only [hm, Option.some.injEq] at hs
          subst hs
          rcases ih h with h | ⟨k, h1, h2⟩
          · exact .inl h
          · by_cases e : t = t'
            · subst e
              rw [hc] at h1
              cases h1
              exact .inr ⟨k', upd_self _ _ _, (micro_id hm).1.trans h2⟩
            · exact .inr ⟨k, by simp only [upd_ne _ _ e]; exact h1, h2⟩
    | ret t' =>
      unfold Conc.step at hs
      cases hc : c.calls t' with
      | none => simp only [hc, reduceCtorEq] at hs
      | some k1 =>
        cases hp : k1.prog with
        | ret r =>
          simp only [hc, hp, Option.some.injEq] at hs
          subst hs
          rcases List.mem_append.mp h with h | h
          · rcases ih h with ⟨out, h⟩ | ⟨k, h1, h2⟩
            · exact .inl ⟨out, List.mem_append_left _ h⟩
            · by_cases e : t = t'
              · subst e
                rw [hc] at h1
                cases h1
                exact .inl ⟨r, by rw [← h2]; simp⟩
              · exact .inr ⟨k, by simp only [upd_ne _ _ e]; exact h1, h2⟩
          · cases List.mem_singleton.mp h
        | _ => simp only [hc, hp, reduceCtorEq] at hs

/-- If who waits for a mutex holds only such of lower rank, all calls return. -/
theorem all_return {prog : Op → Prog μ κ σ Out} {allowed : Op → Prop}
    (hdisc : ∀ m op, allowed op → Disc m (fun _ => False) True False (prog op) (.rd 0)) {s : σ} (rank : μ → Nat) (R : Nat)
    (hR : ∀ m, rank m < R)
    (hord : ∀ c t k, Reach prog allowed s c → c.calls t = some k → micro c k = none →
      ∀ m, AtLock k m → ∀ m', Holds k m' → rank m' < rank m)
    {f : Nat → Cfg μ κ σ Op Out} {acts : Nat → Option (Act Op)} (hf : FairExec prog allowed f acts)
    (hr : Reach prog allowed s (f 0)) : AllReturn f := by
  intro n i t op h
  rcases made (reach_fair hf hr n) h with ⟨out, h⟩ | ⟨k, h1, h2⟩
  · exact ⟨n, out, h⟩
  · obtain ⟨j, k', -, -, -, h3 | h3⟩ := returns_or_stays hf (next_acc k.prog) rfl h1
    · obtain ⟨r, -, h3⟩ := h3
      exact ⟨j + 1, r, h2 ▸ h3⟩
    · exact absurd h3 (nobody_stays hdisc rank R hR hord hf hr t k' j)

/-! ## One mutex -/

/-- Without nested read locks who waits for a mutex does not hold it. -/
theorem not_holds {m : μ} {prot : κ → Prop} {strict : Prop} {k : Call μ κ σ Op Out} {h : Hold} (hm : k.mine m = h.mu)
    (hd : Disc m prot strict True k.prog h) (ha : AtLock k m) : ¬ Holds k m := by
  obtain ⟨p, hp | hp | hp⟩ := ha
  · rw [hp] at hd
    simp only [Disc, if_true] at hd
    rw [Holds, hm, hd.1]
    rintro (e | e)
    · exact e rfl
    · cases e
  · rw [hp] at hd
    simp only [Disc, if_true] at hd
    obtain ⟨n, rfl, h0, -⟩ := hd
    rw [Holds, hm, h0 trivial]
    rintro (e | e)
    · exact e rfl
    · cases e
  · rw [hp] at hd
    simp only [Disc, if_true] at hd
    rw [Holds, hm, hd.1]
    rintro (e | e)
    · exact e rfl
    · cases e

/-- With a single mutex, if nobody nests read locks, all calls return. -/
theorem all_return_flat (m : μ) (honly : ∀ m', m' = m) {prot : κ → Prop} {prog : Op → Prog μ κ σ Out}
    {allowed : Op → Prop} (hdisc : ∀ op, allowed op → Disc m prot True True (prog op) (.rd 0)) {s : σ}
    {f : Nat → Cfg μ κ σ Op Out} {acts : Nat → Option (Act Op)} (hf : FairExec prog allowed f acts)
    (hr : Reach prog allowed s (f 0)) : AllReturn f := by
  refine all_return (fun m' op h => by
    rw [honly m']; exact (hdisc op h).mono (fun _ h => h.elim) id False.elim) (fun _ => 0) 1 (fun _ => Nat.one_pos) ?_ hf hr
  intro c t k hr hk _ m1 h1 m2 h2
  rw [honly m1] at h1
  rw [honly m2] at h2
  obtain ⟨h, e1, e2⟩ := (lockInv hdisc hr).disc t k hk
  exact absurd h2 (not_holds e1 e2 h1)

/-! ## Mutexes taken in order -/

/-- If every call takes `b` and at most one other mutex, always in the same order and without nested read locks, all
calls return. -/
theorem all_return_outer {b : μ} {outer : Op → μ} (hab : ∀ op, outer op ≠ b) {prog : Op → Prog μ κ σ Out}
    {allowed : Op → Prop} (hda : ∀ m op, allowed op → Disc m (fun _ => False) True True (prog op) (.rd 0))
    (hin : ∀ op, allowed op → Within (outer op) b (prog op))
    (hord : ∀ op, allowed op → Ordered (outer op) b (prog op) (.rd 0)) {s : σ}
    {f : Nat → Cfg μ κ σ Op Out} {acts : Nat → Option (Act Op)} (hf : FairExec prog allowed f acts)
    (hr : Reach prog allowed s (f 0)) : AllReturn f := by
  refine all_return (fun m op h => (hda m op h).mono (fun _ h => h) id False.elim) (fun m => if m = b then 1 else 0) 2
    (fun m => by split <;> omega) ?_ hf hr
  intro c t k hr hk _ m1 h1 m2 h2
  obtain ⟨h', e1', e2'⟩ := (lockInv (hda m1) hr).disc t k hk
  have hne : m2 ≠ m1 := by rintro rfl; exact not_holds e1' e2' h1 h2
  have ho := callInv (I := fun k => OrdCall (outer k.op) b k ∧ Within (outer k.op) b k.prog ∧
      ∀ m, m ≠ outer k.op → m ≠ b → k.mine m = .init) (prog := prog)
    (allowed := allowed) (fun n op h => ⟨⟨.rd 0, rfl, hda b op h, hord op h⟩, hin op h, fun _ _ _ => rfl⟩)
    (fun c k k' mus d hI hm => by
      obtain ⟨h1, h2, h3⟩ := hI.2.1.micro hm
      rw [h2]
      exact ⟨hI.1.micro (hab _) hm, h1, fun m ha hb => (h3 m ha hb).trans (hI.2.2 m ha hb)⟩) hr
  obtain ⟨⟨h, e1, -, e3⟩, e4, e5⟩ := ho t k hk
  have hor : m2 = outer k.op ∨ m2 = b := by
    apply Classical.byContradiction
    intro hn
    rw [not_or] at hn
    rw [Holds, e5 m2 hn.1 hn.2] at h2
    rcases h2 with e | e
    · exact e rfl
    · cases e
  have hw : (m1 = outer k.op ∨ m1 = b) ∧ (m1 = outer k.op → h = .rd 0) := by
    obtain ⟨p, hp | hp | hp⟩ := h1 <;>
    · rw [hp] at e3 e4
      exact ⟨e4.1, e3.1⟩
  rcases hw.1 with rfl | rfl
  · rcases hor with e | rfl
    · exact absurd e hne
    · rw [Holds, e1, hw.2 rfl] at h2
      rcases h2 with e | e
      · exact absurd rfl e
      · cases e
  · rw [if_neg hne, if_pos rfl]; exact Nat.one_pos

/-- Two mutexes taken in a fixed order. -/
theorem all_return_ordered {a b : μ} (hab : a ≠ b) (honly : ∀ m, m = a ∨ m = b) {prog : Op → Prog μ κ σ Out}
    {allowed : Op → Prop} (hda : ∀ op, allowed op → Disc a (fun _ => False) True True (prog op) (.rd 0))
    (hdb : ∀ op, allowed op → Disc b (fun _ => False) True True (prog op) (.rd 0))
    (hord : ∀ op, allowed op → Ordered a b (prog op) (.rd 0)) {s : σ}
    {f : Nat → Cfg μ κ σ Op Out} {acts : Nat → Option (Act Op)} (hf : FairExec prog allowed f acts)
    (hr : Reach prog allowed s (f 0)) : AllReturn f :=
  all_return_outer (outer := fun _ => a) (fun _ => hab)
    (fun m op h => (honly m).elim (fun e => e ▸ hda op h) (fun e => e ▸ hdb op h))
    (fun _ _ => within_all honly _) hord hf hr

/-! ## A mutex around another, and calls that look at what the inner one protects -/

/-- A call that only takes read locks of `b`, without nesting them. -/
def Peeks (a b : μ) (k : Call μ κ σ Op Out) : Prop :=
  Tame b k.prog ∧ k.mine a = .init ∧ ∃ h, k.mine b = h.mu ∧ h ≠ .wr ∧ h ≠ .ann ∧ Disc b (fun _ => False) True True k.prog h

theorem Peeks.micro {a b : μ} (hab : a ≠ b) {c : Cfg μ κ σ Op Out} {k k' : Call μ κ σ Op Out} {mus : μ → Mu} {d : σ}
    (h : Peeks a b k) (hm : micro c k = some (k', mus, d)) : Peeks a b k' := by
  obtain ⟨h1, h2, hd, h3, h4, h5, h6⟩ := h
  unfold Conc.micro at hm
  cases hp : k.prog with
  | ret r => simp only [hp, reduceCtorEq] at hm
  | lock m p => rw [hp] at h1; exact h1.elim
  | acquire m p => rw [hp] at h1; exact h1.elim
  | unlock m p => rw [hp] at h1; exact h1.elim
  | write l g p => rw [hp] at h1; exact h1.elim
  | rlock m p =>
    rw [hp] at h1 h6
    simp only [hp] at hm
    split at hm
    · cases hm
      obtain ⟨rfl, h1⟩ := h1
      simp only [Disc, if_true] at h6
      obtain ⟨n, rfl, h0, h6⟩ := h6
      refine ⟨h1, ?_, .rd (n + 1), ?_, nofun, nofun, h6⟩
      · simp only [upd_ne _ _ hab, h2]
      · simp only [upd_self, h3]; rfl
    · cases hm
  | runlock m p =>
    rw [hp] at h1 h6
    simp only [hp] at hm
    split at hm
    · cases hm
      obtain ⟨rfl, h1⟩ := h1
      simp only [Disc, if_true] at h6
      obtain ⟨n, rfl, h6⟩ := h6
      refine ⟨h1, ?_, .rd n, ?_, nofun, nofun, h6⟩
      · simp only [upd_ne _ _ hab, h2]
      · simp only [upd_self, h3]; rfl
    · cases hm
  | read l p =>
    rw [hp] at h1 h6
    simp only [hp, Option.some.injEq, Prod.mk.injEq] at hm
    obtain ⟨rfl, rfl, rfl⟩ := hm
    exact ⟨h1 _, h2, hd, h3, h4, h5, h6.2.2 _⟩

/-- If calls either run in a section of `a` as described in `TwoLocks` or only look at what `b` protects, all
return. -/
theorem all_return_two {a b : μ} (hab : a ≠ b) (honly : ∀ m, m = a ∨ m = b) {prog : Op → Prog μ κ σ Out}
    {allowed : Op → Prop} (hop : ∀ op, allowed op → Two a b (prog op) .pre (.rd 0) ∨
      (Tame b (prog op) ∧ Disc b (fun _ => False) True True (prog op) (.rd 0) ∧
        Disc a (fun _ => False) True True (prog op) (.rd 0))) {s : σ}
    {f : Nat → Cfg μ κ σ Op Out} {acts : Nat → Option (Act Op)} (hf : FairExec prog allowed f acts)
    (hr : Reach prog allowed s (f 0)) : AllReturn f := by
  have hda : ∀ op, allowed op → Disc a (fun _ => False) True True (prog op) (.rd 0) := fun op h =>
    (hop op h).elim (fun h => (h.outer hab).mono (fun _ h => h.elim) id id) (fun h => h.2.2)
  have hdb : ∀ op, allowed op → Disc b (fun _ => False) True False (prog op) (.rd 0) := fun op h =>
    (hop op h).elim (fun h => h.inner hab) (fun h => h.2.1.mono (fun _ h => h) id False.elim)
  refine all_return (fun m op h => (honly m).elim (fun e => e ▸ (hda op h).mono (fun _ h => h) id False.elim)
    (fun e => e ▸ hdb op h)) (fun m => if m = b then 1 else 0) 2 (fun m => by split <;> omega) ?_ hf hr
  intro c t k hr hk hmic m1 h1 m2 h2
  have ha := lockInv hda hr
  have hb := (lockInv hdb hr).count
  have hi := callInv (I := fun k => TwoInv a b k.prog k.mine ∨ Peeks a b k)
    (fun _ _ h => (hop _ h).imp (fun h => ⟨.pre, .rd 0, rfl, rfl, rfl, h⟩)
      (fun h => ⟨h.1, rfl, .rd 0, rfl, nofun, nofun, h.2.1⟩))
    (fun _ _ _ _ _ h hm => h.imp (fun h => h.micro hab hm) (fun h => h.micro hab hm)) hr
  -- who has the inner mutex for writing, or waits for it, has the outer one for writing
  have hwr : ∀ t', (mineOf b c t').wr ≠ .free → (mineOf a c t').wr = .held := by
    intro t' hw
    cases hk' : c.calls t' with
    | none => unfold mineOf at hw; rw [hk'] at hw; exact absurd rfl hw
    | some k' =>
      rw [mineOf_some hk'] at hw ⊢
      rcases hi t' k' hk' with ⟨ph, h, e1, e2, e3, -⟩ | ⟨-, -, h, e1, e2, e3, -⟩
      · rw [e1]
        rw [e2] at hw
        cases ph with
        | inW => rfl
        | inR => obtain ⟨n, rfl⟩ := e3; exact absurd rfl hw
        | pre => cases e3; exact absurd rfl hw
        | ann => cases e3; exact absurd rfl hw
        | post => cases e3; exact absurd rfl hw
      · rw [e1] at hw
        cases h with
        | rd n => exact absurd rfl hw
        | ann => exact absurd rfl e3
        | wr => exact absurd rfl e2
  -- so who is in the outer section finds the inner mutex free unless it has it itself
  have hbfree : (mineOf a c t).wr = .held ∨ (mineOf a c t).readers ≠ 0 → (mineOf b c t).wr = .free →
      (c.mus b).wr = .free := by
    intro hin hown
    apply Classical.byContradiction
    intro hne
    obtain ⟨t', ht', -⟩ := hb.one hne
    have hw := hwr t' (by rw [ht']; exact hne)
    by_cases e : t' = t
    · subst e; rw [hown] at ht'; exact hne ht'.symm
    · rcases hin with h | h
      · have := (ha.count.wr_eq (by decide) h).2 t' e
        rw [hw] at this; cases this
      · exact h (ha.count.excl hw t)
  have h1' := h1
  rcases honly m1 with rfl | rfl
  · -- at the outer mutex: nothing is held
    exfalso
    rcases honly m2 with rfl | rfl
    · obtain ⟨h, e1, e2⟩ := ha.disc t k hk
      exact not_holds e1 e2 h1 h2
    · rcases hi t k hk with ⟨ph, h, -, e2, -, e4⟩ | ⟨e1, -⟩
      · have : h = .rd 0 := by
          obtain ⟨p, hp | hp | hp⟩ := h1 <;>
          · rw [hp] at e4
            rcases e4 with ⟨-, -, h, -⟩ | ⟨e, -⟩
            · exact h
            · exact absurd e hab
        rw [Holds, e2, this] at h2
        rcases h2 with e | e
        · exact e rfl
        · cases e
      · obtain ⟨p, hp | hp | hp⟩ := h1
        · rw [hp] at e1; exact e1
        · rw [hp] at e1; exact hab e1.1
        · rw [hp] at e1; exact e1
  · rcases honly m2 with rfl | rfl
    · rw [if_neg hab, if_pos rfl]; exact Nat.one_pos
    · -- at the inner mutex while holding it: only nested read locks, which are not blocked
      exfalso
      rcases hi t k hk with ⟨ph, h, e1, e2, e3, e4⟩ | ⟨e1, -, h, e2, e3, e4, e5⟩
      · obtain ⟨p, hp | hp | hp⟩ := h1
        · rw [hp] at e4
          rcases e4 with ⟨e, -⟩ | ⟨-, -, rfl, -⟩
          · exact hab e.symm
          · rw [Holds, e2] at h2
            rcases h2 with e | e
            · exact e rfl
            · cases e
        · rw [hp] at e4
          rcases e4 with ⟨e, -⟩ | ⟨-, hph, n, rfl, -⟩
          · exact hab e.symm
          · have := hbfree (by
              rw [mineOf_some hk, e1]
              rcases hph with rfl | rfl
              · exact .inl rfl
              · exact .inr (Nat.succ_ne_zero 0)) (by rw [mineOf_some hk, e2]; rfl)
            simp only [micro, hp, this, if_true, reduceCtorEq] at hmic
        · rw [hp] at e4
          rcases e4 with ⟨e, -⟩ | ⟨-, -, rfl, -⟩
          · exact hab e.symm
          · rw [Holds, e2] at h2
            rcases h2 with e | e
            · exact e rfl
            · cases e
      · exact not_holds e2 e5 h1 h2

omit [DecidableEq μ] in
theorem Two.tag {a b : μ} {α β : Type} (g : α → β) {p : Prog μ κ σ α} : ∀ {ph : Phase} {h : Hold}, Two a b p ph h →
    Two a b (p.bind fun r => .ret (g r)) ph h := by
  induction p with
  | ret r => exact fun h => h
  | lock m k ih => exact fun h => h.imp (fun h => ⟨h.1, h.2.1, h.2.2.1, ih h.2.2.2⟩) (fun h => ⟨h.1, h.2.1, h.2.2.1, ih h.2.2.2⟩)
  | acquire m k ih =>
    exact fun h => h.imp (fun h => ⟨h.1, h.2.1, h.2.2.1, ih h.2.2.2⟩) (fun h => ⟨h.1, h.2.1, h.2.2.1, ih h.2.2.2⟩)
  | unlock m k ih =>
    exact fun h => h.imp (fun h => ⟨h.1, h.2.1, h.2.2.1, ih h.2.2.2⟩) (fun h => ⟨h.1, h.2.1, h.2.2.1, ih h.2.2.2⟩)
  | rlock m k ih =>
    exact fun h => h.imp (fun h => ⟨h.1, h.2.1, h.2.2.1, ih h.2.2.2⟩) (fun ⟨h1, h2, n, h3, h4⟩ => ⟨h1, h2, n, h3, ih h4⟩)
  | runlock m k ih =>
    exact fun h => h.imp (fun h => ⟨h.1, h.2.1, h.2.2.1, ih h.2.2.2⟩) (fun ⟨h1, h2, n, h3, h4⟩ => ⟨h1, h2, n, h3, ih h4⟩)
  | read l k ih => exact fun h => ⟨h.1, h.2.1, fun s => ih s (h.2.2 s)⟩
  | write l f k ih => exact fun h => ⟨h.1, h.2.1, fun s => ih s (h.2.2 s)⟩

omit [DecidableEq μ] in
theorem Tame.tag {b : μ} {α β : Type} (g : α → β) {p : Prog μ κ σ α} (h : Tame b p) :
    Tame b (p.bind fun r => .ret (g r)) := by
  induction p with
  | ret r => exact h
  | rlock m k ih => exact ⟨h.1, ih h.2⟩
  | runlock m k ih => exact ⟨h.1, ih h.2⟩
  | read l k ih => exact fun s => ih s (h s)
  | _ => exact h.elim

/-! ## Fair executions -/

/-- A schedule repeated for ever. -/
theorem loop_run {prog : Op → Prog μ κ σ Out} {P : Cfg μ κ σ Op Out → Prop} {as : List (Act Op)} (hne : 0 < as.length)
    (hP : ∀ c, P c → ∃ c', exec prog c as = some c' ∧ P c') {c₀ : Cfg μ κ σ Op Out} (h0 : P c₀) :
    ∃ f : Nat → Cfg μ κ σ Op Out, f 0 = c₀ ∧
      ∀ n, step prog (f n) (as[n % as.length]'(Nat.mod_lt _ hne)) = some (f (n + 1)) := by
  let f : Nat → Cfg μ κ σ Op Out := fun n => Nat.rec c₀ (fun n c =>
    (step prog c (as[n % as.length]'(Nat.mod_lt _ hne))).getD c) n
  have key : ∀ n, ∃ c', exec prog (f n) (as.drop (n % as.length)) = some c' ∧ P c' := by
    intro n
    induction n with
    | zero => rw [Nat.zero_mod, List.drop_zero]; exact hP c₀ h0
    | succ n ih =>
      obtain ⟨c', h1, h2⟩ := ih
      rw [List.drop_eq_getElem_cons (Nat.mod_lt n hne)] at h1
      simp only [exec] at h1
      cases hs : step prog (f n) (as[n % as.length]'(Nat.mod_lt _ hne)) with
      | none => simp only [hs, reduceCtorEq] at h1
      | some c1 =>
        simp only [hs] at h1
        have hf : f (n + 1) = c1 := by
          show (step prog (f n) _).getD _ = c1
          rw [hs]; rfl
        by_cases e : n % as.length + 1 = as.length
        · rw [e, List.drop_length] at h1
          simp only [exec, Option.some.injEq] at h1
          have : (n + 1) % as.length = 0 := by
            have := Nat.div_add_mod n as.length
            rw [show n + 1 = as.length * (n / as.length + 1) by rw [Nat.mul_succ]; omega, Nat.mul_mod_right]
          rw [this, List.drop_zero, hf, h1]
          exact hP c' h2
        · have : (n + 1) % as.length = n % as.length + 1 := by
            have := Nat.mod_lt n hne
            have hd := Nat.div_add_mod n as.length
            rw [show n + 1 = as.length * (n / as.length) + (n % as.length + 1) by omega, Nat.mul_add_mod,
              Nat.mod_eq_of_lt (by omega)]
          rw [this, hf]
          exact ⟨c', h1, h2⟩
  refine ⟨f, rfl, fun n => ?_⟩
  obtain ⟨c', h1, -⟩ := key n
  rw [List.drop_eq_getElem_cons (Nat.mod_lt n hne)] at h1
  simp only [exec] at h1
  cases hs : step prog (f n) (as[n % as.length]'(Nat.mod_lt _ hne)) with
  | none => simp only [hs, reduceCtorEq] at h1
  | some c1 =>
    show some c1 = some ((step prog (f n) _).getD _)
    rw [hs]; rfl

/-- Repeating a schedule in which everybody who does something makes a step in a call is fair. -/
theorem loop_fair {prog : Op → Prog μ κ σ Out} {allowed : Op → Prop} {P : Cfg μ κ σ Op Out → Prop} {as : List (Act Op)}
    (hne : 0 < as.length) (hP : ∀ c, P c → ∃ c', exec prog c as = some c' ∧ P c')
    (hal : ∀ a ∈ as, ∀ t op, a = .call t op → allowed op) (ht : ∀ t op, Act.call t op ∈ as → Act.tau t ∈ as)
    {c₀ : Cfg μ κ σ Op Out} (h0 : P c₀) (hc : ∀ t, c₀.calls t = none) :
    ∃ f : Nat → Cfg μ κ σ Op Out, f 0 = c₀ ∧ FairExec prog allowed f (fun n => as[n % as.length]?) := by
  obtain ⟨f, hf, hs⟩ := loop_run hne hP h0
  refine ⟨f, hf, ?_⟩
  have hget : ∀ n, as[n % as.length]? = some (as[n % as.length]'(Nat.mod_lt _ hne)) := fun n =>
    List.getElem?_eq_getElem (Nat.mod_lt _ hne)
  -- who makes calls goes on again and again
  have hgo : ∀ t n, (∃ op, Act.call t op ∈ as) → ∃ m, n ≤ m ∧ Goes t (as[m % as.length]?) := by
    rintro t n ⟨op, h⟩
    obtain ⟨i, hi, he⟩ := List.getElem_of_mem (ht t op h)
    refine ⟨as.length * n + i, ?_, .inl ?_⟩
    · exact Nat.le_trans (Nat.le_mul_of_pos_left n hne) (Nat.le_add_right _ _)
    · rw [Nat.mul_add_mod, Nat.mod_eq_of_lt hi, List.getElem?_eq_getElem hi, he]
  -- nobody else is ever in a call
  have hno : ∀ t, (¬ ∃ op, Act.call t op ∈ as) → ∀ n, (f n).calls t = none := by
    intro t h n
    induction n with
    | zero => rw [hf]; exact hc t
    | succ n ih =>
      have hst := hs n
      have hmem := List.getElem_mem (Nat.mod_lt n hne)
      cases ha : as[n % as.length]'(Nat.mod_lt _ hne) with
      | call t' op =>
        rw [ha] at hst hmem
        have e : t ≠ t' := by rintro rfl; exact h ⟨op, hmem⟩
        unfold Conc.step at hst
        cases hk : (f n).calls t' with
        | some k => simp only [hk, reduceCtorEq] at hst
        | none =>
          simp only [hk, Option.some.injEq] at hst
          rw [← hst]; simp only [upd_ne _ _ e]; exact ih
      | tau t' =>
        rw [ha] at hst
        unfold Conc.step at hst
        cases hk : (f n).calls t' with
        | none => simp only [hk, reduceCtorEq] at hst
        | some k =>
          simp only [hk] at hst
          have e : t ≠ t' := by rintro rfl; rw [ih] at hk; cases hk
          cases hm : micro (f n) k with
          | none => simp only [hm, reduceCtorEq] at hst
          | some r =>
            obtain ⟨k', mus, d⟩ := r
            simp only [hm, Option.some.injEq] at hst
            rw [← hst]; simp only [upd_ne _ _ e]; exact ih
      | ret t' =>
        rw [ha] at hst
        unfold Conc.step at hst
        cases hk : (f n).calls t' with
        | none => simp only [hk, reduceCtorEq] at hst
        | some k =>
          have e : t ≠ t' := by rintro rfl; rw [ih] at hk; cases hk
          cases hp : k.prog with
          | ret r =>
            simp only [hk, hp, Option.some.injEq] at hst
            rw [← hst]; simp only [upd_ne _ _ e]; exact ih
          | _ => simp only [hk, hp, reduceCtorEq] at hst
  have hidle : ∀ t n, (¬ ∃ op, Act.call t op ∈ as) → ¬ CanGo prog (f n) t := by
    intro t n h
    have := hno t h n
    rintro (e | e) <;> simp only [Conc.step, this, Option.isSome_none, Bool.false_eq_true] at e
  refine ⟨fun n h => ?_, fun n a h => ?_, fun t n h => ?_, fun t n h => ?_⟩
  · rw [hget] at h; cases h
  · rw [hget] at h
    cases h
    exact ⟨hal _ (List.getElem_mem _), hs n⟩
  · by_cases e : ∃ op, Act.call t op ∈ as
    · exact hgo t n e
    · exact absurd (h n (Nat.le_refl _)) (hidle t n e)
  · by_cases e : ∃ op, Act.call t op ∈ as
    · exact hgo t n e
    · obtain ⟨-, k, -, h⟩ := h n (Nat.le_refl _)
      exact absurd h (hidle t k e)

end Netscrape.Conc
