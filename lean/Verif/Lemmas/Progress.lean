import Verif.Lemmas.Conc

/-!
# Deadlock freedom and termination
-/

namespace Netscrape.Conc
open Netscrape.Spec

variable {μ κ σ ρ Op Out : Type}

/-! ## Programs are finite -/

/-- One micro-step of a program, whatever the shared state is. -/
inductive Next : Prog μ κ σ ρ → Prog μ κ σ ρ → Prop
  | lock (m : μ) (k : Prog μ κ σ ρ) : Next (.acquire m k) (.lock m k)
  | acquire (m : μ) (k : Prog μ κ σ ρ) : Next k (.acquire m k)
  | unlock (m : μ) (k : Prog μ κ σ ρ) : Next k (.unlock m k)
  | rlock (m : μ) (k : Prog μ κ σ ρ) : Next k (.rlock m k)
  | runlock (m : μ) (k : Prog μ κ σ ρ) : Next k (.runlock m k)
  | read (l : κ) (k : σ → Prog μ κ σ ρ) (s : σ) : Next (k s) (.read l k)
  | write (l : κ) (f : σ → σ) (k : σ → Prog μ κ σ ρ) (s : σ) : Next (k s) (.write l f k)

theorem next_acc (p : Prog μ κ σ ρ) : Acc Next p := by
  induction p with
  | ret r => exact ⟨_, fun q h => by cases h⟩
  | lock m k ih =>
    exact ⟨_, fun q h => by cases h; exact ⟨_, fun q h => by cases h; exact ih⟩⟩
  | acquire m k ih => exact ⟨_, fun q h => by cases h; exact ih⟩
  | unlock m k ih => exact ⟨_, fun q h => by cases h; exact ih⟩
  | rlock m k ih => exact ⟨_, fun q h => by cases h; exact ih⟩
  | runlock m k ih => exact ⟨_, fun q h => by cases h; exact ih⟩
  | read l k ih => exact ⟨_, fun q h => by cases h; exact ih _⟩
  | write l f k ih => exact ⟨_, fun q h => by cases h; exact ih _⟩

/-- One goroutine's program makes a step, or its call returns. -/
inductive NextO : Option (Prog μ κ σ ρ) → Option (Prog μ κ σ ρ) → Prop
  | step (p q : Prog μ κ σ ρ) : Next q p → NextO (some q) (some p)
  | ret (p : Prog μ κ σ ρ) : NextO none (some p)

theorem nextO_acc (p : Option (Prog μ κ σ ρ)) : Acc NextO p := by
  have hn : Acc NextO (none : Option (Prog μ κ σ ρ)) := ⟨_, fun q h => by cases h⟩
  cases p with
  | none => exact hn
  | some p =>
    induction next_acc p with
    | intro p _ ih =>
      refine ⟨_, fun q h => ?_⟩
      cases h with
      | step _ q hq => exact ih q hq
      | ret => exact hn

/-- Some goroutine's program makes a step, or its call returns. -/
def NextG (g' g : Nat → Option (Prog μ κ σ ρ)) : Prop := ∃ t p', NextO p' (g t) ∧ g' = upd g t p'

private theorem nextG_pair (t : Nat) {a : Option (Prog μ κ σ ρ)} (ha : Acc NextO a) :
    ∀ r : Nat → Option (Prog μ κ σ ρ), Acc NextG r → ∀ g, g t = a → upd g t none = r → Acc NextG g := by
  induction ha with
  | intro a _ iha =>
    intro r hr
    induction hr with
    | intro r hacc ihr =>
      intro g hg hu
      refine ⟨_, ?_⟩
      rintro g' ⟨t', p', hp, rfl⟩
      by_cases e : t' = t
      · subst e
        rw [hg] at hp
        exact iha p' hp r ⟨_, hacc⟩ _ (upd_self _ _ _) (by rw [upd_upd]; exact hu)
      · refine ihr (upd (upd g t none) t' p') ⟨t', p', ?_, by rw [hu]⟩ _
          (by rw [upd_ne _ _ (Ne.symm e)]; exact hg) ?_
        · rw [← hu, upd_ne _ _ e]; exact hp
        · funext x
          unfold upd
          by_cases h1 : x = t <;> by_cases h2 : x = t' <;> simp only [h1, h2, if_true, if_false]
          · exact absurd (h2.symm.trans h1) e
          · rw [if_neg (by rw [← h1]; exact h2)]
          · rw [if_neg (by rw [← h2]; exact h1)]

theorem nextG_acc (ts : List Nat) :
    ∀ g : Nat → Option (Prog μ κ σ ρ), (∀ t, t ∉ ts → g t = none) → Acc NextG g := by
  induction ts with
  | nil =>
    intro g hg
    refine ⟨_, ?_⟩
    rintro g' ⟨t, p', hp, _⟩
    rw [hg t (by simp)] at hp
    cases hp
  | cons t ts ih =>
    intro g hg
    refine nextG_pair t (nextO_acc (g t)) (upd g t none) (ih _ ?_) g rfl rfl
    intro t' ht'
    by_cases e : t' = t
    · subst e; exact upd_self _ _ _
    · rw [upd_ne _ _ e]
      exact hg t' (by simp [e, ht'])

theorem no_chain {α : Type} {r : α → α → Prop} {a : α} (h : Acc r a) :
    ∀ f : Nat → α, f 0 = a → ¬ ∀ n, r (f (n + 1)) (f n) := by
  induction h with
  | intro a _ ih =>
    intro f h0 hf
    exact ih (f 1) (h0 ▸ hf 0) (fun n => f (n + 1)) rfl (fun n => hf (n + 1))

variable [DecidableEq μ]

theorem micro_next {c : Cfg μ κ σ Op Out} {k k' : Call μ κ σ Op Out} {mus : μ → Mu} {d : σ}
    (h : micro c k = some (k', mus, d)) : Next k'.prog k.prog := by
  unfold micro at h
  cases hp : k.prog <;> simp only [hp] at h
  case ret => cases h
  case read => cases h; exact .read _ _ _
  case write => cases h; exact .write _ _ _ _
  all_goals
    split at h
    · cases h; constructor
    · cases h

/-- The programs of the calls in progress. -/
def progs (c : Cfg μ κ σ Op Out) (t : Nat) : Option (Prog μ κ σ Out) := (c.calls t).map (·.prog)

omit [DecidableEq μ] in
theorem map_upd {α β : Type} (f : α → β) (g : Nat → Option α) (t : Nat) (a : Option α) :
    (fun x => (upd g t a x).map f) = upd (fun x => (g x).map f) t (a.map f) := by
  funext x
  unfold upd
  split <;> rfl

theorem step_nextG {prog : Op → Prog μ κ σ Out} {c c' : Cfg μ κ σ Op Out} {a : Act Op}
    (ha : Inner a) (h : step prog c a = some c') : NextG (progs c') (progs c) := by
  cases a with
  | call t op => exact absurd ha id
  | tau t =>
    unfold Conc.step at h
    cases hc : c.calls t with
    | none => simp only [hc, reduceCtorEq] at h
    | some k =>
      simp only [hc] at h
      cases hm : Conc.micro c k with
      | none => simp only [hm, reduceCtorEq] at h
      | some r =>
        obtain ⟨k', mus, d⟩ := r
        simp only [hm, Option.some.injEq] at h
        subst h
        refine ⟨t, some k'.prog, ?_, map_upd _ _ _ _⟩
        simp only [progs, hc, Option.map_some]
        exact .step _ _ (micro_next hm)
  | ret t =>
    unfold Conc.step at h
    cases hc : c.calls t with
    | none => simp only [hc, reduceCtorEq] at h
    | some k =>
      cases hp : k.prog with
      | ret r =>
        simp only [hc, hp, Option.some.injEq] at h
        subst h
        refine ⟨t, none, ?_, map_upd _ _ _ _⟩
        simp only [progs, hc, Option.map_some]
        exact .ret _
      | _ => simp only [hc, hp, reduceCtorEq] at h

/-- Only finitely many calls are in progress. -/
theorem finite_calls {prog : Op → Prog μ κ σ Out} {allowed : Op → Prop} {s : σ}
    {c : Cfg μ κ σ Op Out} (hr : Reach prog allowed s c) :
    ∃ ts : List Nat, ∀ t, t ∉ ts → c.calls t = none := by
  induction hr with
  | init => exact ⟨[], fun _ _ => rfl⟩
  | step c c' a _ _ hst ih =>
    obtain ⟨ts, ih⟩ := ih
    have key : ∀ t v, (c'.calls = upd c.calls t v) → ∃ ts : List Nat, ∀ t, t ∉ ts → c'.calls t = none := by
      intro t v e
      refine ⟨t :: ts, fun t' ht' => ?_⟩
      rw [List.mem_cons, not_or] at ht'
      rw [e, upd_ne _ _ ht'.1]
      exact ih t' ht'.2
    cases a with
    | call t op =>
      unfold Conc.step at hst
      cases hc : c.calls t with
      | some k => simp only [hc, reduceCtorEq] at hst
      | none =>
        simp only [hc, Option.some.injEq] at hst
        subst hst
        exact key t _ rfl
    | tau t =>
      unfold Conc.step at hst
      cases hc : c.calls t with
      | none => simp only [hc, reduceCtorEq] at hst
      | some k =>
        simp only [hc] at hst
        cases hm : Conc.micro c k with
        | none => simp only [hm, reduceCtorEq] at hst
        | some r =>
          obtain ⟨k', mus, d⟩ := r
          simp only [hm, Option.some.injEq] at hst
          subst hst
          exact key t _ rfl
    | ret t =>
      unfold Conc.step at hst
      cases hc : c.calls t with
      | none => simp only [hc, reduceCtorEq] at hst
      | some k =>
        cases hp : k.prog with
        | ret r =>
          simp only [hc, hp, Option.some.injEq] at hst
          subst hst
          exact key t _ rfl
        | _ => simp only [hc, hp, reduceCtorEq] at hst

theorem reach_exec {prog : Op → Prog μ κ σ Out} {allowed : Op → Prop} {s : σ} (as : List (Act Op)) :
    ∀ {c c' : Cfg μ κ σ Op Out}, Reach prog allowed s c →
    (∀ a ∈ as, ∀ t op, a = .call t op → allowed op) → exec prog c as = some c' →
    Reach prog allowed s c' := by
  induction as with
  | nil =>
    intro c c' h _ he
    simp only [exec, Option.some.injEq] at he
    exact he ▸ h
  | cons a as ih =>
    intro c c' h ha he
    simp only [exec] at he
    cases hs : step prog c a with
    | none => simp only [hs, reduceCtorEq] at he
    | some c1 =>
      simp only [hs] at he
      exact ih (.step c c1 a h (ha a (by simp)) hs) (fun b hb => ha b (by simp [hb])) he

/-- Without reachable deadlocks, calls run to completion. -/
theorem completes {prog : Op → Prog μ κ σ Out} {allowed : Op → Prop} {s : σ}
    (hd : ∀ c : Cfg μ κ σ Op Out, Reach prog allowed s c → ¬ Deadlock prog c)
    {c : Cfg μ κ σ Op Out} (hr : Reach prog allowed s c) : Completes prog c := by
  constructor
  · rintro ⟨f, h0, hf⟩
    obtain ⟨ts, hts⟩ := finite_calls hr
    have hacc : Acc NextG (progs c) := nextG_acc ts _ (fun t ht => by simp only [progs, hts t ht]; rfl)
    refine no_chain hacc (fun n => progs (f n)) (by rw [h0]) (fun n => ?_)
    obtain ⟨a, ha, hs⟩ := hf n
    exact step_nextG ha hs
  · intro as c' has he hstop t
    cases hc : c'.calls t with
    | none => rfl
    | some k =>
      have hr' : Reach prog allowed s c' := reach_exec as hr
        (fun a ha t op e => by subst e; exact absurd (has _ ha) id) he
      exact absurd ⟨⟨t, k, hc⟩, fun t => ⟨hstop (.tau t) trivial, hstop (.ret t) trivial⟩⟩ (hd c' hr')

/-! ## Single mutex -/

theorem tau_isSome {prog : Op → Prog μ κ σ Out} {c : Cfg μ κ σ Op Out} {t : Nat}
    {k : Call μ κ σ Op Out} (hk : c.calls t = some k) (h : step prog c (.tau t) = none) :
    micro c k = none := by
  unfold Conc.step at h
  simp only [hk] at h
  cases hm : Conc.micro c k with
  | none => rfl
  | some r => simp only [hm, reduceCtorEq] at h

/-- With a single mutex and no leaked read locks, in every deadlock somebody who has a read lock is waiting
for another one. -/
theorem deadlock_nested (m : μ) (honly : ∀ m', m' = m) {prot : κ → Prop} {flat : Prop}
    {prog : Op → Prog μ κ σ Out} {allowed : Op → Prop}
    (hdisc : ∀ op, allowed op → Disc m prot True flat (prog op) (.rd 0)) {s : σ}
    {c : Cfg μ κ σ Op Out} (hr : Reach prog allowed s c) (hdl : Deadlock prog c) :
    ∃ t k n p, c.calls t = some k ∧ k.mine m = ⟨n + 1, .free⟩ ∧ k.prog = .rlock m p := by
  apply Classical.byContradiction
  intro hnest
  obtain ⟨⟨t0, k0, hk0⟩, hstuck⟩ := hdl
  have hi := lockInv hdisc hr
  have hmic : ∀ t k, c.calls t = some k → micro c k = none := fun t k hk =>
    tau_isSome hk (hstuck t).1
  -- a holder can always step
  have hwr : ∀ t k, c.calls t = some k → (k.mine m).wr ≠ .held := by
    intro t k hk hh
    obtain ⟨h, hm, hd⟩ := hi.disc t k hk
    have hM := (hi.count.wr_eq (by decide) ((congrArg Mu.wr (mineOf_some hk)).trans hh)).1
    have hs := hmic t k hk
    cases h with
    | rd n => rw [hm] at hh; cases hh
    | ann => rw [hm] at hh; cases hh
    | wr =>
      unfold micro at hs
      cases hp : k.prog with
      | ret r => rw [hp] at hd; obtain ⟨n, e, _⟩ := hd; cases e
      | lock m' p => rw [hp] at hd; simp only [Disc, if_pos (honly m'), reduceCtorEq, false_and] at hd
      | acquire m' p => rw [hp] at hd; simp only [Disc, if_pos (honly m'), reduceCtorEq, false_and] at hd
      | unlock m' p => simp only [hp, honly m', hM, if_true, reduceCtorEq] at hs
      | rlock m' p =>
        rw [hp] at hd; simp only [Disc, if_pos (honly m')] at hd; obtain ⟨n, e, _⟩ := hd; cases e
      | runlock m' p =>
        rw [hp] at hd; simp only [Disc, if_pos (honly m')] at hd; obtain ⟨n, e, _⟩ := hd; cases e
      | read l p => simp only [hp, reduceCtorEq] at hs
      | write l f p => simp only [hp, reduceCtorEq] at hs
  have hrd : ∀ t k, c.calls t = some k → (k.mine m).readers = 0 := by
    intro t k hk
    obtain ⟨h, hm, hd⟩ := hi.disc t k hk
    have hs := hmic t k hk
    cases h with
    | ann => rw [hm]; rfl
    | wr => rw [hm]; rfl
    | rd n =>
      cases n with
      | zero => rw [hm]; rfl
      | succ n =>
        exfalso
        have hM : (c.mus m).readers ≠ 0 := hi.count.readers_ne (t := t) (by
          rw [mineOf_some hk, hm]; exact Nat.succ_ne_zero n)
        unfold micro at hs
        cases hp : k.prog with
        | ret r => rw [hp] at hd; obtain ⟨n', e, h0⟩ := hd; cases e; cases h0 trivial
        | lock m' p => rw [hp] at hd; simp [Disc, if_pos (honly m')] at hd
        | acquire m' p => rw [hp] at hd; simp only [Disc, if_pos (honly m'), reduceCtorEq, false_and] at hd
        | unlock m' p => rw [hp] at hd; simp only [Disc, if_pos (honly m'), reduceCtorEq, false_and] at hd
        | rlock m' p =>
          exact hnest ⟨t, k, n, p, hk, hm, by rw [hp, honly m']⟩
        | runlock m' p =>
          have hM' : (c.mus m').readers ≠ 0 := by rw [honly m']; exact hM
          simp only [hp, ne_eq, hM', not_false_eq_true, if_true, reduceCtorEq] at hs
        | read l p => simp only [hp, reduceCtorEq] at hs
        | write l f p => simp only [hp, reduceCtorEq] at hs
  have hM0 : (c.mus m).readers = 0 := by
    apply Classical.byContradiction
    intro h0
    obtain ⟨t, ht⟩ := hi.count.exists_reader trivial h0
    unfold mineOf at ht
    cases hc : c.calls t with
    | none => simp only [hc] at ht; exact ht rfl
    | some k => simp only [hc] at ht; exact ht (hrd t k hc)
  have hann : ∀ t k, c.calls t = some k → (k.mine m).wr ≠ .announced := by
    intro t k hk hh
    obtain ⟨h, hm, hd⟩ := hi.disc t k hk
    have hs := hmic t k hk
    cases h with
    | rd n => rw [hm] at hh; cases hh
    | wr => rw [hm] at hh; cases hh
    | ann =>
      unfold micro at hs
      cases hp : k.prog with
      | ret r => rw [hp] at hd; obtain ⟨n, e, _⟩ := hd; cases e
      | lock m' p => rw [hp] at hd; simp only [Disc, if_pos (honly m'), reduceCtorEq, false_and] at hd
      | acquire m' p =>
        simp only [hp, honly m', hM0, if_true, reduceCtorEq] at hs
      | unlock m' p => rw [hp] at hd; simp only [Disc, if_pos (honly m'), reduceCtorEq, false_and] at hd
      | rlock m' p =>
        rw [hp] at hd; simp only [Disc, if_pos (honly m')] at hd; obtain ⟨n, e, _⟩ := hd; cases e
      | runlock m' p =>
        rw [hp] at hd; simp only [Disc, if_pos (honly m')] at hd; obtain ⟨n, e, _⟩ := hd; cases e
      | read l p => rw [hp] at hd; exact absurd rfl hd.1
      | write l f p => rw [hp] at hd; exact absurd rfl hd.1
  have hfree : (c.mus m).wr = .free := by
    apply Classical.byContradiction
    intro hf
    obtain ⟨t, ht, _⟩ := hi.count.one hf
    unfold mineOf at ht
    cases hc : c.calls t with
    | none => simp only [hc] at ht; exact hf ht.symm
    | some k =>
      simp only [hc] at ht
      cases hw : (c.mus m).wr with
      | free => exact hf hw
      | announced => exact hann t k hc (ht.trans hw)
      | held => exact hwr t k hc (ht.trans hw)
  -- so the first call can step
  have hs := hmic t0 k0 hk0
  obtain ⟨h, hm, hd⟩ := hi.disc t0 k0 hk0
  unfold micro at hs
  cases hp : k0.prog with
  | ret r =>
    have := (hstuck t0).2
    unfold Conc.step at this
    simp only [hk0, hp, reduceCtorEq] at this
  | lock m' p => simp only [hp, honly m', hfree, if_true, reduceCtorEq] at hs
  | acquire m' p => simp only [hp, honly m', hM0, if_true, reduceCtorEq] at hs
  | unlock m' p =>
    rw [hp] at hd; simp only [Disc, if_pos (honly m')] at hd
    obtain ⟨rfl, _⟩ := hd
    exact hwr t0 k0 hk0 (by rw [hm]; rfl)
  | rlock m' p => simp only [hp, honly m', hfree, if_true, reduceCtorEq] at hs
  | runlock m' p =>
    rw [hp] at hd; simp only [Disc, if_pos (honly m')] at hd
    obtain ⟨n, rfl, _⟩ := hd
    have := hrd t0 k0 hk0
    rw [hm] at this
    cases this
  | read l p => simp only [hp, reduceCtorEq] at hs
  | write l f p => simp only [hp, reduceCtorEq] at hs

/-- With a single mutex, programs that follow the strict discipline do not deadlock. -/
theorem no_deadlock (m : μ) (honly : ∀ m', m' = m) {prot : κ → Prop} {prog : Op → Prog μ κ σ Out}
    {allowed : Op → Prop} (hdisc : ∀ op, allowed op → Disc m prot True True (prog op) (.rd 0)) {s : σ}
    {c : Cfg μ κ σ Op Out} (hr : Reach prog allowed s c) : ¬ Deadlock prog c := by
  intro hdl
  obtain ⟨t, k, n, p, hk, hm, hp⟩ := deadlock_nested m honly hdisc hr hdl
  obtain ⟨h, hm', hd⟩ := (lockInv hdisc hr).disc t k hk
  rw [hp] at hd
  simp only [Disc, if_true] at hd
  obtain ⟨n', rfl, h0, -⟩ := hd
  rw [hm', h0 trivial] at hm
  cases hm

end Netscrape.Conc
