import Verif.Spec.Linearizable

/-!
# Lock bookkeeping

`CountInv` relates the state of a mutex to what the calls in progress have added to it. `Disc` is a
syntactic locking discipline; programs that follow it do not race (and, if strict, do not deadlock).
-/

namespace Netscrape.Conc
open Netscrape.Spec

section upd
variable {α β : Type} [DecidableEq α]

@[simp] theorem upd_self (f : α → β) (a : α) (b : β) : upd f a b a = b := if_pos rfl

theorem upd_ne (f : α → β) {a x : α} (b : β) (h : x ≠ a) : upd f a b x = f x := if_neg h

theorem upd_id (f : α → β) (a : α) : upd f a (f a) = f := by
  funext x
  unfold upd
  split
  · next h => rw [h]
  · rfl

theorem upd_upd (f : α → β) (a : α) (b b' : β) : upd (upd f a b) a b' = upd f a b' := by
  funext x
  unfold upd
  split <;> rfl

end upd

/-! ## Counting -/

/-- The state `M` of a mutex is accounted for by what each goroutine `t` has added, `f t`. With
`strict`, nothing else has been added (no leaked read locks). -/
structure CountInv (strict : Prop) (M : Mu) (f : Nat → Mu) : Prop where
  readers : ∃ rs : List Nat, rs.length = M.readers ∧ (∀ t, (f t).readers ≤ rs.count t) ∧
    (strict → ∀ t, (f t).readers = rs.count t)
  free : M.wr = .free → ∀ t, (f t).wr = .free
  one : M.wr ≠ .free → ∃ t, (f t).wr = M.wr ∧ ∀ t', t' ≠ t → (f t').wr = .free
  held : M.wr = .held → M.readers = 0

namespace CountInv
variable {strict : Prop} {M : Mu} {f : Nat → Mu}

theorem init : CountInv strict Mu.init (fun _ => Mu.init) :=
  ⟨⟨[], rfl, fun _ => Nat.le_refl _, fun _ _ => rfl⟩, fun _ _ => rfl, fun h => absurd rfl h, fun _ => rfl⟩

/-- The mutex is in the state the one goroutine that is not `free` put it in. -/
theorem wr_eq (h : CountInv strict M f) {t : Nat} {w : Wr} (hw : w ≠ .free) (ht : (f t).wr = w) :
    M.wr = w ∧ ∀ t', t' ≠ t → (f t').wr = .free := by
  have hM : M.wr ≠ .free := fun hf => hw (ht ▸ h.free hf t)
  obtain ⟨t0, h0, hr⟩ := h.one hM
  by_cases e : t = t0
  · subst e
    exact ⟨h0 ▸ ht, hr⟩
  · exact absurd (ht ▸ hr t e) hw

/-- A goroutine that is in for reading is counted. -/
theorem readers_ne (h : CountInv strict M f) {t : Nat} (ht : (f t).readers ≠ 0) : M.readers ≠ 0 := by
  obtain ⟨rs, hl, hc, _⟩ := h.readers
  intro h0
  rw [h0] at hl
  have := hc t
  rw [List.length_eq_zero_iff.mp hl] at this
  exact ht (Nat.le_zero.mp this)

/-- Somebody is in for reading if the mutex says so (and nobody leaked a lock). -/
theorem exists_reader (h : CountInv strict M f) (hs : strict) (h0 : M.readers ≠ 0) :
    ∃ t, (f t).readers ≠ 0 := by
  obtain ⟨rs, hl, _, he⟩ := h.readers
  cases rs with
  | nil => exact absurd hl.symm h0
  | cons t rs =>
    refine ⟨t, ?_⟩
    rw [he hs t, List.count_cons_self]
    exact Nat.succ_ne_zero _

/-- A holder excludes readers. -/
theorem excl (h : CountInv strict M f) {t : Nat} (ht : (f t).wr = .held) (t' : Nat) :
    (f t').readers = 0 := by
  have := h.held (h.wr_eq (by decide) ht).1
  by_cases h0 : (f t').readers = 0
  · exact h0
  · exact absurd this (h.readers_ne h0)

theorem setWr (h : CountInv strict M f) (t : Nat) (w : Wr)
    (hoth : ∀ t', t' ≠ t → (f t').wr = .free) (hh : w = .held → M.readers = 0) :
    CountInv strict { M with wr := w } (upd f t { f t with wr := w }) := by
  constructor
  · obtain ⟨rs, hl, hc, he⟩ := h.readers
    have hr : ∀ t', (upd f t { f t with wr := w } t').readers = (f t').readers := by
      intro t'
      by_cases e : t' = t
      · subst e; rw [upd_self]
      · rw [upd_ne _ _ e]
    exact ⟨rs, hl, fun t' => hr t' ▸ hc t', fun hs t' => hr t' ▸ he hs t'⟩
  · intro hf t'
    by_cases e : t' = t
    · subst e; rw [upd_self]; exact hf
    · rw [upd_ne _ _ e]; exact hoth t' e
  · intro _
    refine ⟨t, by rw [upd_self], fun t' e => ?_⟩
    rw [upd_ne _ _ e]
    exact hoth t' e
  · exact hh

theorem announce (h : CountInv strict M f) (t : Nat) (hM : M.wr = .free) :
    CountInv strict { M with wr := .announced } (upd f t { f t with wr := .announced }) :=
  h.setWr t _ (fun t' _ => h.free hM t') (fun e => by cases e)

theorem acquire (h : CountInv strict M f) (t : Nat) (ht : (f t).wr = .announced)
    (hr : M.readers = 0) :
    CountInv strict { M with wr := .held } (upd f t { f t with wr := .held }) :=
  h.setWr t _ (h.wr_eq (by decide) ht).2 (fun _ => hr)

theorem unlock (h : CountInv strict M f) (t : Nat) (ht : (f t).wr = .held) :
    CountInv strict { M with wr := .free } (upd f t { f t with wr := .free }) :=
  h.setWr t _ (h.wr_eq (by decide) ht).2 (fun e => by cases e)

private theorem wr_upd_readers (f : Nat → Mu) (t n t' : Nat) :
    (upd f t { f t with readers := n } t').wr = (f t').wr := by
  by_cases e : t' = t
  · subst e; rw [upd_self]
  · rw [upd_ne _ _ e]

theorem rlock (h : CountInv strict M f) (t : Nat) (hM : M.wr = .free) :
    CountInv strict { M with readers := M.readers + 1 }
      (upd f t { f t with readers := (f t).readers + 1 }) := by
  constructor
  · obtain ⟨rs, hl, hc, he⟩ := h.readers
    refine ⟨t :: rs, by simp [hl], fun t' => ?_, fun hs t' => ?_⟩
    · by_cases e : t' = t
      · subst e
        rw [upd_self, List.count_cons_self]
        exact Nat.succ_le_succ (hc t')
      · rw [upd_ne _ _ e, List.count_cons_of_ne (Ne.symm e)]
        exact hc t'
    · by_cases e : t' = t
      · subst e
        rw [upd_self, List.count_cons_self]
        exact congrArg (· + 1) (he hs t')
      · rw [upd_ne _ _ e, List.count_cons_of_ne (Ne.symm e)]
        exact he hs t'
  · intro hf t'
    rw [wr_upd_readers]
    exact h.free hf t'
  · intro hf
    exact absurd hM hf
  · intro hf
    exact absurd (hM.symm.trans hf) (by decide)

theorem runlock (h : CountInv strict M f) (t : Nat) (ht : (f t).readers ≠ 0) :
    CountInv strict { M with readers := M.readers - 1 }
      (upd f t { f t with readers := (f t).readers - 1 }) := by
  constructor
  · obtain ⟨rs, hl, hc, he⟩ := h.readers
    have hmem : t ∈ rs := by
      apply List.count_pos_iff.mp
      exact Nat.lt_of_lt_of_le (Nat.pos_of_ne_zero ht) (hc t)
    refine ⟨rs.erase t, by rw [List.length_erase_of_mem hmem, hl], fun t' => ?_, fun hs t' => ?_⟩
    · by_cases e : t' = t
      · subst e
        rw [upd_self, List.count_erase_self]
        exact Nat.sub_le_sub_right (hc t') 1
      · rw [upd_ne _ _ e, List.count_erase_of_ne e]
        exact hc t'
    · by_cases e : t' = t
      · subst e
        rw [upd_self, List.count_erase_self]
        exact congrArg (· - 1) (he hs t')
      · rw [upd_ne _ _ e, List.count_erase_of_ne e]
        exact he hs t'
  · intro hf t'
    rw [wr_upd_readers]
    exact h.free hf t'
  · intro hf
    obtain ⟨t0, h0, hr⟩ := h.one hf
    refine ⟨t0, by rw [wr_upd_readers]; exact h0, fun t' e => ?_⟩
    rw [wr_upd_readers]
    exact hr t' e
  · intro hf
    show M.readers - 1 = 0
    rw [h.held hf]

/-- A call returns: what it had added is forgotten; only read locks may be left behind. -/
theorem drop (h : CountInv strict M f) (t : Nat) (ht : (f t).wr = .free)
    (hs : strict → (f t).readers = 0) : CountInv strict M (upd f t Mu.init) := by
  have hw : ∀ t', (upd f t Mu.init t').wr = (f t').wr := by
    intro t'
    by_cases e : t' = t
    · subst e; rw [upd_self, ht]; rfl
    · rw [upd_ne _ _ e]
  constructor
  · obtain ⟨rs, hl, hc, he⟩ := h.readers
    refine ⟨rs, hl, fun t' => ?_, fun hst t' => ?_⟩
    · by_cases e : t' = t
      · subst e; rw [upd_self]; exact Nat.zero_le _
      · rw [upd_ne _ _ e]; exact hc t'
    · by_cases e : t' = t
      · subst e; rw [upd_self, ← he hst t', hs hst]; rfl
      · rw [upd_ne _ _ e]; exact he hst t'
  · exact fun hf t' => (hw t').trans (h.free hf t')
  · intro hf
    obtain ⟨t0, h0, hr⟩ := h.one hf
    exact ⟨t0, (hw t0).trans h0, fun t' e => (hw t').trans (hr t' e)⟩
  · exact h.held

end CountInv

/-! ## The locking discipline -/

variable {μ κ σ ρ Op Out : Type} [DecidableEq μ]

/-- How a call holds one mutex: `rd n` is `n` read locks, `ann` waiting for the write lock. -/
inductive Hold where
  | rd (n : Nat)
  | ann
  | wr
deriving DecidableEq

/-- What the holder has added to the mutex. -/
def Hold.mu : Hold → Mu
  | .rd n => ⟨n, .free⟩
  | .ann => ⟨0, .announced⟩
  | .wr => ⟨0, .held⟩

/-- `Disc m prot strict flat p h`: run by a goroutine that holds mutex `m` as `h` says, `p` locks and unlocks
`m` properly, reads the locations in `prot` only with `m` held and changes them only with `m` held for
writing. With `strict` it leaves no read locks behind, with `flat` it does not nest them. -/
def Disc (m : μ) (prot : κ → Prop) (strict flat : Prop) : Prog μ κ σ ρ → Hold → Prop
  | .ret _, h => ∃ n, h = .rd n ∧ (strict → n = 0)
  | .lock m' k, h =>
    if m' = m then h = .rd 0 ∧ Disc m prot strict flat k .wr else h ≠ .ann ∧ Disc m prot strict flat k h
  | .acquire m' k, h =>
    if m' = m then h = .ann ∧ Disc m prot strict flat k .wr else h ≠ .ann ∧ Disc m prot strict flat k h
  | .unlock m' k, h =>
    if m' = m then h = .wr ∧ Disc m prot strict flat k (.rd 0) else h ≠ .ann ∧ Disc m prot strict flat k h
  | .rlock m' k, h =>
    if m' = m then ∃ n, h = .rd n ∧ (flat → n = 0) ∧ Disc m prot strict flat k (.rd (n + 1))
    else h ≠ .ann ∧ Disc m prot strict flat k h
  | .runlock m' k, h =>
    if m' = m then ∃ n, h = .rd (n + 1) ∧ Disc m prot strict flat k (.rd n)
    else h ≠ .ann ∧ Disc m prot strict flat k h
  | .read l k, h => h ≠ .ann ∧ (prot l → h ≠ .rd 0) ∧ ∀ s, Disc m prot strict flat (k s) h
  | .write l _ k, h => h ≠ .ann ∧ (prot l → h = .wr) ∧ ∀ s, Disc m prot strict flat (k s) h

/-- What goroutine `t` has added to mutex `m`. -/
def mineOf (m : μ) (c : Cfg μ κ σ Op Out) (t : Nat) : Mu :=
  match c.calls t with
  | none => .init
  | some k => k.mine m

/-- The lock invariant for mutex `m`. -/
structure LockInv (m : μ) (prot : κ → Prop) (strict flat : Prop) (c : Cfg μ κ σ Op Out) : Prop where
  count : CountInv strict (c.mus m) (mineOf m c)
  disc : ∀ t k, c.calls t = some k → ∃ h, k.mine m = h.mu ∧ Disc m prot strict flat k.prog h

omit [DecidableEq μ] in
theorem mineOf_some {m : μ} {c : Cfg μ κ σ Op Out} {t : Nat} {k : Call μ κ σ Op Out}
    (h : c.calls t = some k) : mineOf m c t = k.mine m := by unfold mineOf; rw [h]

omit [DecidableEq μ] in
theorem mineOf_upd (m : μ) (c : Cfg μ κ σ Op Out) (t : Nat) (k : Call μ κ σ Op Out) (d : σ)
    (mus : μ → Mu) :
    mineOf m { c with data := d, mus := mus, calls := upd c.calls t (some k) } =
      upd (mineOf m c) t (k.mine m) := by
  funext t'
  unfold mineOf
  by_cases e : t' = t
  · subst e; simp only [upd_self]
  · simp only [upd_ne _ _ e]

/-- The lock invariant survives a micro-step. -/
theorem LockInv.micro {m : μ} {prot : κ → Prop} {strict flat : Prop} {c : Cfg μ κ σ Op Out}
    (h : LockInv m prot strict flat c) {t : Nat} {k k' : Call μ κ σ Op Out} {mus : μ → Mu} {d : σ}
    (hk : c.calls t = some k) (hm : micro c k = some (k', mus, d)) :
    LockInv m prot strict flat { c with data := d, mus := mus, calls := upd c.calls t (some k') } := by
  obtain ⟨hold, hmine, hd⟩ := h.disc t k hk
  have hft : mineOf m c t = hold.mu := (mineOf_some hk).trans hmine
  -- it suffices to treat the count and the stepping call
  suffices hs : CountInv strict (mus m) (upd (mineOf m c) t (k'.mine m)) ∧
      ∃ h', k'.mine m = h'.mu ∧ Disc m prot strict flat k'.prog h' by
    refine ⟨?_, ?_⟩
    · rw [mineOf_upd]; exact hs.1
    · intro t' q hq
      by_cases e : t' = t
      · subst e
        simp only [upd_self, Option.some.injEq] at hq
        subst hq
        exact hs.2
      · simp only [upd_ne _ _ e] at hq
        exact h.disc t' q hq
  have same : ∀ (p : Prog μ κ σ Out), mus m = c.mus m → k'.mine m = k.mine m → k'.prog = p →
      Disc m prot strict flat p hold →
      CountInv strict (mus m) (upd (mineOf m c) t (k'.mine m)) ∧
      ∃ h', k'.mine m = h'.mu ∧ Disc m prot strict flat k'.prog h' := by
    intro p e1 e2 e3 e4
    refine ⟨?_, hold, e2.trans hmine, e3 ▸ e4⟩
    rw [e1, e2, ← mineOf_some (m := m) hk, upd_id]
    exact h.count
  unfold Conc.micro at hm
  cases hp : k.prog with
  | ret r => simp only [hp, reduceCtorEq] at hm
  | lock m' p =>
    rw [hp] at hd
    simp only [hp] at hm
    split at hm
    · next hfree =>
      cases hm
      simp only [Disc] at hd
      by_cases e : m' = m
      · subst e
        rw [if_pos rfl] at hd
        obtain ⟨rfl, hd⟩ := hd
        simp only [upd_self]
        refine ⟨?_, .ann, by rw [hmine]; rfl, ?_⟩
        · have := h.count.announce t hfree
          rwa [hft, ← hmine] at this
        · simp only [Disc, if_pos]; exact ⟨trivial, hd⟩
      · rw [if_neg e] at hd
        refine same (.acquire m' p) (upd_ne _ _ (Ne.symm e)) (upd_ne _ _ (Ne.symm e)) rfl ?_
        simp only [Disc, if_neg e]; exact hd
    · cases hm
  | acquire m' p =>
    rw [hp] at hd
    simp only [hp] at hm
    split at hm
    · next hfree =>
      cases hm
      simp only [Disc] at hd
      by_cases e : m' = m
      · subst e
        rw [if_pos rfl] at hd
        obtain ⟨rfl, hd⟩ := hd
        simp only [upd_self]
        refine ⟨?_, .wr, by rw [hmine]; rfl, hd⟩
        have := h.count.acquire t (by rw [hft]; rfl) hfree
        rwa [hft, ← hmine] at this
      · rw [if_neg e] at hd
        exact same p (upd_ne _ _ (Ne.symm e)) (upd_ne _ _ (Ne.symm e)) rfl hd.2
    · cases hm
  | unlock m' p =>
    rw [hp] at hd
    simp only [hp] at hm
    split at hm
    · next hfree =>
      cases hm
      simp only [Disc] at hd
      by_cases e : m' = m
      · subst e
        rw [if_pos rfl] at hd
        obtain ⟨rfl, hd⟩ := hd
        simp only [upd_self]
        refine ⟨?_, .rd 0, by rw [hmine]; rfl, hd⟩
        have := h.count.unlock t (by rw [hft]; rfl)
        rwa [hft, ← hmine] at this
      · rw [if_neg e] at hd
        exact same p (upd_ne _ _ (Ne.symm e)) (upd_ne _ _ (Ne.symm e)) rfl hd.2
    · cases hm
  | rlock m' p =>
    rw [hp] at hd
    simp only [hp] at hm
    split at hm
    · next hfree =>
      cases hm
      simp only [Disc] at hd
      by_cases e : m' = m
      · subst e
        rw [if_pos rfl] at hd
        obtain ⟨n, rfl, _, hd⟩ := hd
        simp only [upd_self]
        refine ⟨?_, .rd (n + 1), by rw [hmine]; rfl, hd⟩
        have := h.count.rlock t hfree
        rwa [hft, ← hmine] at this
      · rw [if_neg e] at hd
        exact same p (upd_ne _ _ (Ne.symm e)) (upd_ne _ _ (Ne.symm e)) rfl hd.2
    · cases hm
  | runlock m' p =>
    rw [hp] at hd
    simp only [hp] at hm
    split at hm
    · next hfree =>
      cases hm
      simp only [Disc] at hd
      by_cases e : m' = m
      · subst e
        rw [if_pos rfl] at hd
        obtain ⟨n, rfl, hd⟩ := hd
        simp only [upd_self]
        refine ⟨?_, .rd n, by rw [hmine]; rfl, hd⟩
        have := h.count.runlock t (by rw [hft]; exact Nat.succ_ne_zero n)
        rwa [hft, ← hmine] at this
      · rw [if_neg e] at hd
        exact same p (upd_ne _ _ (Ne.symm e)) (upd_ne _ _ (Ne.symm e)) rfl hd.2
    · cases hm
  | read l p =>
    rw [hp] at hd
    simp only [hp, Option.some.injEq, Prod.mk.injEq] at hm
    obtain ⟨rfl, rfl, rfl⟩ := hm
    exact same _ rfl rfl rfl (hd.2.2 _)
  | write l f p =>
    rw [hp] at hd
    simp only [hp, Option.some.injEq, Prod.mk.injEq] at hm
    obtain ⟨rfl, rfl, rfl⟩ := hm
    exact same _ rfl rfl rfl (hd.2.2 _)

/-- The lock invariant holds in every reachable configuration if every method follows the
discipline. -/
theorem lockInv {m : μ} {prot : κ → Prop} {strict flat : Prop} {prog : Op → Prog μ κ σ Out}
    {allowed : Op → Prop} (hdisc : ∀ op, allowed op → Disc m prot strict flat (prog op) (.rd 0)) {s : σ}
    {c : Cfg μ κ σ Op Out} (hr : Reach prog allowed s c) : LockInv m prot strict flat c := by
  induction hr with
  | init => exact ⟨CountInv.init, fun t k hk => by cases hk⟩
  | step c c' a _ ha hst ih =>
    cases a with
    | call t op =>
      unfold Conc.step at hst
      cases hc : c.calls t with
      | some k => simp only [hc, reduceCtorEq] at hst
      | none =>
        simp only [hc, Option.some.injEq] at hst
        subst hst
        refine ⟨?_, ?_⟩
        · have : mineOf m { c with calls := upd c.calls t (some ⟨c.next, op, prog op, fun _ => .init⟩),
                                   next := c.next + 1, hist := c.hist ++ [.inv c.next t op] } =
              mineOf m c := by
            funext t'
            unfold mineOf
            by_cases e : t' = t
            · subst e; simp only [upd_self, hc]
            · simp only [upd_ne _ _ e]
          rw [this]
          exact ih.count
        · intro t' k hk
          by_cases e : t' = t
          · subst e
            simp only [upd_self, Option.some.injEq] at hk
            subst hk
            exact ⟨.rd 0, rfl, hdisc op (ha t' op rfl)⟩
          · simp only [upd_ne _ _ e] at hk
            exact ih.disc t' k hk
    | tau t =>
      unfold Conc.step at hst
      cases hc : c.calls t with
      | none => simp only [hc, reduceCtorEq] at hst
      | some k =>
        simp only [hc] at hst
        cases hm : Conc.micro c k with
        | none => simp only [hm, reduceCtorEq] at hst
        | some r =>
          obtain ⟨k', mus, d⟩ := r
          simp only [hm, Option.some.injEq] at hst
          subst hst
          exact ih.micro hc hm
    | ret t =>
      unfold Conc.step at hst
      cases hc : c.calls t with
      | none => simp only [hc, reduceCtorEq] at hst
      | some k =>
        obtain ⟨hold, hmine, hd⟩ := ih.disc t k hc
        cases hp : k.prog with
        | ret r =>
          simp only [hc, hp, Option.some.injEq] at hst
          subst hst
          rw [hp] at hd
          obtain ⟨n, rfl, hn⟩ := hd
          have hft := (mineOf_some (m := m) hc).trans hmine
          refine ⟨?_, ?_⟩
          · have : mineOf m { c with calls := upd c.calls t none,
                                     hist := c.hist ++ [.res k.id t r] } =
                upd (mineOf m c) t Mu.init := by
              funext t'
              unfold mineOf
              by_cases e : t' = t
              · subst e; simp only [upd_self]
              · simp only [upd_ne _ _ e]
            rw [this]
            exact ih.count.drop t (by rw [hft]; rfl) (fun hs => by rw [hft]; exact hn hs)
          · intro t' k hk
            by_cases e : t' = t
            · subst e
              simp only [upd_self, reduceCtorEq] at hk
            · simp only [upd_ne _ _ e] at hk
              exact ih.disc t' k hk
        | _ => simp only [hc, hp, reduceCtorEq] at hst

/-- A property of calls that every own micro-step keeps holds for all calls, if it holds when a call is
made. -/
theorem callInv {I : Call μ κ σ Op Out → Prop} {prog : Op → Prog μ κ σ Out} {allowed : Op → Prop}
    (h0 : ∀ n op, allowed op → I ⟨n, op, prog op, fun _ => .init⟩)
    (hmic : ∀ (c : Cfg μ κ σ Op Out) (k k' : Call μ κ σ Op Out) mus d, I k →
      micro c k = some (k', mus, d) → I k') {s : σ} {c : Cfg μ κ σ Op Out}
    (hr : Reach prog allowed s c) : ∀ t k, c.calls t = some k → I k := by
  induction hr with
  | init => intro t k hk; cases hk
  | step c c' a _ ha hst ih =>
    cases a with
    | call t op =>
      unfold Conc.step at hst
      cases hc : c.calls t with
      | some k => simp only [hc, reduceCtorEq] at hst
      | none =>
        simp only [hc, Option.some.injEq] at hst
        subst hst
        intro t' k hk
        by_cases e : t' = t
        · subst e
          simp only [upd_self, Option.some.injEq] at hk
          subst hk
          exact h0 _ op (ha t' op rfl)
        · simp only [upd_ne _ _ e] at hk
          exact ih t' k hk
    | tau t =>
      unfold Conc.step at hst
      cases hc : c.calls t with
      | none => simp only [hc, reduceCtorEq] at hst
      | some k =>
        simp only [hc] at hst
        cases hm : Conc.micro c k with
        | none => simp only [hm, reduceCtorEq] at hst
        | some r =>
          obtain ⟨k', mus, d⟩ := r
          simp only [hm, Option.some.injEq] at hst
          subst hst
          intro t' q hq
          by_cases e : t' = t
          · subst e
            simp only [upd_self, Option.some.injEq] at hq
            subst hq
            exact hmic c k k' mus d (ih t' k hc) hm
          · simp only [upd_ne _ _ e] at hq
            exact ih t' q hq
    | ret t =>
      unfold Conc.step at hst
      cases hc : c.calls t with
      | none => simp only [hc, reduceCtorEq] at hst
      | some k =>
        cases hp : k.prog with
        | ret r =>
          simp only [hc, hp, Option.some.injEq] at hst
          subst hst
          intro t' q hq
          by_cases e : t' = t
          · subst e; simp only [upd_self, reduceCtorEq] at hq
          · simp only [upd_ne _ _ e] at hq
            exact ih t' q hq
        | _ => simp only [hc, hp, reduceCtorEq] at hst

/-- A call follows the discipline from where it is. -/
def DiscCall (m : μ) (prot : κ → Prop) (strict flat : Prop) (k : Call μ κ σ Op Out) : Prop :=
  ∃ h, k.mine m = h.mu ∧ Disc m prot strict flat k.prog h

theorem DiscCall.micro {m : μ} {prot : κ → Prop} {strict flat : Prop} {c : Cfg μ κ σ Op Out}
    {k k' : Call μ κ σ Op Out} {mus : μ → Mu} {d : σ} (hk : DiscCall m prot strict flat k)
    (hm : micro c k = some (k', mus, d)) : DiscCall m prot strict flat k' ∧ k'.op = k.op := by
  obtain ⟨hold, hmine, hd⟩ := hk
  have hlk : ∀ {m' : μ} {w : Mu} {h1 : Hold}, (if m' = m then h1.mu = w else True) →
      ∀ {p : Prog μ κ σ Out}, (if m' = m then Disc m prot strict flat p h1
        else Disc m prot strict flat p hold) →
      DiscCall m prot strict flat ⟨k.id, k.op, p, upd k.mine m' w⟩ := by
    intro m' w h1 hw p hp
    by_cases e : m' = m
    · subst e
      rw [if_pos rfl] at hw hp
      exact ⟨h1, by rw [← hw]; exact upd_self _ _ _, hp⟩
    · rw [if_neg e] at hp
      exact ⟨hold, (upd_ne _ _ (Ne.symm e)).trans hmine, hp⟩
  unfold Conc.micro at hm
  cases hp : k.prog with
  | ret r => simp only [hp, reduceCtorEq] at hm
  | lock m' p =>
    rw [hp] at hd
    simp only [Disc] at hd
    simp only [hp] at hm
    split at hm
    · cases hm
      refine ⟨hlk (h1 := .ann) ?_ ?_, rfl⟩
      · split
        · next e => rw [if_pos e] at hd; subst e; rw [hmine, hd.1]; rfl
        · trivial
      · split
        · next e => rw [if_pos e] at hd; simp only [Disc, if_pos e]; exact ⟨trivial, hd.2⟩
        · next e => rw [if_neg e] at hd; simp only [Disc, if_neg e]; exact hd
    · cases hm
  | acquire m' p =>
    rw [hp] at hd
    simp only [Disc] at hd
    simp only [hp] at hm
    split at hm
    · cases hm
      refine ⟨hlk (h1 := .wr) ?_ ?_, rfl⟩
      · split
        · next e => rw [if_pos e] at hd; subst e; rw [hmine, hd.1]; rfl
        · trivial
      · split
        · next e => rw [if_pos e] at hd; exact hd.2
        · next e => rw [if_neg e] at hd; exact hd.2
    · cases hm
  | unlock m' p =>
    rw [hp] at hd
    simp only [Disc] at hd
    simp only [hp] at hm
    split at hm
    · cases hm
      refine ⟨hlk (h1 := .rd 0) ?_ ?_, rfl⟩
      · split
        · next e => rw [if_pos e] at hd; subst e; rw [hmine, hd.1]; rfl
        · trivial
      · split
        · next e => rw [if_pos e] at hd; exact hd.2
        · next e => rw [if_neg e] at hd; exact hd.2
    · cases hm
  | rlock m' p =>
    rw [hp] at hd
    simp only [Disc] at hd
    simp only [hp] at hm
    split at hm
    · cases hm
      by_cases e : m' = m
      · rw [if_pos e] at hd
        obtain ⟨n, rfl, -, hd⟩ := hd
        refine ⟨hlk (h1 := .rd (n + 1)) ?_ ?_, rfl⟩
        · rw [if_pos e]; subst e; rw [hmine]; rfl
        · rw [if_pos e]; exact hd
      · rw [if_neg e] at hd
        refine ⟨hlk (h1 := hold) ?_ ?_, rfl⟩
        · rw [if_neg e]; trivial
        · rw [if_neg e]; exact hd.2
    · cases hm
  | runlock m' p =>
    rw [hp] at hd
    simp only [Disc] at hd
    simp only [hp] at hm
    split at hm
    · cases hm
      by_cases e : m' = m
      · rw [if_pos e] at hd
        obtain ⟨n, rfl, hd⟩ := hd
        refine ⟨hlk (h1 := .rd n) ?_ ?_, rfl⟩
        · rw [if_pos e]; subst e; rw [hmine]; rfl
        · rw [if_pos e]; exact hd
      · rw [if_neg e] at hd
        refine ⟨hlk (h1 := hold) ?_ ?_, rfl⟩
        · rw [if_neg e]; trivial
        · rw [if_neg e]; exact hd.2
    · cases hm
  | read l p =>
    rw [hp] at hd
    simp only [hp, Option.some.injEq, Prod.mk.injEq] at hm
    obtain ⟨rfl, rfl, rfl⟩ := hm
    exact ⟨⟨hold, hmine, hd.2.2 _⟩, rfl⟩
  | write l f p =>
    rw [hp] at hd
    simp only [hp, Option.some.injEq, Prod.mk.injEq] at hm
    obtain ⟨rfl, rfl, rfl⟩ := hm
    exact ⟨⟨hold, hmine, hd.2.2 _⟩, rfl⟩

/-- The methods in `ops` follow a stronger discipline than the others. -/
theorem discCall {m : μ} {prot : κ → Prop} {strict flat : Prop} {prog : Op → Prog μ κ σ Out}
    {allowed ops : Op → Prop}
    (hdisc : ∀ op, allowed op → ops op → Disc m prot strict flat (prog op) (.rd 0)) {s : σ}
    {c : Cfg μ κ σ Op Out} (hr : Reach prog allowed s c) :
    ∀ t k, c.calls t = some k → ops k.op → DiscCall m prot strict flat k := by
  refine callInv (I := fun k => ops k.op → DiscCall m prot strict flat k) ?_ ?_ hr
  · exact fun n op ha ho => ⟨.rd 0, rfl, hdisc op ha ho⟩
  · intro c k k' mus d hI hm
    have hop : k'.op = k.op := by
      unfold Conc.micro at hm
      cases hp : k.prog <;> simp only [hp, reduceCtorEq] at hm
      all_goals first
        | (split at hm <;> cases hm <;> rfl)
        | (cases hm; rfl)
    exact fun ho => ((hI (hop ▸ ho)).micro hm).1

/-- Two calls that follow the discipline do not race on the protected locations. -/
theorem no_race_calls {m : μ} {prot : κ → Prop} {strict strict' flat : Prop} {c : Cfg μ κ σ Op Out}
    (hi : CountInv strict' (c.mus m) (mineOf m c)) {l : κ} (hl : prot l) {t t' : Nat}
    {k k' : Call μ κ σ Op Out} {w : Bool} (hne : t ≠ t') (hk : c.calls t = some k)
    (hk' : c.calls t' = some k') (h1 : DiscCall m prot strict flat k)
    (h2 : DiscCall m prot strict flat k') (ha : access k = some (l, true)) (ha' : access k' = some (l, w)) :
    False := by
  obtain ⟨h1, hm1, hd1⟩ := h1
  obtain ⟨h2, hm2, hd2⟩ := h2
  have hw : h1 = .wr := by
    unfold access at ha
    cases hp : k.prog <;> rw [hp] at hd1 <;> simp only [hp, reduceCtorEq, Option.some.injEq,
      Prod.mk.injEq, Bool.false_eq_true, and_false, and_true] at ha
    subst ha
    exact hd1.2.1 hl
  subst hw
  have hheld : (mineOf m c t).wr = .held := by rw [mineOf_some hk, hm1]; rfl
  have hfree := (hi.wr_eq (by decide) hheld).2 t' (Ne.symm hne)
  have hzero := hi.excl hheld t'
  rw [mineOf_some hk', hm2] at hfree hzero
  have h0 : h2 = .rd 0 := by
    cases h2 with
    | rd n => exact congrArg Hold.rd hzero
    | ann => cases hfree
    | wr => cases hfree
  subst h0
  unfold access at ha'
  cases hp : k'.prog <;> rw [hp] at hd2 <;> simp only [hp, reduceCtorEq, Option.some.injEq,
    Prod.mk.injEq] at ha'
  · obtain ⟨rfl, _⟩ := ha'
    exact hd2.2.1 hl rfl
  · obtain ⟨rfl, _⟩ := ha'
    exact absurd (hd2.2.1 hl) (by decide)

/-- Programs that follow the discipline do not race on the protected locations. -/
theorem no_race {m : μ} {prot : κ → Prop} {strict flat : Prop} {prog : Op → Prog μ κ σ Out}
    {allowed : Op → Prop} (hdisc : ∀ op, allowed op → Disc m prot strict flat (prog op) (.rd 0)) {s : σ}
    {c : Cfg μ κ σ Op Out} (hr : Reach prog allowed s c) {l : κ} (hl : prot l) : ¬ Race c l := by
  rintro ⟨t, t', k, k', w, hne, hk, hk', ha, ha'⟩
  have hi := lockInv hdisc hr
  exact no_race_calls hi.count hl hne hk hk' (hi.disc t k hk) (hi.disc t' k' hk') ha ha'

omit [DecidableEq μ] in
theorem Disc.mono [DecidableEq μ] {m : μ} {prot prot' : κ → Prop} {strict strict' flat flat' : Prop}
    (hp : ∀ l, prot' l → prot l) (hs : strict' → strict) (hf : flat' → flat) {p : Prog μ κ σ ρ} :
    ∀ {h : Hold}, Disc m prot strict flat p h → Disc m prot' strict' flat' p h := by
  induction p with
  | ret r => rintro h ⟨n, h1, h2⟩; exact ⟨n, h1, fun x => h2 (hs x)⟩
  | lock m' k ih =>
    intro h hd
    simp only [Disc] at hd ⊢
    split at hd
    · next e => rw [if_pos e]; exact ⟨hd.1, ih hd.2⟩
    · next e => rw [if_neg e]; exact ⟨hd.1, ih hd.2⟩
  | acquire m' k ih =>
    intro h hd
    simp only [Disc] at hd ⊢
    split at hd
    · next e => rw [if_pos e]; exact ⟨hd.1, ih hd.2⟩
    · next e => rw [if_neg e]; exact ⟨hd.1, ih hd.2⟩
  | unlock m' k ih =>
    intro h hd
    simp only [Disc] at hd ⊢
    split at hd
    · next e => rw [if_pos e]; exact ⟨hd.1, ih hd.2⟩
    · next e => rw [if_neg e]; exact ⟨hd.1, ih hd.2⟩
  | rlock m' k ih =>
    intro h hd
    simp only [Disc] at hd ⊢
    split at hd
    · next e => rw [if_pos e]; obtain ⟨n, h1, h2, h3⟩ := hd; exact ⟨n, h1, fun x => h2 (hf x), ih h3⟩
    · next e => rw [if_neg e]; exact ⟨hd.1, ih hd.2⟩
  | runlock m' k ih =>
    intro h hd
    simp only [Disc] at hd ⊢
    split at hd
    · next e => rw [if_pos e]; obtain ⟨n, h1, h2⟩ := hd; exact ⟨n, h1, ih h2⟩
    · next e => rw [if_neg e]; exact ⟨hd.1, ih hd.2⟩
  | read l k ih => intro h hd; exact ⟨hd.1, fun x => hd.2.1 (hp l x), fun s => ih s (hd.2.2 s)⟩
  | write l f k ih => intro h hd; exact ⟨hd.1, fun x => hd.2.1 (hp l x), fun s => ih s (hd.2.2 s)⟩

end Netscrape.Conc
