import Verif.Lemmas.Leak

/-!
# Calls that end with a lock held, for reading or for writing

As `Lemmas.Leak`, but calls may also keep the write lock. `left op out h`: a call `op` which ends with `out` may hold
mutex `m` as `h` says when it ends.
-/

namespace Netscrape.Conc
open Netscrape.Spec

variable {μ κ σ ρ α β Op Out : Type}

/-- Goroutine 0 stands for the locks left behind, goroutine `t + 1` for `t`. -/
def owedW (O : Mu) (f : Nat → Mu) : Nat → Mu
  | 0 => O
  | t + 1 => f t

theorem owedW_upd (O : Mu) (f : Nat → Mu) (t : Nat) (x : Mu) : upd (owedW O f) (t + 1) x = owedW O (upd f t x) := by
  funext i
  cases i with
  | zero => rfl
  | succ i =>
    by_cases e : i = t
    · subst e; simp only [upd_self, owedW]
    · rw [upd_ne _ _ (fun h => e (Nat.succ.inj h))]
      show f i = upd f t x i
      rw [upd_ne _ _ e]

/-- What is left behind when a call ends that holds `x`. -/
def addLeft (O x : Mu) : Mu := ⟨O.readers + x.readers, if x.wr = .free then O.wr else x.wr⟩

/-- A call returns: its locks are left behind. -/
theorem CountInv.leaveW {M O : Mu} {f : Nat → Mu} (h : CountInv True M (owedW O f)) (t : Nat) :
    CountInv True M (owedW (addLeft O (f t)) (upd f t Mu.init)) := by
  constructor
  · obtain ⟨rs, hl, -, he⟩ := h.readers
    have he := he trivial
    have key : ∀ (rs : List Nat) (i : Nat), (rs.map fun x => if x = t + 1 then 0 else x).count i =
        if i = 0 then rs.count 0 + rs.count (t + 1) else if i = t + 1 then 0 else rs.count i := by
      intro rs i
      induction rs with
      | nil => simp
      | cons x xs ih =>
        simp only [List.map_cons, List.count_cons, ih, beq_iff_eq]
        by_cases hx : x = t + 1
        · by_cases hi : i = 0
          · simp [hx, hi]; omega
          · by_cases hi' : i = t + 1
            · simp [hx, hi']
            · simp [hx, hi, hi', Ne.symm hi', Ne.symm hi]
        · by_cases hi : i = 0
          · simp only [hx, hi, if_true, if_false]
            omega
          · by_cases hi' : i = t + 1
            · simp [hx, hi']
            · simp [hx, hi, hi']
    have hall : ∀ i, (owedW (addLeft O (f t)) (upd f t Mu.init) i).readers =
        (rs.map fun x => if x = t + 1 then 0 else x).count i := by
      intro i
      rw [key]
      cases i with
      | zero =>
        have h0 : O.readers = rs.count 0 := he 0
        have h1 : (f t).readers = rs.count (t + 1) := he (t + 1)
        show O.readers + (f t).readers = _
        rw [if_pos rfl, h0, h1]
      | succ i =>
        rw [if_neg (Nat.succ_ne_zero i)]
        show (upd f t Mu.init i).readers = _
        by_cases e : i = t
        · subst e; rw [upd_self, if_pos rfl]; rfl
        · rw [upd_ne _ _ e, if_neg (fun h => e (Nat.succ.inj h))]; exact he (i + 1)
    exact ⟨_, by rw [List.length_map, hl], fun i => Nat.le_of_eq (hall i), fun _ i => hall i⟩
  · intro hf i
    have h0 : O.wr = .free := h.free hf 0
    have h1 : (f t).wr = .free := h.free hf (t + 1)
    cases i with
    | zero => show (addLeft O (f t)).wr = _; unfold addLeft; rw [if_pos h1]; exact h0
    | succ i =>
      show (upd f t Mu.init i).wr = _
      by_cases e : i = t
      · subst e; rw [upd_self]; rfl
      · rw [upd_ne _ _ e]; exact h.free hf (i + 1)
  · intro hf
    obtain ⟨i, h0, hr⟩ := h.one hf
    by_cases e0 : i = 0
    · subst e0
      have h1 : (f t).wr = .free := hr (t + 1) (Nat.succ_ne_zero t)
      refine ⟨0, ?_, ?_⟩
      · show (addLeft O (f t)).wr = _; unfold addLeft; rw [if_pos h1]; exact h0
      · intro j hj
        cases j with
        | zero => exact absurd rfl hj
        | succ j =>
          show (upd f t Mu.init j).wr = _
          by_cases e : j = t
          · subst e; rw [upd_self]; rfl
          · rw [upd_ne _ _ e]; exact hr (j + 1) hj
    · by_cases e1 : i = t + 1
      · subst e1
        have hne : (f t).wr ≠ .free := by rw [show (f t).wr = M.wr from h0]; exact hf
        refine ⟨0, ?_, ?_⟩
        · show (addLeft O (f t)).wr = _; unfold addLeft; rw [if_neg hne]; exact h0
        · intro j hj
          cases j with
          | zero => exact absurd rfl hj
          | succ j =>
            show (upd f t Mu.init j).wr = _
            by_cases e : j = t
            · subst e; rw [upd_self]; rfl
            · rw [upd_ne _ _ e]; exact hr (j + 1) (fun h => e (Nat.succ.inj h))
      · have h1 : (f t).wr = .free := hr (t + 1) (Ne.symm e1)
        have h2 : O.wr = .free := hr 0 (Ne.symm e0)
        refine ⟨i, ?_, ?_⟩
        · cases i with
          | zero => exact absurd rfl e0
          | succ i =>
            show (upd f t Mu.init i).wr = _
            rw [upd_ne _ _ (fun h => e1 (congrArg (· + 1) h))]; exact h0
        · intro j hj
          cases j with
          | zero => show (addLeft O (f t)).wr = _; unfold addLeft; rw [if_pos h1]; exact h2
          | succ j =>
            show (upd f t Mu.init j).wr = _
            by_cases e : j = t
            · subst e; rw [upd_self]; rfl
            · rw [upd_ne _ _ e]; exact hr (j + 1) hj
  · exact h.held

variable [DecidableEq μ]

/-- `LeavesW m post p h`: run by a goroutine that holds mutex `m` as `h` says, `p` locks and unlocks `m` properly
and, if it returns `r`, holds `m` in a way that `post r` allows. -/
def LeavesW (m : μ) (post : ρ → Hold → Prop) : Prog μ κ σ ρ → Hold → Prop
  | .ret r, h => h ≠ .ann ∧ post r h
  | .lock m' k, h => if m' = m then h = .rd 0 ∧ LeavesW m post k .wr else h ≠ .ann ∧ LeavesW m post k h
  | .acquire m' k, h => if m' = m then h = .ann ∧ LeavesW m post k .wr else h ≠ .ann ∧ LeavesW m post k h
  | .unlock m' k, h => if m' = m then h = .wr ∧ LeavesW m post k (.rd 0) else h ≠ .ann ∧ LeavesW m post k h
  | .rlock m' k, h =>
    if m' = m then ∃ n, h = .rd n ∧ LeavesW m post k (.rd (n + 1)) else h ≠ .ann ∧ LeavesW m post k h
  | .runlock m' k, h =>
    if m' = m then ∃ n, h = .rd (n + 1) ∧ LeavesW m post k (.rd n) else h ≠ .ann ∧ LeavesW m post k h
  | .read _ k, h => h ≠ .ann ∧ ∀ s, LeavesW m post (k s) h
  | .write _ _ k, h => h ≠ .ann ∧ ∀ s, LeavesW m post (k s) h

theorem LeavesW.bind {m : μ} {post : α → Hold → Prop} {post' : β → Hold → Prop} {f : α → Prog μ κ σ β}
    (hf : ∀ x h, h ≠ .ann → post x h → LeavesW m post' (f x) h) {p : Prog μ κ σ α} :
    ∀ {h : Hold}, LeavesW m post p h → LeavesW m post' (p.bind f) h := by
  induction p with
  | ret r => rintro h ⟨hn, hp⟩; exact hf r h hn hp
  | lock m' k ih =>
    intro h hl
    simp only [LeavesW, Prog.bind] at hl ⊢
    split <;> rename_i e
    · rw [if_pos e] at hl; exact ⟨hl.1, ih hl.2⟩
    · rw [if_neg e] at hl; exact ⟨hl.1, ih hl.2⟩
  | acquire m' k ih =>
    intro h hl
    simp only [LeavesW, Prog.bind] at hl ⊢
    split <;> rename_i e
    · rw [if_pos e] at hl; exact ⟨hl.1, ih hl.2⟩
    · rw [if_neg e] at hl; exact ⟨hl.1, ih hl.2⟩
  | unlock m' k ih =>
    intro h hl
    simp only [LeavesW, Prog.bind] at hl ⊢
    split <;> rename_i e
    · rw [if_pos e] at hl; exact ⟨hl.1, ih hl.2⟩
    · rw [if_neg e] at hl; exact ⟨hl.1, ih hl.2⟩
  | rlock m' k ih =>
    intro h hl
    simp only [LeavesW, Prog.bind] at hl ⊢
    split <;> rename_i e
    · rw [if_pos e] at hl; obtain ⟨n, h1, h2⟩ := hl; exact ⟨n, h1, ih h2⟩
    · rw [if_neg e] at hl; exact ⟨hl.1, ih hl.2⟩
  | runlock m' k ih =>
    intro h hl
    simp only [LeavesW, Prog.bind] at hl ⊢
    split <;> rename_i e
    · rw [if_pos e] at hl; obtain ⟨n, h1, h2⟩ := hl; exact ⟨n, h1, ih h2⟩
    · rw [if_neg e] at hl; exact ⟨hl.1, ih hl.2⟩
  | read l k ih => exact fun h => ⟨h.1, fun s => ih s (h.2 s)⟩
  | write l f k ih => exact fun h => ⟨h.1, fun s => ih s (h.2 s)⟩

/-- A method that keeps read locks only. -/
theorem Leaves.toW {m : μ} {post : ρ → Nat → Prop} {post' : ρ → Hold → Prop} (hp : ∀ r n, post r n → post' r (.rd n))
    {p : Prog μ κ σ ρ} : ∀ {h : Hold}, Leaves m post p h → LeavesW m post' p h := by
  induction p with
  | ret r => rintro h ⟨n, hn, rfl⟩; exact ⟨Hold.noConfusion, hp r n hn⟩
  | lock m' k ih =>
    intro h hl
    simp only [Leaves, LeavesW] at hl ⊢
    split <;> rename_i e
    · rw [if_pos e] at hl; exact ⟨hl.1, ih hl.2⟩
    · rw [if_neg e] at hl; exact ⟨hl.1, ih hl.2⟩
  | acquire m' k ih =>
    intro h hl
    simp only [Leaves, LeavesW] at hl ⊢
    split <;> rename_i e
    · rw [if_pos e] at hl; exact ⟨hl.1, ih hl.2⟩
    · rw [if_neg e] at hl; exact ⟨hl.1, ih hl.2⟩
  | unlock m' k ih =>
    intro h hl
    simp only [Leaves, LeavesW] at hl ⊢
    split <;> rename_i e
    · rw [if_pos e] at hl; exact ⟨hl.1, ih hl.2⟩
    · rw [if_neg e] at hl; exact ⟨hl.1, ih hl.2⟩
  | rlock m' k ih =>
    intro h hl
    simp only [Leaves, LeavesW] at hl ⊢
    split <;> rename_i e
    · rw [if_pos e] at hl; obtain ⟨n, h1, h2⟩ := hl; exact ⟨n, h1, ih h2⟩
    · rw [if_neg e] at hl; exact ⟨hl.1, ih hl.2⟩
  | runlock m' k ih =>
    intro h hl
    simp only [Leaves, LeavesW] at hl ⊢
    split <;> rename_i e
    · rw [if_pos e] at hl; obtain ⟨n, h1, h2⟩ := hl; exact ⟨n, h1, ih h2⟩
    · rw [if_neg e] at hl; exact ⟨hl.1, ih hl.2⟩
  | read l k ih => exact fun h => ⟨h.1, fun s => ih s (h.2 s)⟩
  | write l f k ih => exact fun h => ⟨h.1, fun s => ih s (h.2 s)⟩

/-- What is left behind is at least what each finished call left, and nothing if none left anything. -/
structure SumW (left : Op → Out → Hold → Prop) (h : List (Ev Op Out)) (O : Mu) : Prop where
  each : ∀ i t op t' out, Ev.inv i t op ∈ h → Ev.res i t' out ∈ h → ∃ x, left op out x ∧ x ≠ .ann ∧
    x.mu.readers ≤ O.readers ∧ (x = .wr → O.wr = .held)
  none : (∀ i t op t' out x, Ev.inv i t op ∈ h → Ev.res i t' out ∈ h → left op out x → x = .rd 0) → O = .init
  kind : O.wr ≠ .announced

/-- The invariant: locks are held by calls in progress, or left behind. -/
structure LeakInvW (m : μ) (left : Op → Out → Hold → Prop) (c : Cfg μ κ σ Op Out) : Prop where
  count : ∃ O, CountInv True (c.mus m) (owedW O (mineOf m c)) ∧ SumW left c.hist O
  prog : ∀ t k, c.calls t = some k → ∃ h, k.mine m = h.mu ∧ LeavesW m (left k.op) k.prog h

/-- The invariant survives a micro-step. -/
theorem LeakInvW.micro {m : μ} {left : Op → Out → Hold → Prop} {c : Cfg μ κ σ Op Out}
    (h : LeakInvW m left c) {t : Nat} {k k' : Call μ κ σ Op Out} {mus : μ → Mu} {d : σ}
    (hk : c.calls t = some k) (hm : micro c k = some (k', mus, d)) :
    LeakInvW m left { c with data := d, mus := mus, calls := upd c.calls t (some k') } := by
  obtain ⟨hold, hmine, hd⟩ := h.prog t k hk
  obtain ⟨L, hcount, hsum⟩ := h.count
  have hop := (micro_id hm).2
  have hft : mineOf m c t = hold.mu := (mineOf_some hk).trans hmine
  -- it suffices to treat the count and the stepping call
  suffices hs : CountInv True (mus m) (owedW L (upd (mineOf m c) t (k'.mine m))) ∧
      ∃ h', k'.mine m = h'.mu ∧ LeavesW m (left k.op) k'.prog h' by
    refine ⟨?_, ?_⟩
    · refine ⟨L, ?_, hsum⟩
      rw [mineOf_upd]; exact hs.1
    · intro t' q hq
      by_cases e : t' = t
      · subst e
        simp only [upd_self, Option.some.injEq] at hq
        subst hq
        rw [hop]
        exact hs.2
      · simp only [upd_ne _ _ e] at hq
        exact h.prog t' q hq
  have same : ∀ (p : Prog μ κ σ Out), mus m = c.mus m → k'.mine m = k.mine m → k'.prog = p →
      LeavesW m (left k.op) p hold →
      CountInv True (mus m) (owedW L (upd (mineOf m c) t (k'.mine m))) ∧
      ∃ h', k'.mine m = h'.mu ∧ LeavesW m (left k.op) k'.prog h' := by
    intro p e1 e2 e3 e4
    refine ⟨?_, hold, e2.trans hmine, e3 ▸ e4⟩
    rw [e1, e2, ← mineOf_some (m := m) hk, upd_id]
    exact hcount
  unfold Conc.micro at hm
  cases hp : k.prog with
  | ret r => simp only [hp, reduceCtorEq] at hm
  | lock m' p =>
    rw [hp] at hd
    simp only [hp] at hm
    split at hm
    · next hfree =>
      cases hm
      simp only [LeavesW] at hd
      by_cases e : m' = m
      · subst e
        rw [if_pos rfl] at hd
        obtain ⟨rfl, hd⟩ := hd
        simp only [upd_self]
        refine ⟨?_, .ann, by rw [hmine]; rfl, ?_⟩
        · have := hcount.announce (t + 1) hfree
          rw [owedW_upd] at this
          simp only [owedW] at this
          rwa [hft, ← hmine] at this
        · simp only [LeavesW, if_pos]; exact ⟨trivial, hd⟩
      · rw [if_neg e] at hd
        refine same (.acquire m' p) (upd_ne _ _ (Ne.symm e)) (upd_ne _ _ (Ne.symm e)) rfl ?_
        simp only [LeavesW, if_neg e]; exact hd
    · cases hm
  | acquire m' p =>
    rw [hp] at hd
    simp only [hp] at hm
    split at hm
    · next hfree =>
      cases hm
      simp only [LeavesW] at hd
      by_cases e : m' = m
      · subst e
        rw [if_pos rfl] at hd
        obtain ⟨rfl, hd⟩ := hd
        simp only [upd_self]
        refine ⟨?_, .wr, by rw [hmine]; rfl, hd⟩
        have := hcount.acquire (t + 1) (by show (mineOf m' c t).wr = _; rw [hft]; rfl) hfree
        rw [owedW_upd] at this
        simp only [owedW] at this
        rwa [hft, ← hmine] at this
      · rw [if_neg e] at hd
        exact same p (upd_ne _ _ (Ne.symm e)) (upd_ne _ _ (Ne.symm e)) rfl hd.2
    · cases hm
  | unlock m' p =>
    rw [hp] at hd
    simp only [hp] at hm
    split at hm
    · next hfree =>
      cases hm
      simp only [LeavesW] at hd
      by_cases e : m' = m
      · subst e
        rw [if_pos rfl] at hd
        obtain ⟨rfl, hd⟩ := hd
        simp only [upd_self]
        refine ⟨?_, .rd 0, by rw [hmine]; rfl, hd⟩
        have := hcount.unlock (t + 1) (by show (mineOf m' c t).wr = _; rw [hft]; rfl)
        rw [owedW_upd] at this
        simp only [owedW] at this
        rwa [hft, ← hmine] at this
      · rw [if_neg e] at hd
        exact same p (upd_ne _ _ (Ne.symm e)) (upd_ne _ _ (Ne.symm e)) rfl hd.2
    · cases hm
  | rlock m' p =>
    rw [hp] at hd
    simp only [hp] at hm
    split at hm
    · next hfree =>
      cases hm
      simp only [LeavesW] at hd
      by_cases e : m' = m
      · subst e
        rw [if_pos rfl] at hd
        obtain ⟨n, rfl, hd⟩ := hd
        simp only [upd_self]
        refine ⟨?_, .rd (n + 1), by rw [hmine]; rfl, hd⟩
        have := hcount.rlock (t + 1) hfree
        rw [owedW_upd] at this
        simp only [owedW] at this
        rwa [hft, ← hmine] at this
      · rw [if_neg e] at hd
        exact same p (upd_ne _ _ (Ne.symm e)) (upd_ne _ _ (Ne.symm e)) rfl hd.2
    · cases hm
  | runlock m' p =>
    rw [hp] at hd
    simp only [hp] at hm
    split at hm
    · next hfree =>
      cases hm
      simp only [LeavesW] at hd
      by_cases e : m' = m
      · subst e
        rw [if_pos rfl] at hd
        obtain ⟨n, rfl, hd⟩ := hd
        simp only [upd_self]
        refine ⟨?_, .rd n, by rw [hmine]; rfl, hd⟩
        have := hcount.runlock (t + 1) (by show (mineOf m' c t).readers ≠ _; rw [hft]; exact Nat.succ_ne_zero n)
        rw [owedW_upd] at this
        simp only [owedW] at this
        rwa [hft, ← hmine] at this
      · rw [if_neg e] at hd
        exact same p (upd_ne _ _ (Ne.symm e)) (upd_ne _ _ (Ne.symm e)) rfl hd.2
    · cases hm
  | read l p =>
    rw [hp] at hd
    simp only [hp, Option.some.injEq, Prod.mk.injEq] at hm
    obtain ⟨rfl, rfl, rfl⟩ := hm
    exact same _ rfl rfl rfl (hd.2 _)
  | write l f p =>
    rw [hp] at hd
    simp only [hp, Option.some.injEq, Prod.mk.injEq] at hm
    obtain ⟨rfl, rfl, rfl⟩ := hm
    exact same _ rfl rfl rfl (hd.2 _)

theorem leakInvW {m : μ} {left : Op → Out → Hold → Prop} {prog : Op → Prog μ κ σ Out} {allowed : Op → Prop}
    (hl : ∀ op, allowed op → LeavesW m (left op) (prog op) (.rd 0)) {s : σ} {c : Cfg μ κ σ Op Out}
    (hr : Reach prog allowed s c) : LeakInvW m left c := by
  induction hr with
  | init =>
    refine ⟨⟨.init, ?_, ⟨fun i t op t' out h => (by cases h), fun _ => rfl, (by decide)⟩⟩, fun t k hk => by cases hk⟩
    have : owedW .init (mineOf m (Cfg.init s : Cfg μ κ σ Op Out)) = fun _ => Mu.init := by
      funext i; cases i <;> rfl
    rw [this]
    exact CountInv.init
  | step c c' a hr ha hst ih =>
    have hI := ids hr
    rcases step_cases hst with ⟨t, op, rfl, hc, rfl⟩ | ⟨t, k, k', mus, d, -, hc, hm, rfl⟩ | ⟨t, k, r, -, hc, hp, rfl⟩
    · obtain ⟨O, hcount, hsum⟩ := ih.count
      refine ⟨⟨O, ?_, ?_, ?_, hsum.kind⟩, ?_⟩
      · have : mineOf m { c with calls := upd c.calls t (some ⟨c.next, op, prog op, fun _ => .init⟩),
                                 next := c.next + 1, hist := c.hist ++ [.inv c.next t op] } = mineOf m c := by
          funext t'
          unfold mineOf
          by_cases e : t' = t
          · subst e; simp only [upd_self, hc]
          · simp only [upd_ne _ _ e]
        rw [this]
        exact hcount
      · intro i t1 op1 t2 out h1 h2
        rcases mem_snoc.mp h2 with h2 | h2
        · rcases mem_snoc.mp h1 with h1 | h1
          · exact hsum.each _ _ _ _ _ h1 h2
          · cases h1; exact absurd (hI.resOld _ _ _ h2) (Nat.lt_irrefl _)
        · cases h2
      · exact fun h => hsum.none fun i t1 op1 t2 out n h1 h2 =>
          h i t1 op1 t2 out n (mem_snoc.mpr (.inl h1)) (mem_snoc.mpr (.inl h2))
      · intro t' k hk
        rcases upd_some hk with ⟨rfl, e⟩ | ⟨-, e⟩
        · cases e; exact ⟨.rd 0, rfl, hl op (ha t' op rfl)⟩
        · exact ih.prog t' k e
    · exact ih.micro hc hm
    · obtain ⟨O, hcount, hsum⟩ := ih.count
      obtain ⟨hold, hmine, hd⟩ := ih.prog t k hc
      rw [hp] at hd
      obtain ⟨hann, hn⟩ := hd
      have hft := (mineOf_some (m := m) hc).trans hmine
      refine ⟨⟨addLeft O hold.mu, ?_, ?_, ?_, ?_⟩, ?_⟩
      · have : mineOf m { c with calls := upd c.calls t none, hist := c.hist ++ [.res k.id t r] } =
            upd (mineOf m c) t Mu.init := by
          funext t'
          unfold mineOf
          by_cases e : t' = t
          · subst e; simp only [upd_self]
          · simp only [upd_ne _ _ e]
        rw [this, ← hft]
        exact hcount.leaveW t
      · intro i t1 op1 t2 out h1 h2
        rcases mem_snoc.mp h1 with h1 | h1
        · rcases mem_snoc.mp h2 with h2 | h2
          · obtain ⟨x, hx, hxa, hle, hw⟩ := hsum.each _ _ _ _ _ h1 h2
            refine ⟨x, hx, hxa, Nat.le_trans hle (Nat.le_add_right _ _), fun e => ?_⟩
            have hO := hw e
            show (if hold.mu.wr = .free then O.wr else hold.mu.wr) = _
            split
            · exact hO
            · cases hold with
              | rd n => rename_i h'; exact absurd rfl h'
              | ann => exact absurd rfl hann
              | wr => rfl
          · cases h2
            rw [hI.same _ _ _ _ _ h1 (hI.called _ _ hc)]
            refine ⟨hold, hn, hann, Nat.le_add_left _ _, ?_⟩
            rintro rfl
            rfl
        · cases h1
      · intro h
        have h0 : hold = .rd 0 := h k.id t k.op t r hold (mem_snoc.mpr (.inl (hI.called _ _ hc))) (mem_snoc.mpr (.inr rfl)) hn
        rw [hsum.none fun i t1 op1 t2 out n h1 h2 =>
          h i t1 op1 t2 out n (mem_snoc.mpr (.inl h1)) (mem_snoc.mpr (.inl h2)), h0]
        rfl
      · show (if hold.mu.wr = .free then O.wr else hold.mu.wr) ≠ _
        split
        · exact hsum.kind
        · cases hold with
          | rd n => rename_i h'; exact absurd rfl h'
          | ann => exact absurd rfl hann
          | wr => exact Wr.noConfusion
      · intro t' k' hk
        rcases upd_some hk with ⟨rfl, e⟩ | ⟨-, e⟩
        · cases e
        · exact ih.prog t' k' e

/-- If no call can have left anything behind, a mutex that nobody uses is unlocked. -/
theorem idle_unlockedW {m : μ} {left : Op → Out → Hold → Prop} {c : Cfg μ κ σ Op Out} (hi : LeakInvW m left c)
    (hl : ∀ i t op t' out x, Ev.inv i t op ∈ c.hist → Ev.res i t' out ∈ c.hist → left op out x → x = .rd 0)
    (hidle : ∀ t, c.calls t = none) : c.mus m = .init := by
  obtain ⟨O, hcount, hsum⟩ := hi.count
  obtain rfl : O = .init := hsum.none hl
  have hz : ∀ i, owedW .init (mineOf m c) i = .init := by
    intro i
    cases i with
    | zero => rfl
    | succ i => show mineOf m c i = _; unfold mineOf; simp only [hidle]
  have hr : (c.mus m).readers = 0 := by
    apply Classical.byContradiction
    intro h
    obtain ⟨i, h'⟩ := hcount.exists_reader trivial h
    rw [hz] at h'
    exact h' rfl
  have hw : (c.mus m).wr = .free := by
    apply Classical.byContradiction
    intro h
    obtain ⟨i, h', -⟩ := hcount.one h
    rw [hz] at h'
    exact h h'.symm
  cases hm : c.mus m
  rw [hm] at hr hw
  simp only at hr hw
  rw [hr, hw]; rfl

/-- A finished call has certainly left a lock behind: some read locks, or the write lock. -/
def LeftW (left : Op → Out → Hold → Prop) (h : List (Ev Op Out)) : Prop :=
  ∃ i t op t' out, Ev.inv i t op ∈ h ∧ Ev.res i t' out ∈ h ∧ ¬ left op out (.rd 0)

/-- A finished call has certainly left the write lock behind. -/
def LeftWr (left : Op → Out → Hold → Prop) (h : List (Ev Op Out)) : Prop :=
  ∃ i t op t' out, Ev.inv i t op ∈ h ∧ Ev.res i t' out ∈ h ∧ ∀ x, left op out x → x = .wr

/-- Then the mutex has readers, or is held for writing by nobody in particular, from then on. -/
theorem leftW_locked {m : μ} {left : Op → Out → Hold → Prop} {c : Cfg μ κ σ Op Out} (hi : LeakInvW m left c)
    (hl : LeftW left c.hist) : (c.mus m).readers ≠ 0 ∨
      ((c.mus m).wr = .held ∧ ∀ t k, c.calls t = some k → (k.mine m).wr = .free) := by
  obtain ⟨i, t, op, t', out, h1, h2, hne⟩ := hl
  obtain ⟨O, hcount, hsum⟩ := hi.count
  obtain ⟨x, hx, hxa, hle, hw⟩ := hsum.each _ _ _ _ _ h1 h2
  cases x with
  | rd n =>
    refine .inl (hcount.readers_ne (t := 0) ?_)
    have : n ≠ 0 := fun e => hne (e ▸ hx)
    have hle : n ≤ O.readers := hle
    show O.readers ≠ 0
    omega
  | ann => exact absurd rfl hxa
  | wr =>
    obtain ⟨h1, h2⟩ := hcount.wr_eq (t := 0) (w := .held) Wr.noConfusion (hw rfl)
    refine .inr ⟨h1, fun t k hk => ?_⟩
    have := h2 (t + 1) (Nat.succ_ne_zero t)
    rwa [show owedW O (mineOf m c) (t + 1) = mineOf m c t from rfl, mineOf_some hk] at this

theorem leftWr_locked {m : μ} {left : Op → Out → Hold → Prop} {c : Cfg μ κ σ Op Out} (hi : LeakInvW m left c)
    (hl : LeftWr left c.hist) : (c.mus m).wr = .held ∧ ∀ t k, c.calls t = some k → (k.mine m).wr = .free := by
  obtain ⟨i, t, op, t', out, h1, h2, hwr⟩ := hl
  obtain ⟨O, hcount, hsum⟩ := hi.count
  obtain ⟨x, hx, hxa, hle, hw⟩ := hsum.each _ _ _ _ _ h1 h2
  obtain ⟨h1, h2⟩ := hcount.wr_eq (t := 0) (w := .held) Wr.noConfusion (hw (hwr x hx))
  refine ⟨h1, fun t k hk => ?_⟩
  have := h2 (t + 1) (Nat.succ_ne_zero t)
  rwa [show owedW O (mineOf m c) (t + 1) = mineOf m c t from rfl, mineOf_some hk] at this

theorem leftW_step {left : Op → Out → Hold → Prop} {prog : Op → Prog μ κ σ Out} {c c' : Cfg μ κ σ Op Out} {a : Act Op}
    (hs : Conc.step prog c a = some c') (h : LeftW left c.hist) : LeftW left c'.hist := by
  obtain ⟨i, t, op, t', out, h1, h2, h3⟩ := h
  exact ⟨i, t, op, t', out, step_hist hs h1, step_hist hs h2, h3⟩

theorem leftWr_step {left : Op → Out → Hold → Prop} {prog : Op → Prog μ κ σ Out} {c c' : Cfg μ κ σ Op Out} {a : Act Op}
    (hs : Conc.step prog c a = some c') (h : LeftWr left c.hist) : LeftWr left c'.hist := by
  obtain ⟨i, t, op, t', out, h1, h2, h3⟩ := h
  exact ⟨i, t, op, t', out, step_hist hs h1, step_hist hs h2, h3⟩

/-! ## Calls that cannot return -/

theorem free_of_acquire {m : μ} {left : Op → Out → Hold → Prop} {c : Cfg μ κ σ Op Out} (hi : LeakInvW m left c) {t : Nat}
    {k : Call μ κ σ Op Out} (hk : c.calls t = some k) (hf : (k.mine m).wr = .free) (p : Prog μ κ σ Out) :
    k.prog ≠ .acquire m p := by
  intro e
  obtain ⟨h, hm, hl⟩ := hi.prog t k hk
  rw [e] at hl
  simp only [LeavesW, if_true] at hl
  rw [hm, hl.1] at hf
  cases hf

theorem mustLock_pass {m : μ} {c : Cfg μ κ σ Op Out} {k k' : Call μ κ σ Op Out} {mus d}
    (hno : ∀ p, k.prog ≠ .acquire m p) (hm : micro c k = some (k', mus, d))
    (h : MustLock m k.prog) : MustLock m k'.prog := by
  unfold micro at hm
  cases hp : k.prog <;> simp only [hp] at hm <;> rw [hp] at h
  case ret => cases hm
  case lock m' p => split at hm <;> cases hm; exact h
  case acquire m' p =>
    split at hm <;> cases hm
    exact h.resolve_left fun e => hno p (e ▸ hp)
  case unlock m' p => split at hm <;> cases hm; exact h
  case rlock m' p => split at hm <;> cases hm; exact h
  case runlock m' p => split at hm <;> cases hm; exact h
  case read l p => cases hm; exact h _
  case write l f p => cases hm; exact h _

theorem mustUse_held {m : μ} {c : Cfg μ κ σ Op Out} {k k' : Call μ κ σ Op Out} {mus d}
    (hw : (c.mus m).wr = .held) (hno : ∀ p, k.prog ≠ .acquire m p) (hm : micro c k = some (k', mus, d))
    (h : MustUse m k.prog) : MustUse m k'.prog := by
  unfold micro at hm
  cases hp : k.prog <;> simp only [hp] at hm <;> rw [hp] at h
  case ret => cases hm
  case lock m' p => split at hm <;> cases hm; exact h
  case acquire m' p =>
    split at hm <;> cases hm
    exact h.resolve_left fun e => hno p (e ▸ hp)
  case unlock m' p => split at hm <;> cases hm; exact h
  case rlock m' p =>
    split at hm <;> cases hm
    rename_i h0
    refine h.resolve_left fun e => ?_
    rw [e, hw] at h0
    cases h0
  case runlock m' p => split at hm <;> cases hm; exact h
  case read l p => cases hm; exact h _
  case write l f p => cases hm; exact h _

/-- Once a call has left a lock behind, no call made later that takes the write lock returns. -/
theorem writer_stuckW {m : μ} {left : Op → Out → Hold → Prop} {prog : Op → Prog μ κ σ Out} {allowed : Op → Prop}
    (hl : ∀ op, allowed op → LeavesW m (left op) (prog op) (.rd 0)) {s : σ} {c c' : Cfg μ κ σ Op Out}
    (hr : Reach prog allowed s c) (hleft : LeftW left c.hist) {as : List (Act Op)}
    (has : ∀ a ∈ as, ∀ t op, a = .call t op → allowed op) (he : exec prog c as = some c') {j r : Nat} {op : Op}
    (hop : MustLock m (prog op)) (hnew : Ev.inv j r op ∉ c.hist) (hmade : Ev.inv j r op ∈ c'.hist) (r' : Nat)
    (out : Out) : Ev.res j r' out ∉ c'.hist := by
  have := stuck (A := fun op => MustLock m (prog op)) (Q := fun _ => MustLock m) (P := fun c => LeftW left c.hist)
    (fun _ h => h) (fun _ _ _ h => h) (fun c c' a _ h hs => leftW_step hs h)
    (fun c t k k' mus d hr h hk hm _ hq => by
      have hi := leakInvW hl hr
      rcases leftW_locked hi h with h | ⟨h1, h2⟩
      · exact mustLock_micro h hm hq
      · exact mustLock_pass (free_of_acquire hi hk (h2 t k hk)) hm hq) as hr hleft
    (Stuck.start hr) has he
  exact this.res j r out r' op (exec_new he hmade hnew) hop hmade

/-- If it has left the write lock behind, no call made later that takes any lock returns. -/
theorem user_stuckWr {m : μ} {left : Op → Out → Hold → Prop} {prog : Op → Prog μ κ σ Out} {allowed : Op → Prop}
    (hl : ∀ op, allowed op → LeavesW m (left op) (prog op) (.rd 0)) {s : σ} {c c' : Cfg μ κ σ Op Out}
    (hr : Reach prog allowed s c) (hleft : LeftWr left c.hist) {as : List (Act Op)}
    (has : ∀ a ∈ as, ∀ t op, a = .call t op → allowed op) (he : exec prog c as = some c') {j r : Nat} {op : Op}
    (hop : MustUse m (prog op)) (hnew : Ev.inv j r op ∉ c.hist) (hmade : Ev.inv j r op ∈ c'.hist) (r' : Nat)
    (out : Out) : Ev.res j r' out ∉ c'.hist := by
  have := stuck (A := fun op => MustUse m (prog op)) (Q := fun _ => MustUse m) (P := fun c => LeftWr left c.hist)
    (fun _ h => h) (fun _ _ _ h => h) (fun c c' a _ h hs => leftWr_step hs h)
    (fun c t k k' mus d hr h hk hm _ hq => by
      have hi := leakInvW hl hr
      obtain ⟨h1, h2⟩ := leftWr_locked hi h
      exact mustUse_held h1 (free_of_acquire hi hk (h2 t k hk)) hm hq) as hr hleft
    (Stuck.start hr) has he
  exact this.res j r out r' op (exec_new he hmade hnew) hop hmade

/-- If a writer is waiting besides, no call made later that takes any lock returns. -/
theorem user_stuckW {m : μ} {left : Op → Out → Hold → Prop} {prog : Op → Prog μ κ σ Out} {allowed : Op → Prop}
    (hl : ∀ op, allowed op → LeavesW m (left op) (prog op) (.rd 0)) {s : σ} {c c' : Cfg μ κ σ Op Out}
    (hr : Reach prog allowed s c) (hleft : LeftW left c.hist) (hwr : (c.mus m).wr = .announced) {as : List (Act Op)}
    (has : ∀ a ∈ as, ∀ t op, a = .call t op → allowed op) (he : exec prog c as = some c') {j r : Nat} {op : Op}
    (hop : MustUse m (prog op)) (hnew : Ev.inv j r op ∉ c.hist) (hmade : Ev.inv j r op ∈ c'.hist) (r' : Nat)
    (out : Out) : Ev.res j r' out ∉ c'.hist := by
  have hrd : ∀ {c : Cfg μ κ σ Op Out}, Reach prog allowed s c → LeftW left c.hist → (c.mus m).wr = .announced →
      (c.mus m).readers ≠ 0 := by
    intro c hr h hw
    rcases leftW_locked (leakInvW hl hr) h with h | ⟨h1, -⟩
    · exact h
    · rw [hw] at h1; cases h1
  have := stuck (A := fun op => MustUse m (prog op)) (Q := fun _ => MustUse m)
    (P := fun c => LeftW left c.hist ∧ (c.mus m).wr = .announced)
    (fun _ h => h) (fun _ _ _ h => h)
    (by
      rintro c c' a hr ⟨h, hw⟩ hs
      refine ⟨leftW_step hs h, ?_⟩
      rcases step_cases hs with ⟨t, op, -, hc, rfl⟩ | ⟨t, k, k', mus, d, -, hc, hm, rfl⟩ | ⟨t, k, r, -, hc, hp, rfl⟩
      · exact hw
      · exact announced_micro (hrd hr h hw) hw hm
      · exact hw)
    (fun c t k k' mus d hr h hk hm _ hq => mustUse_micro (hrd hr h.1 h.2) h.2 hm hq) as hr ⟨hleft, hwr⟩
    (Stuck.start hr) has he
  exact this.res j r out r' op (exec_new he hmade hnew) hop hmade

/-! ## A call made alone -/

/-- A call that has the mutexes to itself can run to its end. -/
theorem soloW {prog : Op → Prog μ κ σ Out} {post : μ → Out → Hold → Prop} {t : Nat} (p : Prog μ κ σ Out) :
    ∀ {c : Cfg μ κ σ Op Out} {k : Call μ κ σ Op Out} {hold : μ → Hold}, c.calls t = some k → k.prog = p →
    (∀ m, c.mus m = (hold m).mu) → (∀ m, LeavesW m (post m) p (hold m)) →
    ∃ n c', exec prog c (List.replicate n (.tau t) ++ [.ret t]) = some c' := by
  induction p with
  | ret r =>
    intro c k hold hk hp _ _
    refine ⟨0, { c with calls := upd c.calls t none, hist := c.hist ++ [.res k.id t r] }, ?_⟩
    simp only [List.replicate_zero, List.nil_append, exec, Conc.step, hk, hp]
  | lock m p ih =>
    intro c k hold hk hp hmus hl
    have h0 := hl m
    simp only [LeavesW, if_true] at h0
    have hm : c.mus m = ⟨0, .free⟩ := by rw [hmus, h0.1]; rfl
    have s1 := tau_of (prog := prog) hk
      (by unfold micro; simp only [hp, hm, if_true]; rfl)
    have s2 := tau_of (prog := prog) (c := { c with
        mus := upd c.mus m ⟨0, .announced⟩,
        calls := upd c.calls t (some ⟨k.id, k.op, .acquire m p, upd k.mine m { k.mine m with wr := .announced }⟩) })
      (upd_self _ _ _) (by unfold micro; simp only [upd_self, if_true]; rfl)
    refine solo_go s1 (solo_go s2 (ih (hold := upd hold m .wr) (upd_self _ _ _) rfl ?_ ?_))
    · intro m'
      by_cases e : m' = m
      · subst e; simp only [upd_self]; rfl
      · simp only [upd_ne _ _ e, hmus]
    · intro m'
      by_cases e : m' = m
      · subst e; rw [upd_self]; exact h0.2
      · have := hl m'
        simp only [LeavesW, if_neg (Ne.symm e)] at this
        rw [upd_ne _ _ e]; exact this.2
  | acquire m p ih =>
    intro c k hold hk hp hmus hl
    have h0 := hl m
    simp only [LeavesW, if_true] at h0
    have hm : c.mus m = ⟨0, .announced⟩ := by rw [hmus, h0.1]; rfl
    have s1 := tau_of (prog := prog) hk
      (by unfold micro; simp only [hp, hm, if_true]; rfl)
    refine solo_go s1 (ih (hold := upd hold m .wr) (upd_self _ _ _) rfl ?_ ?_)
    · intro m'
      by_cases e : m' = m
      · subst e; simp only [upd_self]; rfl
      · simp only [upd_ne _ _ e, hmus]
    · intro m'
      by_cases e : m' = m
      · subst e; rw [upd_self]; exact h0.2
      · have := hl m'
        simp only [LeavesW, if_neg (Ne.symm e)] at this
        rw [upd_ne _ _ e]; exact this.2
  | unlock m p ih =>
    intro c k hold hk hp hmus hl
    have h0 := hl m
    simp only [LeavesW, if_true] at h0
    have hm : c.mus m = ⟨0, .held⟩ := by rw [hmus, h0.1]; rfl
    have s1 := tau_of (prog := prog) hk
      (by unfold micro; simp only [hp, hm, if_true]; rfl)
    refine solo_go s1 (ih (hold := upd hold m (.rd 0)) (upd_self _ _ _) rfl ?_ ?_)
    · intro m'
      by_cases e : m' = m
      · subst e; simp only [upd_self]; rfl
      · simp only [upd_ne _ _ e, hmus]
    · intro m'
      by_cases e : m' = m
      · subst e; rw [upd_self]; exact h0.2
      · have := hl m'
        simp only [LeavesW, if_neg (Ne.symm e)] at this
        rw [upd_ne _ _ e]; exact this.2
  | rlock m p ih =>
    intro c k hold hk hp hmus hl
    have h0 := hl m
    simp only [LeavesW, if_true] at h0
    obtain ⟨i, h1, h2⟩ := h0
    have hm : c.mus m = ⟨i, .free⟩ := by rw [hmus, h1]; rfl
    have s1 := tau_of (prog := prog) hk
      (by unfold micro; simp only [hp, hm, if_true]; rfl)
    refine solo_go s1 (ih (hold := upd hold m (.rd (i + 1))) (upd_self _ _ _) rfl ?_ ?_)
    · intro m'
      by_cases e : m' = m
      · subst e; simp only [upd_self]; rfl
      · simp only [upd_ne _ _ e, hmus]
    · intro m'
      by_cases e : m' = m
      · subst e; rw [upd_self]; exact h2
      · have := hl m'
        simp only [LeavesW, if_neg (Ne.symm e)] at this
        rw [upd_ne _ _ e]; exact this.2
  | runlock m p ih =>
    intro c k hold hk hp hmus hl
    have h0 := hl m
    simp only [LeavesW, if_true] at h0
    obtain ⟨i, h1, h2⟩ := h0
    have hm : c.mus m = ⟨i + 1, .free⟩ := by rw [hmus, h1]; rfl
    have s1 := tau_of (prog := prog) hk
      (by unfold micro; simp only [hp, hm, ne_eq, Nat.succ_ne_zero, not_false_eq_true, if_true]; rfl)
    refine solo_go s1 (ih (hold := upd hold m (.rd i)) (upd_self _ _ _) rfl ?_ ?_)
    · intro m'
      by_cases e : m' = m
      · subst e; simp only [upd_self]; rfl
      · simp only [upd_ne _ _ e, hmus]
    · intro m'
      by_cases e : m' = m
      · subst e; rw [upd_self]; exact h2
      · have := hl m'
        simp only [LeavesW, if_neg (Ne.symm e)] at this
        rw [upd_ne _ _ e]; exact this.2
  | read l p ih =>
    intro c k hold hk hp hmus hl
    have s1 := tau_of (prog := prog) hk (by unfold micro; simp only [hp]; rfl)
    exact solo_go s1 (ih c.data (hold := hold) (upd_self _ _ _) rfl hmus (fun m => (hl m).2 _))
  | write l f p ih =>
    intro c k hold hk hp hmus hl
    have s1 := tau_of (prog := prog) hk (by unfold micro; simp only [hp]; rfl)
    exact solo_go s1 (ih c.data (hold := hold) (upd_self _ _ _) rfl hmus (fun m => (hl m).2 _))

/-- With unlocked mutexes, a new call can run to its end. -/
theorem ends_aloneW {prog : Op → Prog μ κ σ Out} {post : μ → Out → Hold → Prop} {c : Cfg μ κ σ Op Out} {t : Nat} {op : Op}
    (hc : c.calls t = none) (hmus : ∀ m, c.mus m = .init) (hl : ∀ m, LeavesW m (post m) (prog op) (.rd 0)) :
    ∃ n c', exec prog c (.call t op :: (List.replicate n (.tau t) ++ [.ret t])) = some c' := by
  obtain ⟨n, c', he⟩ := soloW (prog := prog) (post := post) (t := t) (prog op)
    (c := { c with calls := upd c.calls t (some ⟨c.next, op, prog op, fun _ => .init⟩),
                   next := c.next + 1, hist := c.hist ++ [.inv c.next t op] })
    (hold := fun _ => .rd 0) (upd_self _ _ _) rfl hmus hl
  refine ⟨n, c', ?_⟩
  simp only [exec, Conc.step, hc]
  exact he

end Netscrape.Conc
