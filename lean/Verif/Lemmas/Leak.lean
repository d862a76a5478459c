import Verif.Lemmas.Progress

/-!
# Read locks that calls leave behind

`left op out n`: a call `op` which ends with `out` may keep `n` read locks of mutex `m`. The sum of all that is
never given back.
-/

namespace Netscrape.Conc
open Netscrape.Spec

variable {μ κ σ ρ α β Op Out : Type}

/-! ## Calls and history -/

/-- Calls in progress and history. -/
structure Ids (c : Cfg μ κ σ Op Out) : Prop where
  called : ∀ t k, c.calls t = some k → Ev.inv k.id t k.op ∈ c.hist
  apart : ∀ t t' k k', c.calls t = some k → c.calls t' = some k' → k.id = k'.id → t = t'
  below : ∀ i t op, Ev.inv i t op ∈ c.hist → i < c.next
  same : ∀ i t op t' op', Ev.inv i t op ∈ c.hist → Ev.inv i t' op' ∈ c.hist → op = op'
  resOld : ∀ i t out, Ev.res i t out ∈ c.hist → i < c.next

variable [DecidableEq μ]

theorem micro_id {c : Cfg μ κ σ Op Out} {k k' : Call μ κ σ Op Out} {mus d} (h : micro c k = some (k', mus, d)) :
    k'.id = k.id ∧ k'.op = k.op := by
  unfold micro at h
  cases hp : k.prog <;> simp only [hp] at h
  case ret => cases h
  case lock => split at h <;> cases h <;> exact ⟨rfl, rfl⟩
  case acquire => split at h <;> cases h <;> exact ⟨rfl, rfl⟩
  case unlock => split at h <;> cases h <;> exact ⟨rfl, rfl⟩
  case rlock => split at h <;> cases h <;> exact ⟨rfl, rfl⟩
  case runlock => split at h <;> cases h <;> exact ⟨rfl, rfl⟩
  case read => cases h; exact ⟨rfl, rfl⟩
  case write => cases h; exact ⟨rfl, rfl⟩

/-- The three kinds of steps. -/
theorem step_cases {prog : Op → Prog μ κ σ Out} {c c' : Cfg μ κ σ Op Out} {a : Act Op}
    (h : Conc.step prog c a = some c') :
    (∃ t op, a = .call t op ∧ c.calls t = none ∧ c' = { c with
      calls := upd c.calls t (some ⟨c.next, op, prog op, fun _ => .init⟩),
      next := c.next + 1, hist := c.hist ++ [.inv c.next t op] }) ∨
    (∃ t k k' mus d, a = .tau t ∧ c.calls t = some k ∧ micro c k = some (k', mus, d) ∧
      c' = { c with data := d, mus := mus, calls := upd c.calls t (some k') }) ∨
    (∃ t k r, a = .ret t ∧ c.calls t = some k ∧ k.prog = .ret r ∧
      c' = { c with calls := upd c.calls t none, hist := c.hist ++ [.res k.id t r] }) := by
  cases a with
  | call t op =>
    unfold Conc.step at h
    cases hc : c.calls t with
    | some k => simp only [hc, reduceCtorEq] at h
    | none => simp only [hc, Option.some.injEq] at h; exact .inl ⟨t, op, rfl, hc, h.symm⟩
  | tau t =>
    unfold Conc.step at h
    cases hc : c.calls t with
    | none => simp only [hc, reduceCtorEq] at h
    | some k =>
      simp only [hc] at h
      cases hm : micro c k with
      | none => simp only [hm, reduceCtorEq] at h
      | some r =>
        obtain ⟨k', mus, d⟩ := r
        simp only [hm, Option.some.injEq] at h
        exact .inr (.inl ⟨t, k, k', mus, d, rfl, hc, hm, h.symm⟩)
  | ret t =>
    unfold Conc.step at h
    cases hc : c.calls t with
    | none => simp only [hc, reduceCtorEq] at h
    | some k =>
      cases hp : k.prog with
      | ret r => simp only [hc, hp, Option.some.injEq] at h; exact .inr (.inr ⟨t, k, r, rfl, hc, hp, h.symm⟩)
      | _ => simp only [hc, hp, reduceCtorEq] at h

theorem upd_some {α : Type} {f : Nat → Option α} {t t' : Nat} {x : Option α} {k : α} (h : upd f t x t' = some k) :
    (t' = t ∧ x = some k) ∨ (t' ≠ t ∧ f t' = some k) := by
  by_cases e : t' = t
  · subst e; rw [upd_self] at h; exact .inl ⟨rfl, h⟩
  · rw [upd_ne _ _ e] at h; exact .inr ⟨e, h⟩

theorem mem_snoc {α : Type} {l : List α} {x y : α} : x ∈ l ++ [y] ↔ x ∈ l ∨ x = y := by
  simp

theorem ids {prog : Op → Prog μ κ σ Out} {allowed : Op → Prop} {s : σ} {c : Cfg μ κ σ Op Out}
    (hr : Reach prog allowed s c) : Ids c := by
  induction hr with
  | init =>
    exact ⟨fun t k h => (by cases h), fun t t' k k' h => (by cases h), fun i t op h => (by cases h),
      fun i t op t' op' h => (by cases h), fun i t out h => (by cases h)⟩
  | step c c' a _ _ hs ih =>
    rcases step_cases hs with ⟨t, op, -, hc, rfl⟩ | ⟨t, k, k', mus, d, -, hc, hm, rfl⟩ | ⟨t, k, r, -, hc, hp, rfl⟩
    · have hlt : ∀ t k, c.calls t = some k → k.id < c.next := fun t k h => ih.below _ _ _ (ih.called t k h)
      refine ⟨?_, ?_, ?_, ?_, ?_⟩
      · intro t' k h
        rw [mem_snoc]
        rcases upd_some h with ⟨rfl, e⟩ | ⟨-, e⟩
        · cases e; exact .inr rfl
        · exact .inl (ih.called _ _ e)
      · intro t1 t2 k1 k2 h1 h2 e
        rcases upd_some h1 with ⟨rfl, e1⟩ | ⟨-, e1⟩ <;> rcases upd_some h2 with ⟨rfl, e2⟩ | ⟨-, e2⟩
        · rfl
        · cases e1
          have := hlt _ _ e2
          simp only at e
          omega
        · cases e2
          have := hlt _ _ e1
          simp only at e
          omega
        · exact ih.apart _ _ _ _ e1 e2 e
      · intro i t' op' h
        rcases mem_snoc.mp h with h | h
        · exact Nat.lt_succ_of_lt (ih.below _ _ _ h)
        · cases h; exact Nat.lt_succ_self _
      · intro i t1 op1 t2 op2 h1 h2
        rcases mem_snoc.mp h1 with h1 | h1 <;> rcases mem_snoc.mp h2 with h2 | h2
        · exact ih.same _ _ _ _ _ h1 h2
        · cases h2; exact absurd (ih.below _ _ _ h1) (Nat.lt_irrefl _)
        · cases h1; exact absurd (ih.below _ _ _ h2) (Nat.lt_irrefl _)
        · cases h1; cases h2; rfl
      · intro i t' out h
        rcases mem_snoc.mp h with h | h
        · exact Nat.lt_succ_of_lt (ih.resOld _ _ _ h)
        · cases h
    · obtain ⟨hid, hop⟩ := micro_id hm
      refine ⟨?_, ?_, ih.below, ih.same, ih.resOld⟩
      · intro t' k1 h
        rcases upd_some h with ⟨rfl, e⟩ | ⟨-, e⟩
        · cases e; rw [hid, hop]; exact ih.called _ _ hc
        · exact ih.called _ _ e
      · intro t1 t2 k1 k2 h1 h2 e
        rcases upd_some h1 with ⟨rfl, e1⟩ | ⟨-, e1⟩ <;> rcases upd_some h2 with ⟨rfl, e2⟩ | ⟨-, e2⟩
        · rfl
        · cases e1; exact ih.apart _ _ _ _ hc e2 (hid ▸ e)
        · cases e2; exact ih.apart _ _ _ _ e1 hc (hid ▸ e)
        · exact ih.apart _ _ _ _ e1 e2 e
    · refine ⟨?_, ?_, ?_, ?_, ?_⟩
      · intro t' k1 h
        rcases upd_some h with ⟨rfl, e⟩ | ⟨-, e⟩
        · cases e
        · exact mem_snoc.mpr (.inl (ih.called _ _ e))
      · intro t1 t2 k1 k2 h1 h2 e
        rcases upd_some h1 with ⟨rfl, e1⟩ | ⟨-, e1⟩ <;> rcases upd_some h2 with ⟨rfl, e2⟩ | ⟨-, e2⟩
        · rfl
        · cases e1
        · cases e2
        · exact ih.apart _ _ _ _ e1 e2 e
      · intro i t' op' h
        rcases mem_snoc.mp h with h | h
        · exact ih.below _ _ _ h
        · cases h
      · intro i t1 op1 t2 op2 h1 h2
        rcases mem_snoc.mp h1 with h1 | h1 <;> rcases mem_snoc.mp h2 with h2 | h2
        · exact ih.same _ _ _ _ _ h1 h2
        · cases h2
        · cases h1
        · cases h1
      · intro i t' out h
        rcases mem_snoc.mp h with h | h
        · exact ih.resOld _ _ _ h
        · cases h; exact ih.below _ _ _ (ih.called _ _ hc)

/-! ## The count -/

/-- Goroutine 0 stands for the locks left behind, goroutine `t + 1` for `t`. -/
def owed (L : Nat) (f : Nat → Mu) : Nat → Mu
  | 0 => ⟨L, .free⟩
  | t + 1 => f t

omit [DecidableEq μ] in
theorem owed_upd (L : Nat) (f : Nat → Mu) (t : Nat) (x : Mu) : upd (owed L f) (t + 1) x = owed L (upd f t x) := by
  funext i
  cases i with
  | zero => rfl
  | succ i =>
    by_cases e : i = t
    · subst e; simp only [upd_self, owed]
    · rw [upd_ne _ _ (fun h => e (Nat.succ.inj h))]
      show f i = upd f t x i
      rw [upd_ne _ _ e]

omit [DecidableEq μ] in
/-- A call returns: its read locks are left behind. -/
theorem CountInv.leave {M : Mu} {L : Nat} {f : Nat → Mu} (h : CountInv True M (owed L f)) (t : Nat)
    (ht : (f t).wr = .free) : CountInv True M (owed (L + (f t).readers) (upd f t Mu.init)) := by
  have hw : ∀ i, (owed (L + (f t).readers) (upd f t Mu.init) i).wr = (owed L f i).wr := by
    intro i
    cases i with
    | zero => rfl
    | succ i =>
      show (upd f t Mu.init i).wr = (f i).wr
      by_cases e : i = t
      · subst e; rw [upd_self, ht]; rfl
      · rw [upd_ne _ _ e]
  constructor
  · obtain ⟨rs, hl, -, he⟩ := h.readers
    have he := he trivial
    have key : ∀ (rs : List Nat) (i : Nat), (rs.map fun x => if x = t + 1 then 0 else x).count i =
        if i = 0 then rs.count 0 + rs.count (t + 1) else if i = t + 1 then 0 else rs.count i := by
      intro rs i
      induction rs with
      | nil => simp
      | cons x xs ih =>
        simp only [List.map_cons, List.count_cons, ih, beq_iff_eq]
        by_cases hx : x = t + 1
        · by_cases hi : i = 0
          · simp [hx, hi]; omega
          · by_cases hi' : i = t + 1
            · simp [hx, hi']
            · simp [hx, hi, hi', Ne.symm hi', Ne.symm hi]
        · by_cases hi : i = 0
          · simp only [hx, hi, if_true, if_false]
            omega
          · by_cases hi' : i = t + 1
            · simp [hx, hi']
            · simp [hx, hi, hi']
    have hall : ∀ i, (owed (L + (f t).readers) (upd f t Mu.init) i).readers =
        (rs.map fun x => if x = t + 1 then 0 else x).count i := by
      intro i
      rw [key]
      cases i with
      | zero =>
        have h0 : L = rs.count 0 := he 0
        have h1 : (f t).readers = rs.count (t + 1) := he (t + 1)
        show L + (f t).readers = _
        rw [if_pos rfl, h0, h1]
      | succ i =>
        rw [if_neg (Nat.succ_ne_zero i)]
        show (upd f t Mu.init i).readers = _
        by_cases e : i = t
        · subst e; rw [upd_self, if_pos rfl]; rfl
        · rw [upd_ne _ _ e, if_neg (fun h => e (Nat.succ.inj h))]; exact he (i + 1)
    exact ⟨_, by rw [List.length_map, hl], fun i => Nat.le_of_eq (hall i), fun _ i => hall i⟩
  · exact fun hf i => (hw i).trans (h.free hf i)
  · intro hf
    obtain ⟨i, h0, hr⟩ := h.one hf
    exact ⟨i, (hw i).trans h0, fun i' e => (hw i').trans (hr i' e)⟩
  · exact h.held

/-- `Leaves m post p h`: run by a goroutine that holds mutex `m` as `h` says, `p` locks and unlocks `m` properly
and, if it returns `r`, keeps `n` read locks for some `n` with `post r n`. -/
def Leaves (m : μ) (post : ρ → Nat → Prop) : Prog μ κ σ ρ → Hold → Prop
  | .ret r, h => ∃ n, post r n ∧ h = .rd n
  | .lock m' k, h => if m' = m then h = .rd 0 ∧ Leaves m post k .wr else h ≠ .ann ∧ Leaves m post k h
  | .acquire m' k, h => if m' = m then h = .ann ∧ Leaves m post k .wr else h ≠ .ann ∧ Leaves m post k h
  | .unlock m' k, h => if m' = m then h = .wr ∧ Leaves m post k (.rd 0) else h ≠ .ann ∧ Leaves m post k h
  | .rlock m' k, h =>
    if m' = m then ∃ n, h = .rd n ∧ Leaves m post k (.rd (n + 1)) else h ≠ .ann ∧ Leaves m post k h
  | .runlock m' k, h =>
    if m' = m then ∃ n, h = .rd (n + 1) ∧ Leaves m post k (.rd n) else h ≠ .ann ∧ Leaves m post k h
  | .read _ k, h => h ≠ .ann ∧ ∀ s, Leaves m post (k s) h
  | .write _ _ k, h => h ≠ .ann ∧ ∀ s, Leaves m post (k s) h

theorem Leaves.bind {m : μ} {post : α → Nat → Prop} {post' : β → Nat → Prop} {f : α → Prog μ κ σ β}
    (hf : ∀ x n, post x n → Leaves m post' (f x) (.rd n)) {p : Prog μ κ σ α} :
    ∀ {h : Hold}, Leaves m post p h → Leaves m post' (p.bind f) h := by
  induction p with
  | ret r => rintro h ⟨n, hn, rfl⟩; exact hf r n hn
  | lock m' k ih =>
    intro h hl
    simp only [Leaves, Prog.bind] at hl ⊢
    split <;> rename_i e
    · rw [if_pos e] at hl; exact ⟨hl.1, ih hl.2⟩
    · rw [if_neg e] at hl; exact ⟨hl.1, ih hl.2⟩
  | acquire m' k ih =>
    intro h hl
    simp only [Leaves, Prog.bind] at hl ⊢
    split <;> rename_i e
    · rw [if_pos e] at hl; exact ⟨hl.1, ih hl.2⟩
    · rw [if_neg e] at hl; exact ⟨hl.1, ih hl.2⟩
  | unlock m' k ih =>
    intro h hl
    simp only [Leaves, Prog.bind] at hl ⊢
    split <;> rename_i e
    · rw [if_pos e] at hl; exact ⟨hl.1, ih hl.2⟩
    · rw [if_neg e] at hl; exact ⟨hl.1, ih hl.2⟩
  | rlock m' k ih =>
    intro h hl
    simp only [Leaves, Prog.bind] at hl ⊢
    split <;> rename_i e
    · rw [if_pos e] at hl; obtain ⟨n, h1, h2⟩ := hl; exact ⟨n, h1, ih h2⟩
    · rw [if_neg e] at hl; exact ⟨hl.1, ih hl.2⟩
  | runlock m' k ih =>
    intro h hl
    simp only [Leaves, Prog.bind] at hl ⊢
    split <;> rename_i e
    · rw [if_pos e] at hl; obtain ⟨n, h1, h2⟩ := hl; exact ⟨n, h1, ih h2⟩
    · rw [if_neg e] at hl; exact ⟨hl.1, ih hl.2⟩
  | read l k ih => exact fun h => ⟨h.1, fun s => ih s (h.2 s)⟩
  | write l f k ih => exact fun h => ⟨h.1, fun s => ih s (h.2 s)⟩

/-- A method that follows the strict discipline leaves nothing. -/
theorem Leaves.of_disc {m : μ} {prot : κ → Prop} {flat : Prop} {p : Prog μ κ σ ρ} :
    ∀ {h : Hold}, Disc m prot True flat p h → Leaves m (fun _ n => n = 0) p h := by
  induction p with
  | ret r => rintro h ⟨n, rfl, h0⟩; exact ⟨n, h0 trivial, rfl⟩
  | lock m' k ih =>
    intro h hd
    simp only [Leaves, Disc] at hd ⊢
    split <;> rename_i e
    · rw [if_pos e] at hd; exact ⟨hd.1, ih hd.2⟩
    · rw [if_neg e] at hd; exact ⟨hd.1, ih hd.2⟩
  | acquire m' k ih =>
    intro h hd
    simp only [Leaves, Disc] at hd ⊢
    split <;> rename_i e
    · rw [if_pos e] at hd; exact ⟨hd.1, ih hd.2⟩
    · rw [if_neg e] at hd; exact ⟨hd.1, ih hd.2⟩
  | unlock m' k ih =>
    intro h hd
    simp only [Leaves, Disc] at hd ⊢
    split <;> rename_i e
    · rw [if_pos e] at hd; exact ⟨hd.1, ih hd.2⟩
    · rw [if_neg e] at hd; exact ⟨hd.1, ih hd.2⟩
  | rlock m' k ih =>
    intro h hd
    simp only [Leaves, Disc] at hd ⊢
    split <;> rename_i e
    · rw [if_pos e] at hd; obtain ⟨n, h1, -, h2⟩ := hd; exact ⟨n, h1, ih h2⟩
    · rw [if_neg e] at hd; exact ⟨hd.1, ih hd.2⟩
  | runlock m' k ih =>
    intro h hd
    simp only [Leaves, Disc] at hd ⊢
    split <;> rename_i e
    · rw [if_pos e] at hd; obtain ⟨n, h1, h2⟩ := hd; exact ⟨n, h1, ih h2⟩
    · rw [if_neg e] at hd; exact ⟨hd.1, ih hd.2⟩
  | read l k ih => exact fun h => ⟨h.1, fun s => ih s (h.2.2 s)⟩
  | write l f k ih => exact fun h => ⟨h.1, fun s => ih s (h.2.2 s)⟩

/-- What is left behind is at least what each finished call left, and nothing if none left anything. -/
structure Sum (left : Op → Out → Nat → Prop) (h : List (Ev Op Out)) (L : Nat) : Prop where
  each : ∀ i t op t' out, Ev.inv i t op ∈ h → Ev.res i t' out ∈ h → ∃ n, left op out n ∧ n ≤ L
  none : (∀ i t op t' out n, Ev.inv i t op ∈ h → Ev.res i t' out ∈ h → left op out n → n = 0) → L = 0

/-- The invariant: readers are those in progress and those left behind. -/
structure LeakInv (m : μ) (left : Op → Out → Nat → Prop) (c : Cfg μ κ σ Op Out) : Prop where
  count : ∃ L, CountInv True (c.mus m) (owed L (mineOf m c)) ∧ Sum left c.hist L
  prog : ∀ t k, c.calls t = some k → ∃ h, k.mine m = h.mu ∧ Leaves m (left k.op) k.prog h

/-- The invariant survives a micro-step. -/
theorem LeakInv.micro {m : μ} {left : Op → Out → Nat → Prop} {c : Cfg μ κ σ Op Out}
    (h : LeakInv m left c) {t : Nat} {k k' : Call μ κ σ Op Out} {mus : μ → Mu} {d : σ}
    (hk : c.calls t = some k) (hm : micro c k = some (k', mus, d)) :
    LeakInv m left { c with data := d, mus := mus, calls := upd c.calls t (some k') } := by
  obtain ⟨hold, hmine, hd⟩ := h.prog t k hk
  obtain ⟨L, hcount, hsum⟩ := h.count
  have hop := (micro_id hm).2
  have hft : mineOf m c t = hold.mu := (mineOf_some hk).trans hmine
  -- it suffices to treat the count and the stepping call
  suffices hs : CountInv True (mus m) (owed L (upd (mineOf m c) t (k'.mine m))) ∧
      ∃ h', k'.mine m = h'.mu ∧ Leaves m (left k.op) k'.prog h' by
    refine ⟨?_, ?_⟩
    · refine ⟨L, ?_, hsum⟩
      rw [mineOf_upd]; exact hs.1
    · intro t' q hq
      by_cases e : t' = t
      · subst e
        simp only [upd_self, Option.some.injEq] at hq
        subst hq
        rw [hop]
        exact hs.2
      · simp only [upd_ne _ _ e] at hq
        exact h.prog t' q hq
  have same : ∀ (p : Prog μ κ σ Out), mus m = c.mus m → k'.mine m = k.mine m → k'.prog = p →
      Leaves m (left k.op) p hold →
      CountInv True (mus m) (owed L (upd (mineOf m c) t (k'.mine m))) ∧
      ∃ h', k'.mine m = h'.mu ∧ Leaves m (left k.op) k'.prog h' := by
    intro p e1 e2 e3 e4
    refine ⟨?_, hold, e2.trans hmine, e3 ▸ e4⟩
    rw [e1, e2, ← mineOf_some (m := m) hk, upd_id]
    exact hcount
  unfold Conc.micro at hm
  cases hp : k.prog with
  | ret r => simp only [hp, reduceCtorEq] at hm
  | lock m' p =>
    rw [hp] at hd
    simp only [hp] at hm
    split at hm
    · next hfree =>
      cases hm
      simp only [Leaves] at hd
      by_cases e : m' = m
      · subst e
        rw [if_pos rfl] at hd
        obtain ⟨rfl, hd⟩ := hd
        simp only [upd_self]
        refine ⟨?_, .ann, by rw [hmine]; rfl, ?_⟩
        · have := hcount.announce (t + 1) hfree
          rw [owed_upd] at this
          simp only [owed] at this
          rwa [hft, ← hmine] at this
        · simp only [Leaves, if_pos]; exact ⟨trivial, hd⟩
      · rw [if_neg e] at hd
        refine same (.acquire m' p) (upd_ne _ _ (Ne.symm e)) (upd_ne _ _ (Ne.symm e)) rfl ?_
        simp only [Leaves, if_neg e]; exact hd
    · cases hm
  | acquire m' p =>
    rw [hp] at hd
    simp only [hp] at hm
    split at hm
    · next hfree =>
      cases hm
      simp only [Leaves] at hd
      by_cases e : m' = m
      · subst e
        rw [if_pos rfl] at hd
        obtain ⟨rfl, hd⟩ := hd
        simp only [upd_self]
        refine ⟨?_, .wr, by rw [hmine]; rfl, hd⟩
        have := hcount.acquire (t + 1) (by show (mineOf m' c t).wr = _; rw [hft]; rfl) hfree
        rw [owed_upd] at this
        simp only [owed] at this
        rwa [hft, ← hmine] at this
      · rw [if_neg e] at hd
        exact same p (upd_ne _ _ (Ne.symm e)) (upd_ne _ _ (Ne.symm e)) rfl hd.2
    · cases hm
  | unlock m' p =>
    rw [hp] at hd
    simp only [hp] at hm
    split at hm
    · next hfree =>
      cases hm
      simp only [Leaves] at hd
      by_cases e : m' = m
      · subst e
        rw [if_pos rfl] at hd
        obtain ⟨rfl, hd⟩ := hd
        simp only [upd_self]
        refine ⟨?_, .rd 0, by rw [hmine]; rfl, hd⟩
        have := hcount.unlock (t + 1) (by show (mineOf m' c t).wr = _; rw [hft]; rfl)
        rw [owed_upd] at this
        simp only [owed] at this
        rwa [hft, ← hmine] at this
      · rw [if_neg e] at hd
        exact same p (upd_ne _ _ (Ne.symm e)) (upd_ne _ _ (Ne.symm e)) rfl hd.2
    · cases hm
  | rlock m' p =>
    rw [hp] at hd
    simp only [hp] at hm
    split at hm
    · next hfree =>
      cases hm
      simp only [Leaves] at hd
      by_cases e : m' = m
      · subst e
        rw [if_pos rfl] at hd
        obtain ⟨n, rfl, hd⟩ := hd
        simp only [upd_self]
        refine ⟨?_, .rd (n + 1), by rw [hmine]; rfl, hd⟩
        have := hcount.rlock (t + 1) hfree
        rw [owed_upd] at this
        simp only [owed] at this
        rwa [hft, ← hmine] at this
      · rw [if_neg e] at hd
        exact same p (upd_ne _ _ (Ne.symm e)) (upd_ne _ _ (Ne.symm e)) rfl hd.2
    · cases hm
  | runlock m' p =>
    rw [hp] at hd
    simp only [hp] at hm
    split at hm
    · next hfree =>
      cases hm
      simp only [Leaves] at hd
      by_cases e : m' = m
      · subst e
        rw [if_pos rfl] at hd
        obtain ⟨n, rfl, hd⟩ := hd
        simp only [upd_self]
        refine ⟨?_, .rd n, by rw [hmine]; rfl, hd⟩
        have := hcount.runlock (t + 1) (by show (mineOf m' c t).readers ≠ _; rw [hft]; exact Nat.succ_ne_zero n)
        rw [owed_upd] at this
        simp only [owed] at this
        rwa [hft, ← hmine] at this
      · rw [if_neg e] at hd
        exact same p (upd_ne _ _ (Ne.symm e)) (upd_ne _ _ (Ne.symm e)) rfl hd.2
    · cases hm
  | read l p =>
    rw [hp] at hd
    simp only [hp, Option.some.injEq, Prod.mk.injEq] at hm
    obtain ⟨rfl, rfl, rfl⟩ := hm
    exact same _ rfl rfl rfl (hd.2 _)
  | write l f p =>
    rw [hp] at hd
    simp only [hp, Option.some.injEq, Prod.mk.injEq] at hm
    obtain ⟨rfl, rfl, rfl⟩ := hm
    exact same _ rfl rfl rfl (hd.2 _)

theorem leakInv {m : μ} {left : Op → Out → Nat → Prop} {prog : Op → Prog μ κ σ Out} {allowed : Op → Prop}
    (hl : ∀ op, allowed op → Leaves m (left op) (prog op) (.rd 0)) {s : σ} {c : Cfg μ κ σ Op Out}
    (hr : Reach prog allowed s c) : LeakInv m left c := by
  induction hr with
  | init =>
    refine ⟨⟨0, ?_, ⟨fun i t op t' out h => (by cases h), fun _ => rfl⟩⟩, fun t k hk => by cases hk⟩
    have : owed 0 (mineOf m (Cfg.init s : Cfg μ κ σ Op Out)) = fun _ => Mu.init := by
      funext i; cases i <;> rfl
    rw [this]
    exact CountInv.init
  | step c c' a hr ha hst ih =>
    have hI := ids hr
    rcases step_cases hst with ⟨t, op, rfl, hc, rfl⟩ | ⟨t, k, k', mus, d, -, hc, hm, rfl⟩ | ⟨t, k, r, -, hc, hp, rfl⟩
    · obtain ⟨L, hcount, hsum⟩ := ih.count
      refine ⟨⟨L, ?_, ?_, ?_⟩, ?_⟩
      · have : mineOf m { c with calls := upd c.calls t (some ⟨c.next, op, prog op, fun _ => .init⟩),
                                 next := c.next + 1, hist := c.hist ++ [.inv c.next t op] } = mineOf m c := by
          funext t'
          unfold mineOf
          by_cases e : t' = t
          · subst e; simp only [upd_self, hc]
          · simp only [upd_ne _ _ e]
        rw [this]
        exact hcount
      · intro i t1 op1 t2 out h1 h2
        rcases mem_snoc.mp h2 with h2 | h2
        · rcases mem_snoc.mp h1 with h1 | h1
          · exact hsum.each _ _ _ _ _ h1 h2
          · cases h1; exact absurd (hI.resOld _ _ _ h2) (Nat.lt_irrefl _)
        · cases h2
      · exact fun h => hsum.none fun i t1 op1 t2 out n h1 h2 =>
          h i t1 op1 t2 out n (mem_snoc.mpr (.inl h1)) (mem_snoc.mpr (.inl h2))
      · intro t' k hk
        rcases upd_some hk with ⟨rfl, e⟩ | ⟨-, e⟩
        · cases e; exact ⟨.rd 0, rfl, hl op (ha t' op rfl)⟩
        · exact ih.prog t' k e
    · exact ih.micro hc hm
    · obtain ⟨L, hcount, hsum⟩ := ih.count
      obtain ⟨hold, hmine, hd⟩ := ih.prog t k hc
      rw [hp] at hd
      obtain ⟨n, hn, rfl⟩ := hd
      have hft := (mineOf_some (m := m) hc).trans hmine
      have hrd : (mineOf m c t).readers = n := by rw [hft]; rfl
      refine ⟨⟨L + n, ?_, ?_, ?_⟩, ?_⟩
      · have : mineOf m { c with calls := upd c.calls t none, hist := c.hist ++ [.res k.id t r] } =
            upd (mineOf m c) t Mu.init := by
          funext t'
          unfold mineOf
          by_cases e : t' = t
          · subst e; simp only [upd_self]
          · simp only [upd_ne _ _ e]
        rw [this, ← hrd]
        exact hcount.leave t (by rw [hft]; rfl)
      · intro i t1 op1 t2 out h1 h2
        rcases mem_snoc.mp h1 with h1 | h1
        · rcases mem_snoc.mp h2 with h2 | h2
          · obtain ⟨n', hn', hle⟩ := hsum.each _ _ _ _ _ h1 h2
            exact ⟨n', hn', Nat.le_trans hle (Nat.le_add_right _ _)⟩
          · cases h2
            rw [hI.same _ _ _ _ _ h1 (hI.called _ _ hc)]
            exact ⟨n, hn, Nat.le_add_left _ _⟩
        · cases h1
      · intro h
        rw [hsum.none fun i t1 op1 t2 out n h1 h2 =>
          h i t1 op1 t2 out n (mem_snoc.mpr (.inl h1)) (mem_snoc.mpr (.inl h2)), Nat.zero_add]
        exact h k.id t k.op t r n (mem_snoc.mpr (.inl (hI.called _ _ hc))) (mem_snoc.mpr (.inr rfl)) hn
      · intro t' k' hk
        rcases upd_some hk with ⟨rfl, e⟩ | ⟨-, e⟩
        · cases e
        · exact ih.prog t' k' e

/-- A finished call has certainly left read locks behind. -/
def Left (left : Op → Out → Nat → Prop) (h : List (Ev Op Out)) : Prop :=
  ∃ i t op t' out, Ev.inv i t op ∈ h ∧ Ev.res i t' out ∈ h ∧ ¬ left op out 0

/-- Then the mutex is never again without readers. -/
theorem left_readers {m : μ} {left : Op → Out → Nat → Prop} {c : Cfg μ κ σ Op Out} (hi : LeakInv m left c)
    (hl : Left left c.hist) : (c.mus m).readers ≠ 0 := by
  obtain ⟨i, t, op, t', out, h1, h2, hne⟩ := hl
  obtain ⟨L, hcount, hsum⟩ := hi.count
  refine hcount.readers_ne (t := 0) ?_
  obtain ⟨n, hn, hle⟩ := hsum.each _ _ _ _ _ h1 h2
  have : n ≠ 0 := fun e => hne (e ▸ hn)
  show L ≠ 0
  omega

/-- If no call can have left anything behind, a mutex that nobody uses is unlocked. -/
theorem idle_unlocked {m : μ} {left : Op → Out → Nat → Prop} {c : Cfg μ κ σ Op Out} (hi : LeakInv m left c)
    (hl : ∀ i t op t' out n, Ev.inv i t op ∈ c.hist → Ev.res i t' out ∈ c.hist → left op out n → n = 0) (hidle : ∀ t, c.calls t = none) : c.mus m = .init := by
  obtain ⟨L, hcount, hsum⟩ := hi.count
  obtain rfl : L = 0 := hsum.none hl
  have hz : ∀ i, owed 0 (mineOf m c) i = .init := by
    intro i
    cases i with
    | zero => rfl
    | succ i => show mineOf m c i = _; unfold mineOf; simp only [hidle]
  have hr : (c.mus m).readers = 0 := by
    apply Classical.byContradiction
    intro h
    obtain ⟨i, h'⟩ := hcount.exists_reader trivial h
    rw [hz] at h'
    exact h' rfl
  have hw : (c.mus m).wr = .free := by
    apply Classical.byContradiction
    intro h
    obtain ⟨i, h', -⟩ := hcount.one h
    rw [hz] at h'
    exact h h'.symm
  cases hm : c.mus m
  rw [hm] at hr hw
  simp only at hr hw
  rw [hr, hw]; rfl

theorem step_hist {prog : Op → Prog μ κ σ Out} {c c' : Cfg μ κ σ Op Out} {a : Act Op}
    (h : Conc.step prog c a = some c') {x} (hx : x ∈ c.hist) :
    x ∈ c'.hist := by
  rcases step_cases h with ⟨t, op, -, hc, rfl⟩ | ⟨t, k, k', mus, d, -, hc, hm, rfl⟩ | ⟨t, k, r, -, hc, hp, rfl⟩
  · exact mem_snoc.mpr (.inl hx)
  · exact hx
  · exact mem_snoc.mpr (.inl hx)

/-- The calls from number `n` on that satisfy `A` are where `Q` says and do not return. -/
structure Stuck (n : Nat) (A : Op → Prop) (Q : Op → Prog μ κ σ Out → Prop) (c : Cfg μ κ σ Op Out) : Prop where
  at' : ∀ t k, c.calls t = some k → n ≤ k.id → A k.op → Q k.op k.prog
  res : ∀ i t out t' op, n ≤ i → A op → Ev.inv i t op ∈ c.hist → Ev.res i t' out ∉ c.hist

theorem Stuck.step {prog : Op → Prog μ κ σ Out} {allowed : Op → Prop} {n : Nat} {A : Op → Prop}
    {Q : Op → Prog μ κ σ Out → Prop} {s : σ} {c c' : Cfg μ κ σ Op Out} (hr : Reach prog allowed s c)
    (h0 : ∀ op, A op → Q op (prog op)) (hret : ∀ op r, A op → ¬ Q op (.ret r))
    (hmic : ∀ t k k' mus d, c.calls t = some k → micro c k = some (k', mus, d) → A k.op → Q k.op k.prog → Q k.op k'.prog)
    {a : Act Op} (hs : Conc.step prog c a = some c') (h : Stuck n A Q c) : Stuck n A Q c' := by
  have hI := ids hr
  rcases step_cases hs with ⟨t, op, -, hc, rfl⟩ | ⟨t, k, k', mus, d, -, hc, hm, rfl⟩ | ⟨t, k, r, -, hc, hp, rfl⟩
  · refine ⟨?_, ?_⟩
    · intro t' k hk hn hA
      rcases upd_some hk with ⟨rfl, e⟩ | ⟨-, e⟩
      · cases e; exact h0 _ hA
      · exact h.at' _ _ e hn hA
    · intro i t1 out t2 op1 hn hA h1 h2
      rcases mem_snoc.mp h2 with h2 | h2
      · rcases mem_snoc.mp h1 with h1 | h1
        · exact h.res _ _ _ _ _ hn hA h1 h2
        · cases h1
          exact absurd (hI.resOld _ _ _ h2) (Nat.lt_irrefl _)
      · cases h2
  · obtain ⟨hid, hop⟩ := micro_id hm
    refine ⟨?_, h.res⟩
    intro t' q hq hn hA
    rcases upd_some hq with ⟨rfl, e⟩ | ⟨-, e⟩
    · cases e
      rw [hid] at hn; rw [hop] at hA ⊢
      exact hmic _ _ _ _ _ hc hm hA (h.at' _ _ hc hn hA)
    · exact h.at' _ _ e hn hA
  · refine ⟨?_, ?_⟩
    · intro t' q hq hn hA
      rcases upd_some hq with ⟨rfl, e⟩ | ⟨-, e⟩
      · cases e
      · exact h.at' _ _ e hn hA
    · intro i t1 out t2 op1 hn hA h1 h2
      rcases mem_snoc.mp h1 with h1 | h1
      · rcases mem_snoc.mp h2 with h2 | h2
        · exact h.res _ _ _ _ _ hn hA h1 h2
        · cases h2
          have hop := hI.same _ _ _ _ _ (hI.called _ _ hc) h1
          have := h.at' _ _ hc hn (hop ▸ hA)
          rw [hp] at this
          exact hret _ _ (hop ▸ hA) this
      · cases h1

/-- Nothing has been called yet. -/
theorem Stuck.start {prog : Op → Prog μ κ σ Out} {allowed : Op → Prop} {A : Op → Prop}
    {Q : Op → Prog μ κ σ Out → Prop} {s : σ} {c : Cfg μ κ σ Op Out} (hr : Reach prog allowed s c) : Stuck c.next A Q c := by
  have hI := ids hr
  refine ⟨?_, ?_⟩
  · intro t k hk hn
    have := hI.below _ _ _ (hI.called _ _ hk)
    omega
  · intro i t out t' op hn _ h1
    have := hI.below _ _ _ h1
    omega

/-- While `P` lasts, and no call of the kind `A` gets out of `Q`, those made from then on do not return. -/
theorem stuck {prog : Op → Prog μ κ σ Out} {allowed : Op → Prop} {A : Op → Prop} {Q : Op → Prog μ κ σ Out → Prop}
    {P : Cfg μ κ σ Op Out → Prop} {s : σ} (h0 : ∀ op, A op → Q op (prog op)) (hret : ∀ op r, A op → ¬ Q op (.ret r))
    (hP : ∀ c c' a, Reach prog allowed s c → P c → Conc.step prog c a = some c' → P c')
    (hmic : ∀ c t k k' mus d, Reach prog allowed s c → P c → c.calls t = some k → micro c k = some (k', mus, d) →
      A k.op → Q k.op k.prog → Q k.op k'.prog) (as : List (Act Op)) :
    ∀ {n : Nat} {c c' : Cfg μ κ σ Op Out}, Reach prog allowed s c → P c → Stuck n A Q c →
    (∀ a ∈ as, ∀ t op, a = .call t op → allowed op) → exec prog c as = some c' → Stuck n A Q c' := by
  induction as with
  | nil => intro n c c' _ _ h _ he; simp only [exec, Option.some.injEq] at he; exact he ▸ h
  | cons a as ih =>
    intro n c c' hr hp h ha he
    simp only [exec] at he
    cases hs : Conc.step prog c a with
    | none => simp only [hs, reduceCtorEq] at he
    | some c1 =>
      simp only [hs] at he
      exact ih (.step c c1 a hr (ha a (by simp)) hs) (hP _ _ _ hr hp hs)
        (h.step hr h0 hret (fun t k k' mus d hk hm => hmic c t k k' mus d hr hp hk hm) hs) (fun b hb => ha b (by simp [hb])) he

theorem left_step {left : Op → Out → Nat → Prop} {prog : Op → Prog μ κ σ Out} {c c' : Cfg μ κ σ Op Out} {a : Act Op}
    (hs : Conc.step prog c a = some c') (h : Left left c.hist) : Left left c'.hist := by
  obtain ⟨i, t, op, t', out, h1, h2, h3⟩ := h
  exact ⟨i, t, op, t', out, step_hist hs h1, step_hist hs h2, h3⟩

/-- Calls made later have higher numbers. -/
theorem exec_new {prog : Op → Prog μ κ σ Out} {c c' : Cfg μ κ σ Op Out} {as : List (Act Op)}
    (he : exec prog c as = some c') {j r : Nat} {op : Op} (hmade : Ev.inv j r op ∈ c'.hist)
    (hnew : Ev.inv j r op ∉ c.hist) : c.next ≤ j := by
  have key : ∀ (as : List (Act Op)) (d d' : Cfg μ κ σ Op Out), c.next ≤ d.next →
      (Ev.inv j r op ∈ d.hist → c.next ≤ j) → exec prog d as = some d' →
      Ev.inv j r op ∈ d'.hist → c.next ≤ j := by
    intro as
    induction as with
    | nil => intro d d' _ h he; simp only [exec, Option.some.injEq] at he; exact he ▸ h
    | cons a as ih =>
      intro d d' hn h he
      simp only [exec] at he
      cases hs : Conc.step prog d a with
      | none => simp only [hs, reduceCtorEq] at he
      | some d1 =>
        simp only [hs] at he
        refine ih d1 d' ?_ ?_ he
        · rcases step_cases hs with ⟨t, op, -, hc, rfl⟩ | ⟨t, k, k', mus, d, -, hc, hm, rfl⟩ | ⟨t, k, r, -, hc, hp, rfl⟩
          · exact Nat.le_succ_of_le hn
          · exact hn
          · exact hn
        · rcases step_cases hs with ⟨t, op, -, hc, rfl⟩ | ⟨t, k, k', mus, d, -, hc, hm, rfl⟩ | ⟨t, k, r, -, hc, hp, rfl⟩
          · intro hm
            rcases mem_snoc.mp hm with hm | hm
            · exact h hm
            · cases hm; exact hn
          · exact h
          · intro hm
            rcases mem_snoc.mp hm with hm | hm
            · exact h hm
            · cases hm
  exact key as c c' (Nat.le_refl _) (fun h => absurd h hnew) he hmade

/-! ## Calls that cannot return -/

/-- Before the program returns it takes the write lock of `m`. -/
def MustLock (m : μ) : Prog μ κ σ ρ → Prop
  | .ret _ => False
  | .lock m' k => m' = m ∨ MustLock m k
  | .acquire m' k => m' = m ∨ MustLock m k
  | .unlock _ k => MustLock m k
  | .rlock _ k => MustLock m k
  | .runlock _ k => MustLock m k
  | .read _ k => ∀ s, MustLock m (k s)
  | .write _ _ k => ∀ s, MustLock m (k s)

/-- Before the program returns it takes some lock of `m`. -/
def MustUse (m : μ) : Prog μ κ σ ρ → Prop
  | .ret _ => False
  | .lock m' k => m' = m ∨ MustUse m k
  | .acquire m' k => m' = m ∨ MustUse m k
  | .unlock _ k => MustUse m k
  | .rlock m' k => m' = m ∨ MustUse m k
  | .runlock _ k => MustUse m k
  | .read _ k => ∀ s, MustUse m (k s)
  | .write _ _ k => ∀ s, MustUse m (k s)

omit [DecidableEq μ] in
theorem MustLock.bind {m : μ} {f : α → Prog μ κ σ β} {p : Prog μ κ σ α} (h : MustLock m p) : MustLock m (p.bind f) := by
  induction p with
  | ret r => exact h.elim
  | lock m' k ih => exact h.imp id ih
  | acquire m' k ih => exact h.imp id ih
  | unlock m' k ih => exact ih h
  | rlock m' k ih => exact ih h
  | runlock m' k ih => exact ih h
  | read l k ih => exact fun s => ih s (h s)
  | write l g k ih => exact fun s => ih s (h s)

omit [DecidableEq μ] in
theorem MustUse.bind {m : μ} {f : α → Prog μ κ σ β} {p : Prog μ κ σ α} (h : MustUse m p) : MustUse m (p.bind f) := by
  induction p with
  | ret r => exact h.elim
  | lock m' k ih => exact h.imp id ih
  | acquire m' k ih => exact h.imp id ih
  | unlock m' k ih => exact ih h
  | rlock m' k ih => exact h.imp id ih
  | runlock m' k ih => exact ih h
  | read l k ih => exact fun s => ih s (h s)
  | write l g k ih => exact fun s => ih s (h s)

omit [DecidableEq μ] in
theorem MustLock.use {m : μ} {p : Prog μ κ σ ρ} (h : MustLock m p) : MustUse m p := by
  induction p with
  | ret r => exact h.elim
  | lock m' k ih => exact h.imp id ih
  | acquire m' k ih => exact h.imp id ih
  | unlock m' k ih => exact ih h
  | rlock m' k ih => exact .inr (ih h)
  | runlock m' k ih => exact ih h
  | read l k ih => exact fun s => ih s (h s)
  | write l g k ih => exact fun s => ih s (h s)

theorem mustLock_micro {m : μ} {c : Cfg μ κ σ Op Out} {k k' : Call μ κ σ Op Out} {mus d}
    (hrd : (c.mus m).readers ≠ 0) (hm : micro c k = some (k', mus, d)) (h : MustLock m k.prog) : MustLock m k'.prog := by
  unfold micro at hm
  cases hp : k.prog <;> simp only [hp] at hm <;> rw [hp] at h
  case ret => cases hm
  case lock m' p => split at hm <;> cases hm; exact h
  case acquire m' p =>
    split at hm <;> cases hm
    rename_i h0
    exact h.resolve_left fun e => hrd (e ▸ h0)
  case unlock m' p => split at hm <;> cases hm; exact h
  case rlock m' p => split at hm <;> cases hm; exact h
  case runlock m' p => split at hm <;> cases hm; exact h
  case read l p => cases hm; exact h _
  case write l f p => cases hm; exact h _

theorem mustUse_micro {m : μ} {c : Cfg μ κ σ Op Out} {k k' : Call μ κ σ Op Out} {mus d}
    (hrd : (c.mus m).readers ≠ 0) (hw : (c.mus m).wr = .announced) (hm : micro c k = some (k', mus, d))
    (h : MustUse m k.prog) : MustUse m k'.prog := by
  unfold micro at hm
  cases hp : k.prog <;> simp only [hp] at hm <;> rw [hp] at h
  case ret => cases hm
  case lock m' p => split at hm <;> cases hm; exact h
  case acquire m' p =>
    split at hm <;> cases hm
    rename_i h0
    exact h.resolve_left fun e => hrd (e ▸ h0)
  case unlock m' p => split at hm <;> cases hm; exact h
  case rlock m' p =>
    split at hm <;> cases hm
    rename_i h0
    refine h.resolve_left fun e => ?_
    rw [e, hw] at h0
    cases h0
  case runlock m' p => split at hm <;> cases hm; exact h
  case read l p => cases hm; exact h _
  case write l f p => cases hm; exact h _

/-- A writer that has announced itself to a mutex with readers waits. -/
theorem announced_micro {m : μ} {c : Cfg μ κ σ Op Out} {k k' : Call μ κ σ Op Out} {mus d}
    (hrd : (c.mus m).readers ≠ 0) (hw : (c.mus m).wr = .announced) (hm : micro c k = some (k', mus, d)) :
    (mus m).wr = .announced := by
  have hu : ∀ m' x, (m' = m → x = Wr.announced) → ∀ n, (upd c.mus m' ⟨n, x⟩ m).wr = .announced := by
    intro m' x h n
    by_cases e : m' = m
    · subst e; rw [upd_self]; exact h rfl
    · rw [upd_ne _ _ (Ne.symm e)]; exact hw
  unfold micro at hm
  cases hp : k.prog <;> simp only [hp] at hm
  case ret => cases hm
  case lock m' p => split at hm <;> cases hm; exact hu _ _ (fun _ => rfl) _
  case acquire m' p =>
    split at hm <;> cases hm
    rename_i h0
    exact hu _ _ (fun e => absurd (e ▸ h0) hrd) _
  case unlock m' p =>
    split at hm <;> cases hm
    rename_i h0
    refine hu _ _ (fun e => ?_) _
    rw [e, hw] at h0
    cases h0
  case rlock m' p => split at hm <;> cases hm; exact hu _ _ (fun e => e ▸ hw) _
  case runlock m' p => split at hm <;> cases hm; exact hu _ _ (fun e => e ▸ hw) _
  case read l p => cases hm; exact hw
  case write l f p => cases hm; exact hw

/-- Once a call has left read locks behind, no call made later that takes the write lock returns. -/
theorem writer_stuck {m : μ} {left : Op → Out → Nat → Prop} {prog : Op → Prog μ κ σ Out} {allowed : Op → Prop}
    (hl : ∀ op, allowed op → Leaves m (left op) (prog op) (.rd 0)) {s : σ} {c c' : Cfg μ κ σ Op Out}
    (hr : Reach prog allowed s c) (hleft : Left left c.hist) {as : List (Act Op)}
    (has : ∀ a ∈ as, ∀ t op, a = .call t op → allowed op) (he : exec prog c as = some c') {j r : Nat} {op : Op}
    (hop : MustLock m (prog op)) (hnew : Ev.inv j r op ∉ c.hist) (hmade : Ev.inv j r op ∈ c'.hist) (r' : Nat)
    (out : Out) : Ev.res j r' out ∉ c'.hist := by
  have := stuck (A := fun op => MustLock m (prog op)) (Q := fun _ => MustLock m) (P := fun c => Left left c.hist)
    (fun _ h => h) (fun _ _ _ h => h) (fun c c' a _ h hs => left_step hs h)
    (fun c _ k k' mus d hr h _ hm _ hq => mustLock_micro (left_readers (leakInv hl hr) h) hm hq) as hr hleft
    (Stuck.start hr) has he
  exact this.res j r out r' op (exec_new he hmade hnew) hop hmade

/-- If a writer is waiting besides, no call made later that takes any lock returns. -/
theorem user_stuck {m : μ} {left : Op → Out → Nat → Prop} {prog : Op → Prog μ κ σ Out} {allowed : Op → Prop}
    (hl : ∀ op, allowed op → Leaves m (left op) (prog op) (.rd 0)) {s : σ} {c c' : Cfg μ κ σ Op Out}
    (hr : Reach prog allowed s c) (hleft : Left left c.hist) (hwr : (c.mus m).wr = .announced) {as : List (Act Op)}
    (has : ∀ a ∈ as, ∀ t op, a = .call t op → allowed op) (he : exec prog c as = some c') {j r : Nat} {op : Op}
    (hop : MustUse m (prog op)) (hnew : Ev.inv j r op ∉ c.hist) (hmade : Ev.inv j r op ∈ c'.hist) (r' : Nat)
    (out : Out) : Ev.res j r' out ∉ c'.hist := by
  have := stuck (A := fun op => MustUse m (prog op)) (Q := fun _ => MustUse m)
    (P := fun c => Left left c.hist ∧ (c.mus m).wr = .announced)
    (fun _ h => h) (fun _ _ _ h => h)
    (by
      rintro c c' a hr ⟨h, hw⟩ hs
      refine ⟨left_step hs h, ?_⟩
      rcases step_cases hs with ⟨t, op, -, hc, rfl⟩ | ⟨t, k, k', mus, d, -, hc, hm, rfl⟩ | ⟨t, k, r, -, hc, hp, rfl⟩
      · exact hw
      · exact announced_micro (left_readers (leakInv hl hr) h) hw hm
      · exact hw)
    (fun c _ k k' mus d hr h _ hm _ hq => mustUse_micro (left_readers (leakInv hl hr) h.1) h.2 hm hq) as hr ⟨hleft, hwr⟩
    (Stuck.start hr) has he
  exact this.res j r out r' op (exec_new he hmade hnew) hop hmade

/-! ## A call made alone -/

theorem tau_of {prog : Op → Prog μ κ σ Out} {c : Cfg μ κ σ Op Out} {t : Nat} {k k' : Call μ κ σ Op Out} {mus d}
    (hk : c.calls t = some k) (hm : micro c k = some (k', mus, d)) :
    step prog c (.tau t) = some { c with data := d, mus := mus, calls := upd c.calls t (some k') } := by
  unfold Conc.step
  simp only [hk, hm]

theorem solo_go {prog : Op → Prog μ κ σ Out} {t : Nat} {c c1 : Cfg μ κ σ Op Out} (hs : step prog c (.tau t) = some c1)
    (h : ∃ n c', exec prog c1 (List.replicate n (.tau t) ++ [.ret t]) = some c') :
    ∃ n c', exec prog c (List.replicate n (.tau t) ++ [.ret t]) = some c' := by
  obtain ⟨n, c', he⟩ := h
  refine ⟨n + 1, c', ?_⟩
  simp only [List.replicate_succ, List.cons_append, exec, hs]
  exact he

/-- A call that has the mutexes to itself can run to its end. -/
theorem solo {prog : Op → Prog μ κ σ Out} {post : μ → Out → Nat → Prop} {t : Nat} (p : Prog μ κ σ Out) :
    ∀ {c : Cfg μ κ σ Op Out} {k : Call μ κ σ Op Out} {hold : μ → Hold}, c.calls t = some k → k.prog = p →
    (∀ m, c.mus m = (hold m).mu) → (∀ m, Leaves m (post m) p (hold m)) →
    ∃ n c', exec prog c (List.replicate n (.tau t) ++ [.ret t]) = some c' := by
  induction p with
  | ret r =>
    intro c k hold hk hp _ _
    refine ⟨0, { c with calls := upd c.calls t none, hist := c.hist ++ [.res k.id t r] }, ?_⟩
    simp only [List.replicate_zero, List.nil_append, exec, Conc.step, hk, hp]
  | lock m p ih =>
    intro c k hold hk hp hmus hl
    have h0 := hl m
    simp only [Leaves, if_true] at h0
    have hm : c.mus m = ⟨0, .free⟩ := by rw [hmus, h0.1]; rfl
    have s1 := tau_of (prog := prog) hk
      (by unfold micro; simp only [hp, hm, if_true]; rfl)
    have s2 := tau_of (prog := prog) (c := { c with
        mus := upd c.mus m ⟨0, .announced⟩,
        calls := upd c.calls t (some ⟨k.id, k.op, .acquire m p, upd k.mine m { k.mine m with wr := .announced }⟩) })
      (upd_self _ _ _) (by unfold micro; simp only [upd_self, if_true]; rfl)
    refine solo_go s1 (solo_go s2 (ih (hold := upd hold m .wr) (upd_self _ _ _) rfl ?_ ?_))
    · intro m'
      by_cases e : m' = m
      · subst e; simp only [upd_self]; rfl
      · simp only [upd_ne _ _ e, hmus]
    · intro m'
      by_cases e : m' = m
      · subst e; rw [upd_self]; exact h0.2
      · have := hl m'
        simp only [Leaves, if_neg (Ne.symm e)] at this
        rw [upd_ne _ _ e]; exact this.2
  | acquire m p ih =>
    intro c k hold hk hp hmus hl
    have h0 := hl m
    simp only [Leaves, if_true] at h0
    have hm : c.mus m = ⟨0, .announced⟩ := by rw [hmus, h0.1]; rfl
    have s1 := tau_of (prog := prog) hk
      (by unfold micro; simp only [hp, hm, if_true]; rfl)
    refine solo_go s1 (ih (hold := upd hold m .wr) (upd_self _ _ _) rfl ?_ ?_)
    · intro m'
      by_cases e : m' = m
      · subst e; simp only [upd_self]; rfl
      · simp only [upd_ne _ _ e, hmus]
    · intro m'
      by_cases e : m' = m
      · subst e; rw [upd_self]; exact h0.2
      · have := hl m'
        simp only [Leaves, if_neg (Ne.symm e)] at this
        rw [upd_ne _ _ e]; exact this.2
  | unlock m p ih =>
    intro c k hold hk hp hmus hl
    have h0 := hl m
    simp only [Leaves, if_true] at h0
    have hm : c.mus m = ⟨0, .held⟩ := by rw [hmus, h0.1]; rfl
    have s1 := tau_of (prog := prog) hk
      (by unfold micro; simp only [hp, hm, if_true]; rfl)
    refine solo_go s1 (ih (hold := upd hold m (.rd 0)) (upd_self _ _ _) rfl ?_ ?_)
    · intro m'
      by_cases e : m' = m
      · subst e; simp only [upd_self]; rfl
      · simp only [upd_ne _ _ e, hmus]
    · intro m'
      by_cases e : m' = m
      · subst e; rw [upd_self]; exact h0.2
      · have := hl m'
        simp only [Leaves, if_neg (Ne.symm e)] at this
        rw [upd_ne _ _ e]; exact this.2
  | rlock m p ih =>
    intro c k hold hk hp hmus hl
    have h0 := hl m
    simp only [Leaves, if_true] at h0
    obtain ⟨i, h1, h2⟩ := h0
    have hm : c.mus m = ⟨i, .free⟩ := by rw [hmus, h1]; rfl
    have s1 := tau_of (prog := prog) hk
      (by unfold micro; simp only [hp, hm, if_true]; rfl)
    refine solo_go s1 (ih (hold := upd hold m (.rd (i + 1))) (upd_self _ _ _) rfl ?_ ?_)
    · intro m'
      by_cases e : m' = m
      · subst e; simp only [upd_self]; rfl
      · simp only [upd_ne _ _ e, hmus]
    · intro m'
      by_cases e : m' = m
      · subst e; rw [upd_self]; exact h2
      · have := hl m'
        simp only [Leaves, if_neg (Ne.symm e)] at this
        rw [upd_ne _ _ e]; exact this.2
  | runlock m p ih =>
    intro c k hold hk hp hmus hl
    have h0 := hl m
    simp only [Leaves, if_true] at h0
    obtain ⟨i, h1, h2⟩ := h0
    have hm : c.mus m = ⟨i + 1, .free⟩ := by rw [hmus, h1]; rfl
    have s1 := tau_of (prog := prog) hk
      (by unfold micro; simp only [hp, hm, ne_eq, Nat.succ_ne_zero, not_false_eq_true, if_true]; rfl)
    refine solo_go s1 (ih (hold := upd hold m (.rd i)) (upd_self _ _ _) rfl ?_ ?_)
    · intro m'
      by_cases e : m' = m
      · subst e; simp only [upd_self]; rfl
      · simp only [upd_ne _ _ e, hmus]
    · intro m'
      by_cases e : m' = m
      · subst e; rw [upd_self]; exact h2
      · have := hl m'
        simp only [Leaves, if_neg (Ne.symm e)] at this
        rw [upd_ne _ _ e]; exact this.2
  | read l p ih =>
    intro c k hold hk hp hmus hl
    have s1 := tau_of (prog := prog) hk (by unfold micro; simp only [hp]; rfl)
    exact solo_go s1 (ih c.data (hold := hold) (upd_self _ _ _) rfl hmus (fun m => (hl m).2 _))
  | write l f p ih =>
    intro c k hold hk hp hmus hl
    have s1 := tau_of (prog := prog) hk (by unfold micro; simp only [hp]; rfl)
    exact solo_go s1 (ih c.data (hold := hold) (upd_self _ _ _) rfl hmus (fun m => (hl m).2 _))

/-- With unlocked mutexes, a new call can run to its end. -/
theorem ends_alone {prog : Op → Prog μ κ σ Out} {post : μ → Out → Nat → Prop} {c : Cfg μ κ σ Op Out} {t : Nat} {op : Op}
    (hc : c.calls t = none) (hmus : ∀ m, c.mus m = .init) (hl : ∀ m, Leaves m (post m) (prog op) (.rd 0)) :
    ∃ n c', exec prog c (.call t op :: (List.replicate n (.tau t) ++ [.ret t])) = some c' := by
  obtain ⟨n, c', he⟩ := solo (prog := prog) (post := post) (t := t) (prog op)
    (c := { c with calls := upd c.calls t (some ⟨c.next, op, prog op, fun _ => .init⟩),
                   next := c.next + 1, hist := c.hist ++ [.inv c.next t op] })
    (hold := fun _ => .rd 0) (upd_self _ _ _) rfl hmus hl
  refine ⟨n, c', ?_⟩
  simp only [exec, Conc.step, hc]
  exact he

theorem exec_append {prog : Op → Prog μ κ σ Out} (as bs : List (Act Op)) :
    ∀ c : Cfg μ κ σ Op Out, exec prog c (as ++ bs) = (exec prog c as).bind fun c' => exec prog c' bs := by
  induction as with
  | nil => exact fun _ => rfl
  | cons a as ih =>
    intro c
    simp only [List.cons_append, exec]
    cases Conc.step prog c a with
    | none => rfl
    | some c1 => exact ih c1

/-- A call that does not get beyond its first micro-steps does not come to its end. -/
theorem stops (k : Nat) {prog : Op → Prog μ κ σ Out} {c0 c : Cfg μ κ σ Op Out} {as : List (Act Op)} {t : Nat} {op : Op}
    (hc : exec prog c0 as = some c)
    (hlt : ∀ i, i < k → (exec prog c0 (as ++ .call t op :: (List.replicate i (.tau t) ++ [.ret t]))).isNone)
    (hk : (exec prog c0 (as ++ .call t op :: List.replicate k (.tau t))).isNone) (n : Nat) (c' : Cfg μ κ σ Op Out) :
    exec prog c (.call t op :: (List.replicate n (.tau t) ++ [.ret t])) ≠ some c' := by
  have key : ∀ bs, exec prog c0 (as ++ bs) = exec prog c bs := fun bs => by rw [exec_append, hc]; rfl
  intro h
  by_cases hn : n < k
  · have := hlt n hn
    rw [key, h] at this
    cases this
  · obtain ⟨m, rfl⟩ : ∃ m, n = k + m := ⟨n - k, by omega⟩
    rw [key] at hk
    rw [← List.replicate_append_replicate, List.append_assoc, ← List.cons_append, exec_append,
      Option.isNone_iff_eq_none.mp hk] at h
    cases h

/-- If only goroutine 0 has made calls and it is in none, nobody is in a call. -/
theorem idle_of_zero {prog : Op → Prog μ κ σ Out} {s : σ}
    {c : Cfg μ κ σ Op Out} {as : List (Act Op)} (he : exec prog (.init s) as = some c)
    (has : ∀ a ∈ as, ∀ t op, a = .call t op → t = 0) (h0 : (c.calls 0).isNone) : ∀ t, c.calls t = none := by
  have key : ∀ (as : List (Act Op)) (d : Cfg μ κ σ Op Out), (∀ a ∈ as, ∀ t op, a = .call t op → t = 0) →
      (∀ t, t ≠ 0 → d.calls t = none) → exec prog d as = some c → ∀ t, t ≠ 0 → c.calls t = none := by
    intro as
    induction as with
    | nil => intro d _ hd he; simp only [exec, Option.some.injEq] at he; exact he ▸ hd
    | cons a as ih =>
      intro d ha hd he
      simp only [exec] at he
      cases hs : Conc.step prog d a with
      | none => simp only [hs, reduceCtorEq] at he
      | some d1 =>
        simp only [hs] at he
        refine ih d1 (fun b hb => ha b (by simp [hb])) ?_ he
        intro t ht
        rcases step_cases hs with ⟨u, op, rfl, hc, rfl⟩ | ⟨u, k, k', mus, d, -, hc, hm, rfl⟩ | ⟨u, k, r, -, hc, hp, rfl⟩
        · have := ha _ (by simp) u op rfl
          exact (upd_ne _ _ (by omega)).trans (hd t ht)
        · have : u ≠ t := by rintro rfl; rw [hd u ht] at hc; cases hc
          exact (upd_ne _ _ (Ne.symm this)).trans (hd t ht)
        · have : u ≠ t := by rintro rfl; rw [hd u ht] at hc; cases hc
          exact (upd_ne _ _ (Ne.symm this)).trans (hd t ht)
  intro t
  by_cases e : t = 0
  · subst e; exact Option.isNone_iff_eq_none.mp h0
  · exact key as _ has (fun _ _ => rfl) he t e

end Netscrape.Conc
