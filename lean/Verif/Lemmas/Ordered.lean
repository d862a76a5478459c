import Verif.Lemmas.Progress
import Verif.Lemmas.TwoLocks

/-!
# Two mutexes always taken in the same order

If nobody who holds `b` asks for `a`, and nobody nests locks of the same mutex, there are no deadlocks.
-/

namespace Netscrape.Conc
open Netscrape.Spec

variable {μ κ σ ρ Op Out : Type} [DecidableEq μ]

/-- One more read lock. -/
def Hold.inc : Hold → Hold
  | .rd n => .rd (n + 1)
  | h => h

/-- One read lock fewer. -/
def Hold.dec : Hold → Hold
  | .rd n => .rd (n - 1)
  | h => h

/-- `Ordered a b p h`: run by a goroutine that holds `b` as `h` says, `p` touches `a` only while it does not
hold `b`. -/
def Ordered (a b : μ) : Prog μ κ σ ρ → Hold → Prop
  | .ret _, _ => True
  | .lock m k, h => (m = a → h = .rd 0) ∧ Ordered a b k (if m = b then .wr else h)
  | .acquire m k, h => (m = a → h = .rd 0) ∧ Ordered a b k (if m = b then .wr else h)
  | .unlock m k, h => (m = a → h = .rd 0) ∧ Ordered a b k (if m = b then .rd 0 else h)
  | .rlock m k, h => (m = a → h = .rd 0) ∧ Ordered a b k (if m = b then h.inc else h)
  | .runlock m k, h => (m = a → h = .rd 0) ∧ Ordered a b k (if m = b then h.dec else h)
  | .read _ k, h => ∀ s, Ordered a b (k s) h
  | .write _ _ k, h => ∀ s, Ordered a b (k s) h

/-- A program that follows the discipline on `b` and the order, and how it holds `b`. -/
def OrdCall (a b : μ) (k : Call μ κ σ Op Out) : Prop :=
  ∃ h, k.mine b = h.mu ∧ Disc b (fun _ => False) True True k.prog h ∧ Ordered a b k.prog h

theorem OrdCall.micro {a b : μ} (hab : a ≠ b) {c : Cfg μ κ σ Op Out} {k k' : Call μ κ σ Op Out} {mus : μ → Mu} {d : σ}
    (h : OrdCall a b k) (hm : micro c k = some (k', mus, d)) : OrdCall a b k' := by
  obtain ⟨hd, h1, h2, h3⟩ := h
  unfold Conc.micro at hm
  cases hp : k.prog with
  | ret r => simp only [hp, reduceCtorEq] at hm
  | lock m p =>
    rw [hp] at h2 h3
    simp only [hp] at hm
    split at hm
    · cases hm
      simp only [Disc] at h2
      by_cases e : m = b
      · subst e
        rw [if_pos rfl] at h2
        obtain ⟨rfl, h2⟩ := h2
        refine ⟨.ann, ?_, ?_, ?_⟩
        · simp only [upd_self, h1]; rfl
        · simp only [Disc, if_true, true_and]; exact h2
        · refine ⟨fun e => absurd e.symm hab, ?_⟩
          rw [if_pos rfl]
          have := h3.2
          rwa [if_pos rfl] at this
      · rw [if_neg e] at h2
        refine ⟨hd, by simp only [upd_ne _ _ (Ne.symm e), h1], ?_, h3⟩
        simp only [Disc, if_neg e]; exact h2
    · cases hm
  | acquire m p =>
    rw [hp] at h2 h3
    simp only [hp] at hm
    split at hm
    · cases hm
      simp only [Disc] at h2
      have h3' := h3.2
      by_cases e : m = b
      · subst e
        rw [if_pos rfl] at h2 h3'
        obtain ⟨rfl, h2⟩ := h2
        exact ⟨.wr, by simp only [upd_self, h1]; rfl, h2, h3'⟩
      · rw [if_neg e] at h2 h3'
        exact ⟨hd, by simp only [upd_ne _ _ (Ne.symm e), h1], h2.2, h3'⟩
    · cases hm
  | unlock m p =>
    rw [hp] at h2 h3
    simp only [hp] at hm
    split at hm
    · cases hm
      simp only [Disc] at h2
      have h3' := h3.2
      by_cases e : m = b
      · subst e
        rw [if_pos rfl] at h2 h3'
        obtain ⟨rfl, h2⟩ := h2
        exact ⟨.rd 0, by simp only [upd_self, h1]; rfl, h2, h3'⟩
      · rw [if_neg e] at h2 h3'
        exact ⟨hd, by simp only [upd_ne _ _ (Ne.symm e), h1], h2.2, h3'⟩
    · cases hm
  | rlock m p =>
    rw [hp] at h2 h3
    simp only [hp] at hm
    split at hm
    · cases hm
      simp only [Disc] at h2
      have h3' := h3.2
      by_cases e : m = b
      · subst e
        rw [if_pos rfl] at h2 h3'
        obtain ⟨n, rfl, _, h2⟩ := h2
        exact ⟨.rd (n + 1), by simp only [upd_self, h1]; rfl, h2, h3'⟩
      · rw [if_neg e] at h2 h3'
        exact ⟨hd, by simp only [upd_ne _ _ (Ne.symm e), h1], h2.2, h3'⟩
    · cases hm
  | runlock m p =>
    rw [hp] at h2 h3
    simp only [hp] at hm
    split at hm
    · cases hm
      simp only [Disc] at h2
      have h3' := h3.2
      by_cases e : m = b
      · subst e
        rw [if_pos rfl] at h2 h3'
        obtain ⟨n, rfl, h2⟩ := h2
        exact ⟨.rd n, by simp only [upd_self, h1]; rfl, h2, h3'⟩
      · rw [if_neg e] at h2 h3'
        exact ⟨hd, by simp only [upd_ne _ _ (Ne.symm e), h1], h2.2, h3'⟩
    · cases hm
  | read l p =>
    rw [hp] at h2 h3
    simp only [hp, Option.some.injEq, Prod.mk.injEq] at hm
    obtain ⟨rfl, rfl, rfl⟩ := hm
    exact ⟨hd, h1, h2.2.2 _, h3 _⟩
  | write l f p =>
    rw [hp] at h2 h3
    simp only [hp, Option.some.injEq, Prod.mk.injEq] at hm
    obtain ⟨rfl, rfl, rfl⟩ := hm
    exact ⟨hd, h1, h2.2.2 _, h3 _⟩

/-- Once it is known who may block, a mutex that is stuck is free. -/
private theorem free_of_stuck {m : μ} {prog : Op → Prog μ κ σ Out} {c : Cfg μ κ σ Op Out}
    (hi : LockInv m (fun _ => False) True True c) (hdl : Deadlock prog c)
    (hother : ∀ t k h, c.calls t = some k → k.mine m = h.mu → h ≠ .rd 0 →
      Disc m (fun _ => False) True True k.prog h → ∀ m', m' ≠ m →
      (∀ p, k.prog ≠ .lock m' p) ∧ (∀ p, k.prog ≠ .acquire m' p) ∧ (∀ p, k.prog ≠ .unlock m' p) ∧
      (∀ p, k.prog ≠ .rlock m' p) ∧ (∀ p, k.prog ≠ .runlock m' p)) :
    c.mus m = ⟨0, .free⟩ ∧ ∀ t k, c.calls t = some k → k.mine m = ⟨0, .free⟩ := by
  have hmic : ∀ t k, c.calls t = some k → micro c k = none := fun t k hk => tau_isSome hk (hdl.2 t).1
  -- nobody has it
  have hnone : ∀ t k h, c.calls t = some k → k.mine m = h.mu → Disc m (fun _ => False) True True k.prog h →
      h = .rd 0 ∨ h = .ann := by
    intro t k h hk hm hd
    apply Classical.byContradiction
    intro hne
    have hne0 : h ≠ .rd 0 := fun e => hne (.inl e)
    have hnea : h ≠ .ann := fun e => hne (.inr e)
    have ho := hother t k h hk hm hne0 hd
    have hs := hmic t k hk
    cases hp : k.prog with
    | ret r =>
      rw [hp] at hd
      obtain ⟨n, rfl, h0⟩ := hd
      exact hne0 (by rw [h0 trivial])
    | lock m' p =>
      by_cases e : m' = m
      · subst e; rw [hp] at hd; simp only [Disc, if_true] at hd; exact hne0 hd.1
      · exact (ho m' e).1 p hp
    | acquire m' p =>
      by_cases e : m' = m
      · subst e; rw [hp] at hd; simp only [Disc, if_true] at hd; exact hnea hd.1
      · exact (ho m' e).2.1 p hp
    | unlock m' p =>
      by_cases e : m' = m
      · subst e
        rw [hp] at hd
        simp only [Disc, if_true] at hd
        obtain ⟨rfl, _⟩ := hd
        have := (hi.count.wr_eq (t := t) (w := .held) (by decide) (by rw [mineOf_some hk, hm]; rfl)).1
        simp only [micro, hp, this, if_true, reduceCtorEq] at hs
      · exact (ho m' e).2.2.1 p hp
    | rlock m' p =>
      by_cases e : m' = m
      · subst e
        rw [hp] at hd
        simp only [Disc, if_true] at hd
        obtain ⟨n, rfl, h0, _⟩ := hd
        exact hne0 (by rw [h0 trivial])
      · exact (ho m' e).2.2.2.1 p hp
    | runlock m' p =>
      by_cases e : m' = m
      · subst e
        rw [hp] at hd
        simp only [Disc, if_true] at hd
        obtain ⟨n, rfl, _⟩ := hd
        have : (c.mus m').readers ≠ 0 := hi.count.readers_ne (t := t) (by
          rw [mineOf_some hk, hm]; exact Nat.succ_ne_zero n)
        simp only [micro, hp] at hs
        rw [if_pos this] at hs
        cases hs
      · exact (ho m' e).2.2.2.2 p hp
    | read l p => simp only [micro, hp, reduceCtorEq] at hs
    | write l f p => simp only [micro, hp, reduceCtorEq] at hs
  have hr : (c.mus m).readers = 0 := by
    apply Classical.byContradiction
    intro hne
    obtain ⟨t, ht⟩ := hi.count.exists_reader trivial hne
    cases hk : c.calls t with
    | none => unfold mineOf at ht; rw [hk] at ht; exact ht rfl
    | some k =>
      obtain ⟨h, hm, hd⟩ := hi.disc t k hk
      rw [mineOf_some hk, hm] at ht
      rcases hnone t k h hk hm hd with rfl | rfl <;> exact ht rfl
  -- nobody waits for it
  have hann : ∀ t k h, c.calls t = some k → k.mine m = h.mu → Disc m (fun _ => False) True True k.prog h →
      h = .rd 0 := by
    intro t k h hk hm hd
    rcases hnone t k h hk hm hd with e | rfl
    · exact e
    · exfalso
      have ho := hother t k .ann hk hm (by decide) hd
      have hs := hmic t k hk
      cases hp : k.prog with
      | ret r => rw [hp] at hd; obtain ⟨n, e, _⟩ := hd; cases e
      | lock m' p =>
        by_cases e : m' = m
        · subst e; rw [hp] at hd; simp only [Disc, if_true] at hd; cases hd.1
        · exact (ho m' e).1 p hp
      | acquire m' p =>
        by_cases e : m' = m
        · subst e
          simp only [micro, hp, hr, if_true, reduceCtorEq] at hs
        · exact (ho m' e).2.1 p hp
      | unlock m' p =>
        by_cases e : m' = m
        · subst e; rw [hp] at hd; simp only [Disc, if_true] at hd; cases hd.1
        · exact (ho m' e).2.2.1 p hp
      | rlock m' p =>
        by_cases e : m' = m
        · subst e; rw [hp] at hd; simp only [Disc, if_true] at hd; obtain ⟨n, e, _⟩ := hd; cases e
        · exact (ho m' e).2.2.2.1 p hp
      | runlock m' p =>
        by_cases e : m' = m
        · subst e; rw [hp] at hd; simp only [Disc, if_true] at hd; obtain ⟨n, e, _⟩ := hd; cases e
        · exact (ho m' e).2.2.2.2 p hp
      | read l p => simp only [micro, hp, reduceCtorEq] at hs
      | write l f p => simp only [micro, hp, reduceCtorEq] at hs
  have hall : ∀ t k, c.calls t = some k → k.mine m = ⟨0, .free⟩ := by
    intro t k hk
    obtain ⟨h, hm, hd⟩ := hi.disc t k hk
    rw [hm, hann t k h hk hm hd]
    rfl
  refine ⟨?_, hall⟩
  have hw : (c.mus m).wr = .free := by
    apply Classical.byContradiction
    intro hne
    obtain ⟨t, ht, _⟩ := hi.count.one hne
    apply hne
    rw [← ht]
    cases hk : c.calls t with
    | none => unfold mineOf; rw [hk]; rfl
    | some k => rw [mineOf_some hk, hall t k hk]
  cases hM : c.mus m with
  | mk r w => rw [hM] at hr hw; simp only at hr hw; rw [hr, hw]

/-- All lock operations are on `a` or `b`. -/
def Within (a b : μ) : Prog μ κ σ ρ → Prop
  | .ret _ => True
  | .lock m k => (m = a ∨ m = b) ∧ Within a b k
  | .acquire m k => (m = a ∨ m = b) ∧ Within a b k
  | .unlock m k => (m = a ∨ m = b) ∧ Within a b k
  | .rlock m k => (m = a ∨ m = b) ∧ Within a b k
  | .runlock m k => (m = a ∨ m = b) ∧ Within a b k
  | .read _ k => ∀ s, Within a b (k s)
  | .write _ _ k => ∀ s, Within a b (k s)

omit [DecidableEq μ] in
theorem within_all {a b : μ} (honly : ∀ m, m = a ∨ m = b) (p : Prog μ κ σ ρ) : Within a b p := by
  induction p with
  | ret r => trivial
  | lock m k ih => exact ⟨honly m, ih⟩
  | acquire m k ih => exact ⟨honly m, ih⟩
  | unlock m k ih => exact ⟨honly m, ih⟩
  | rlock m k ih => exact ⟨honly m, ih⟩
  | runlock m k ih => exact ⟨honly m, ih⟩
  | read l k ih => exact fun s => ih s
  | write l f k ih => exact fun s => ih s

theorem Within.micro {a b : μ} {c : Cfg μ κ σ Op Out} {k k' : Call μ κ σ Op Out} {mus : μ → Mu} {d : σ}
    (h : Within a b k.prog) (hm : micro c k = some (k', mus, d)) :
    Within a b k'.prog ∧ k'.op = k.op ∧ ∀ m, m ≠ a → m ≠ b → k'.mine m = k.mine m := by
  have hmine : ∀ {m' : μ} {w : Mu}, (m' = a ∨ m' = b) → ∀ m, m ≠ a → m ≠ b → upd k.mine m' w m = k.mine m := by
    intro m' w h m ha hb
    refine upd_ne _ _ ?_
    rintro rfl
    exact h.elim ha hb
  unfold Conc.micro at hm
  cases hp : k.prog with
  | ret r => simp only [hp, reduceCtorEq] at hm
  | lock m p =>
    rw [hp] at h
    simp only [hp] at hm
    split at hm
    · cases hm; exact ⟨h, rfl, hmine h.1⟩
    · cases hm
  | read l p =>
    rw [hp] at h
    simp only [hp, Option.some.injEq, Prod.mk.injEq] at hm
    obtain ⟨rfl, rfl, rfl⟩ := hm
    exact ⟨h _, rfl, fun _ _ _ => rfl⟩
  | write l f p =>
    rw [hp] at h
    simp only [hp, Option.some.injEq, Prod.mk.injEq] at hm
    obtain ⟨rfl, rfl, rfl⟩ := hm
    exact ⟨h _, rfl, fun _ _ _ => rfl⟩
  | _ =>
    rw [hp] at h
    simp only [hp] at hm
    split at hm
    · cases hm; exact ⟨h.2, rfl, hmine h.1⟩
    · cases hm

/-- Every call takes `b` and at most one other mutex, always in the same order and without nested read locks: no
deadlock. -/
theorem no_deadlock_outer {b : μ} {outer : Op → μ} (hab : ∀ op, outer op ≠ b) {prog : Op → Prog μ κ σ Out}
    {allowed : Op → Prop} (hda : ∀ m op, allowed op → Disc m (fun _ => False) True True (prog op) (.rd 0))
    (hin : ∀ op, allowed op → Within (outer op) b (prog op))
    (hord : ∀ op, allowed op → Ordered (outer op) b (prog op) (.rd 0)) {s : σ} {c : Cfg μ κ σ Op Out}
    (hr : Reach prog allowed s c) : ¬ Deadlock prog c := by
  intro hdl
  have hi := fun m => lockInv (hda m) hr
  have ho := callInv (I := fun k => OrdCall (outer k.op) b k ∧ Within (outer k.op) b k.prog ∧
      ∀ m, m ≠ outer k.op → m ≠ b → k.mine m = .init) (prog := prog)
    (allowed := allowed) (fun n op h => ⟨⟨.rd 0, rfl, hda b op h, hord op h⟩, hin op h, fun _ _ _ => rfl⟩)
    (fun c k k' mus d hI hm => by
      obtain ⟨h1, h2, h3⟩ := hI.2.1.micro hm
      rw [h2]
      exact ⟨hI.1.micro (hab _) hm, h1, fun m ha hb => (h3 m ha hb).trans (hI.2.2 m ha hb)⟩) hr
  have hmu : ∀ h h' : Hold, h.mu = h'.mu → h = h' := by
    intro h h' e
    cases h <;> cases h' <;> simp_all [Hold.mu]
  -- the inner one is free
  obtain ⟨hfb, hnb⟩ := free_of_stuck (hi b) hdl (by
    intro t k h hk hm hne hd m' hm'
    obtain ⟨⟨h', h1, -, h3⟩, h4, -⟩ := ho t k hk
    rw [hm] at h1
    rw [← hmu _ _ h1] at h3
    refine ⟨?_, ?_, ?_, ?_, ?_⟩ <;>
    · intro p hp
      rw [hp] at h3 h4
      exact hne (h3.1 (h4.1.resolve_right hm')))
  have hmic : ∀ t k, c.calls t = some k → micro c k = none := fun t k hk => tau_isSome hk (hdl.2 t).1
  -- so nobody is about to use it
  have hnot : ∀ t k, c.calls t = some k →
      (∀ p, k.prog ≠ .lock b p) ∧ (∀ p, k.prog ≠ .acquire b p) ∧ (∀ p, k.prog ≠ .unlock b p) ∧
      (∀ p, k.prog ≠ .rlock b p) ∧ (∀ p, k.prog ≠ .runlock b p) := by
    intro t k hk
    obtain ⟨h, hm, hd⟩ := (hi b).disc t k hk
    have hs := hmic t k hk
    rw [hnb t k hk] at hm
    have e : h = .rd 0 := hmu _ _ (hm.symm.trans rfl)
    subst e
    refine ⟨?_, ?_, ?_, ?_, ?_⟩
    · intro p hp
      simp only [micro, hp, hfb, if_true, reduceCtorEq] at hs
    · intro p hp
      rw [hp] at hd
      simp only [Disc, if_true] at hd
      cases hd.1
    · intro p hp
      rw [hp] at hd
      simp only [Disc, if_true] at hd
      cases hd.1
    · intro p hp
      simp only [micro, hp, hfb, if_true, reduceCtorEq] at hs
    · intro p hp
      rw [hp] at hd
      simp only [Disc, if_true] at hd
      obtain ⟨n, e, _⟩ := hd
      cases e
  -- nor are the outer ones taken: who has one would only ask for the inner one
  have hfree : ∀ m, m ≠ b → c.mus m = ⟨0, .free⟩ ∧ ∀ t k, c.calls t = some k → k.mine m = ⟨0, .free⟩ := by
    intro m hmb
    refine free_of_stuck (hi m) hdl ?_
    intro t k h hk hm hne hd m' hm'
    have hn := hnot t k hk
    obtain ⟨-, h4, h5⟩ := ho t k hk
    have hmine : m = outer k.op := Classical.byContradiction fun e =>
      hne (hmu _ _ (hm.symm.trans (h5 m e hmb)))
    refine ⟨?_, ?_, ?_, ?_, ?_⟩ <;>
    · intro p hp
      rw [hp] at h4
      rcases h4.1 with e | e
      · exact hm' (e.trans hmine.symm)
      · subst e
        first
          | exact hn.1 p hp | exact hn.2.1 p hp | exact hn.2.2.1 p hp | exact hn.2.2.2.1 p hp
          | exact hn.2.2.2.2 p hp
  obtain ⟨⟨t, k, hk⟩, hstuck⟩ := hdl
  have hs := hmic t k hk
  have hn := hnot t k hk
  have hlk : ∀ m, m ≠ b → Disc m (fun _ => False) True True k.prog (.rd 0) := by
    intro m hmb
    obtain ⟨h, hm, hd⟩ := (hi m).disc t k hk
    rw [(hfree m hmb).2 t k hk] at hm
    have e : h = .rd 0 := hmu _ _ (hm.symm.trans rfl)
    subst e
    exact hd
  cases hp : k.prog with
  | ret r =>
    have h2 := (hstuck t).2
    simp only [Conc.step, hk, hp, reduceCtorEq] at h2
  | lock m p =>
    by_cases e : m = b
    · subst e; exact hn.1 p hp
    · simp only [micro, hp, (hfree m e).1, if_true, reduceCtorEq] at hs
  | acquire m p =>
    by_cases e : m = b
    · subst e; exact hn.2.1 p hp
    · have hd := hlk m e; rw [hp] at hd; simp only [Disc, if_true] at hd; cases hd.1
  | unlock m p =>
    by_cases e : m = b
    · subst e; exact hn.2.2.1 p hp
    · have hd := hlk m e; rw [hp] at hd; simp only [Disc, if_true] at hd; cases hd.1
  | rlock m p =>
    by_cases e : m = b
    · subst e; exact hn.2.2.2.1 p hp
    · simp only [micro, hp, (hfree m e).1, if_true, reduceCtorEq] at hs
  | runlock m p =>
    by_cases e : m = b
    · subst e; exact hn.2.2.2.2 p hp
    · have hd := hlk m e; rw [hp] at hd; simp only [Disc, if_true] at hd; obtain ⟨n, e, _⟩ := hd; cases e
  | read l p => simp only [micro, hp, reduceCtorEq] at hs
  | write l f p => simp only [micro, hp, reduceCtorEq] at hs

/-- Two mutexes taken in a fixed order, without nested read locks: no deadlock. -/
theorem no_deadlock_ordered {a b : μ} (hab : a ≠ b) (honly : ∀ m, m = a ∨ m = b) {prog : Op → Prog μ κ σ Out}
    {allowed : Op → Prop} (hda : ∀ op, allowed op → Disc a (fun _ => False) True True (prog op) (.rd 0))
    (hdb : ∀ op, allowed op → Disc b (fun _ => False) True True (prog op) (.rd 0))
    (hord : ∀ op, allowed op → Ordered a b (prog op) (.rd 0)) {s : σ} {c : Cfg μ κ σ Op Out}
    (hr : Reach prog allowed s c) : ¬ Deadlock prog c :=
  no_deadlock_outer (outer := fun _ => a) (fun _ => hab)
    (fun m op h => (honly m).elim (fun e => e ▸ hda op h) (fun e => e ▸ hdb op h))
    (fun op _ => within_all honly _) hord hr

/-! ## Programs that keep the order -/

/-- All lock operations are on `b`. -/
def Uses (b : μ) : Prog μ κ σ ρ → Prop
  | .ret _ => True
  | .lock m k => m = b ∧ Uses b k
  | .acquire m k => m = b ∧ Uses b k
  | .unlock m k => m = b ∧ Uses b k
  | .rlock m k => m = b ∧ Uses b k
  | .runlock m k => m = b ∧ Uses b k
  | .read _ k => ∀ s, Uses b (k s)
  | .write _ _ k => ∀ s, Uses b (k s)

omit [DecidableEq μ] in
theorem Uses.bind {α β : Type} {b : μ} {f : α → Prog μ κ σ β} (hf : ∀ x, Uses b (f x)) {p : Prog μ κ σ α} (h : Uses b p) :
    Uses b (p.bind f) := by
  induction p with
  | ret r => exact hf r
  | lock m k ih => exact ⟨h.1, ih h.2⟩
  | acquire m k ih => exact ⟨h.1, ih h.2⟩
  | unlock m k ih => exact ⟨h.1, ih h.2⟩
  | rlock m k ih => exact ⟨h.1, ih h.2⟩
  | runlock m k ih => exact ⟨h.1, ih h.2⟩
  | read l k ih => exact fun s => ih s (h s)
  | write l f k ih => exact fun s => ih s (h s)

theorem Uses.ordered {a b : μ} (hab : a ≠ b) {p : Prog μ κ σ ρ} (h : Uses b p) : ∀ hd, Ordered a b p hd := by
  induction p with
  | ret r => exact fun _ => trivial
  | lock m k ih => exact fun hd => ⟨fun e => absurd (e.symm.trans h.1) hab, ih h.2 _⟩
  | acquire m k ih => exact fun hd => ⟨fun e => absurd (e.symm.trans h.1) hab, ih h.2 _⟩
  | unlock m k ih => exact fun hd => ⟨fun e => absurd (e.symm.trans h.1) hab, ih h.2 _⟩
  | rlock m k ih => exact fun hd => ⟨fun e => absurd (e.symm.trans h.1) hab, ih h.2 _⟩
  | runlock m k ih => exact fun hd => ⟨fun e => absurd (e.symm.trans h.1) hab, ih h.2 _⟩
  | read l k ih => exact fun hd s => ih s (h s) hd
  | write l f k ih => exact fun hd s => ih s (h s) hd

/-- A mutex around another one. -/
theorem Two.ordered {a b : μ} (hab : a ≠ b) {p : Prog μ κ σ ρ} : ∀ {ph : Phase} {h : Hold}, Two a b p ph h →
    Ordered a b p h := by
  induction p with
  | ret r => exact fun _ => trivial
  | lock m k ih =>
    rintro ph h (⟨rfl, rfl, rfl, ht⟩ | ⟨rfl, rfl, rfl, ht⟩)
    · exact ⟨fun _ => rfl, by rw [if_neg hab]; exact ih ht⟩
    · exact ⟨fun _ => rfl, by rw [if_pos rfl]; exact ih ht⟩
  | acquire m k ih =>
    rintro ph h (⟨rfl, rfl, rfl, ht⟩ | ⟨rfl, rfl, rfl, ht⟩)
    · exact ⟨fun _ => rfl, by rw [if_neg hab]; exact ih ht⟩
    · exact ⟨fun e => absurd e.symm hab, by rw [if_pos rfl]; exact ih ht⟩
  | unlock m k ih =>
    rintro ph h (⟨rfl, rfl, rfl, ht⟩ | ⟨rfl, rfl, rfl, ht⟩)
    · exact ⟨fun _ => rfl, by rw [if_neg hab]; exact ih ht⟩
    · exact ⟨fun e => absurd e.symm hab, by rw [if_pos rfl]; exact ih ht⟩
  | rlock m k ih =>
    rintro ph h (⟨rfl, rfl, rfl, ht⟩ | ⟨rfl, _, n, rfl, ht⟩)
    · exact ⟨fun _ => rfl, by rw [if_neg hab]; exact ih ht⟩
    · exact ⟨fun e => absurd e.symm hab, by rw [if_pos rfl]; exact ih ht⟩
  | runlock m k ih =>
    rintro ph h (⟨rfl, rfl, rfl, ht⟩ | ⟨rfl, _, n, rfl, ht⟩)
    · exact ⟨fun _ => rfl, by rw [if_neg hab]; exact ih ht⟩
    · exact ⟨fun e => absurd e.symm hab, by rw [if_pos rfl]; exact ih ht⟩
  | read l k ih => exact fun h s => ih s (h.2.2 s)
  | write l f k ih => exact fun h s => ih s (h.2.2 s)

theorem Ordered.tag {α β : Type} {a b : μ} {f : α → β} {p : Prog μ κ σ α} : ∀ {h : Hold}, Ordered a b p h →
    Ordered a b (p.bind fun r => .ret (f r)) h := by
  induction p with
  | ret r => exact fun _ => trivial
  | lock m k ih => exact fun h => ⟨h.1, ih h.2⟩
  | acquire m k ih => exact fun h => ⟨h.1, ih h.2⟩
  | unlock m k ih => exact fun h => ⟨h.1, ih h.2⟩
  | rlock m k ih => exact fun h => ⟨h.1, ih h.2⟩
  | runlock m k ih => exact fun h => ⟨h.1, ih h.2⟩
  | read l k ih => exact fun h s => ih s (h s)
  | write l f k ih => exact fun h s => ih s (h s)

/-- Wrapping the result does not change the discipline. -/
theorem Disc.tag {α β : Type} {m : μ} {prot : κ → Prop} {strict flat : Prop} {f : α → β} {p : Prog μ κ σ α} :
    ∀ {h : Hold}, Disc m prot strict flat p h → Disc m prot strict flat (p.bind fun r => .ret (f r)) h := by
  induction p with
  | ret r => exact fun h => h
  | lock m' k ih =>
    intro h hd
    simp only [Disc, Prog.bind] at hd ⊢
    split at hd
    · next e => rw [if_pos e]; exact ⟨hd.1, ih hd.2⟩
    · next e => rw [if_neg e]; exact ⟨hd.1, ih hd.2⟩
  | acquire m' k ih =>
    intro h hd
    simp only [Disc, Prog.bind] at hd ⊢
    split at hd
    · next e => rw [if_pos e]; exact ⟨hd.1, ih hd.2⟩
    · next e => rw [if_neg e]; exact ⟨hd.1, ih hd.2⟩
  | unlock m' k ih =>
    intro h hd
    simp only [Disc, Prog.bind] at hd ⊢
    split at hd
    · next e => rw [if_pos e]; exact ⟨hd.1, ih hd.2⟩
    · next e => rw [if_neg e]; exact ⟨hd.1, ih hd.2⟩
  | rlock m' k ih =>
    intro h hd
    simp only [Disc, Prog.bind] at hd ⊢
    split at hd
    · next e => rw [if_pos e]; obtain ⟨n, h1, h2, h3⟩ := hd; exact ⟨n, h1, h2, ih h3⟩
    · next e => rw [if_neg e]; exact ⟨hd.1, ih hd.2⟩
  | runlock m' k ih =>
    intro h hd
    simp only [Disc, Prog.bind] at hd ⊢
    split at hd
    · next e => rw [if_pos e]; obtain ⟨n, h1, h2⟩ := hd; exact ⟨n, h1, ih h2⟩
    · next e => rw [if_neg e]; exact ⟨hd.1, ih hd.2⟩
  | read l k ih => exact fun hd => ⟨hd.1, hd.2.1, fun s => ih s (hd.2.2 s)⟩
  | write l f k ih => exact fun hd => ⟨hd.1, hd.2.1, fun s => ih s (hd.2.2 s)⟩

/-- A program that uses only the mutex `b` follows every discipline on another one, as far as that does not
protect anything. -/
theorem Uses.disc {a b : μ} (hab : a ≠ b) {p : Prog μ κ σ ρ} (h : Uses b p) {flat : Prop} :
    Disc a (fun _ => False) True flat p (.rd 0) := by
  have hba := Ne.symm hab
  induction p with
  | ret r => exact ⟨0, rfl, fun _ => rfl⟩
  | lock m k ih => obtain ⟨rfl, h⟩ := h; simp only [Disc, if_neg hba]; exact ⟨by decide, ih h⟩
  | acquire m k ih => obtain ⟨rfl, h⟩ := h; simp only [Disc, if_neg hba]; exact ⟨by decide, ih h⟩
  | unlock m k ih => obtain ⟨rfl, h⟩ := h; simp only [Disc, if_neg hba]; exact ⟨by decide, ih h⟩
  | rlock m k ih => obtain ⟨rfl, h⟩ := h; simp only [Disc, if_neg hba]; exact ⟨by decide, ih h⟩
  | runlock m k ih => obtain ⟨rfl, h⟩ := h; simp only [Disc, if_neg hba]; exact ⟨by decide, ih h⟩
  | read l k ih => exact ⟨by decide, False.elim, fun s => ih s (h s)⟩
  | write l f k ih => exact ⟨by decide, False.elim, fun s => ih s (h s)⟩

end Netscrape.Conc
