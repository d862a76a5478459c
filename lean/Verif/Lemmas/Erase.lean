import Verif.Lemmas.Progress
import Verif.Spec.StoreHandle

/-!
# Calls that only look can be erased

Two sets of methods run on the same shared state. Those of the second kind take read locks, read and release
their locks. Then for every execution there is one without the calls of the second kind in which the
calls of the first kind do the same.
-/

namespace Netscrape.Conc
open Netscrape.Spec Netscrape.Spec.Handle

variable {μ κ σ ρ Op₁ Op₂ Out₁ Out₂ : Type}

/-- The program takes no locks but read locks of `b`, and writes nothing. -/
def Tame (b : μ) : Prog μ κ σ ρ → Prop
  | .ret _ => True
  | .lock _ _ => False
  | .acquire _ _ => False
  | .unlock _ _ => False
  | .rlock m k => m = b ∧ Tame b k
  | .runlock m k => m = b ∧ Tame b k
  | .read _ k => ∀ s, Tame b (k s)
  | .write _ _ _ => False

/-- Programs of either kind with the result tagged. -/
def tagL (p : Prog μ κ σ Out₁) : Prog μ κ σ (Out₁ ⊕ Out₂) := p.bind fun r => .ret (.inl r)
def tagR (p : Prog μ κ σ Out₂) : Prog μ κ σ (Out₁ ⊕ Out₂) := p.bind fun r => .ret (.inr r)

/-- Calls renumbered. -/
def ren (g : Nat → Nat) : Ev Op₁ Out₁ → Ev Op₁ Out₁
  | .inv c t op => .inv (g c) t op
  | .res c t out => .res (g c) t out

/-- The number of the call an event belongs to. -/
def Ev.num : Ev Op₁ Out₁ → Nat
  | .inv c _ _ => c
  | .res c _ _ => c

/-- The call goroutine `t` is in, in the full execution and in the one without the second kind. -/
def CallSim (b : μ) (g : Nat → Nat) : Option (Call μ κ σ (Op₁ ⊕ Op₂) (Out₁ ⊕ Out₂)) → Option (Call μ κ σ Op₁ Out₁) → Prop
  | none, none => True
  | some k, some k' => k.op = .inl k'.op ∧ k.prog = tagL k'.prog ∧ k.mine = k'.mine ∧ k.id = g k'.id
  | some k, none => ∃ o q, k.op = .inr o ∧ k.prog = tagR q ∧ Tame b q ∧ ∀ m, m ≠ b → k.mine m = .init
  | none, some _ => False

/-- The two executions. -/
structure Sim (b : μ) (g : Nat → Nat) (c : Cfg μ κ σ (Op₁ ⊕ Op₂) (Out₁ ⊕ Out₂)) (c' : Cfg μ κ σ Op₁ Out₁) : Prop where
  data : c.data = c'.data
  wr : ∀ m, (c.mus m).wr = (c'.mus m).wr
  calls : ∀ t, CallSim b g (c.calls t) (c'.calls t)
  hist : lefts c.hist = c'.hist.map (ren g)
  mono : ∀ i j, i < j → g i < g j
  next : ∀ i, g (c'.next + i) = c.next + i
  old : ∀ e, e ∈ c'.hist → Ev.num e < c'.next
  live : ∀ t k', c'.calls t = some k' → k'.id < c'.next

theorem lefts_append (l l' : List (Ev (Op₁ ⊕ Op₂) (Out₁ ⊕ Out₂))) : lefts (l ++ l') = lefts l ++ lefts l' :=
  List.filterMap_append

variable [DecidableEq μ]

/-- A step of a call of the first kind happens in both. -/
theorem micro_left {b : μ} {g : Nat → Nat} {c : Cfg μ κ σ (Op₁ ⊕ Op₂) (Out₁ ⊕ Out₂)} {c' : Cfg μ κ σ Op₁ Out₁}
    (hd : c.data = c'.data) (hw : ∀ m, (c.mus m).wr = (c'.mus m).wr)
    {k k2 : Call μ κ σ (Op₁ ⊕ Op₂) (Out₁ ⊕ Out₂)} {k' : Call μ κ σ Op₁ Out₁}
    (hk : CallSim b g (some k) (some k')) (hz : ∀ m, (c.mus m).readers = 0 → (c'.mus m).readers = 0)
    (hn : ∀ m p, k'.prog = .runlock m p → (c'.mus m).readers ≠ 0) {mus : μ → Mu} {d : σ}
    (hm : micro c k = some (k2, mus, d)) :
    ∃ k2' mus', micro c' k' = some (k2', mus', d) ∧ CallSim b g (some k2) (some k2') ∧
      (∀ m, (mus m).wr = (mus' m).wr) ∧ k2'.id = k'.id := by
  obtain ⟨ho, hp, hmine, hid⟩ := hk
  obtain ⟨id, op, prog, mine⟩ := k
  obtain ⟨id', op', prog', mine'⟩ := k'
  obtain ⟨data', mus', calls', next', hist'⟩ := c'
  simp only at ho hp hmine hid hn hd hw hz
  subst hmine hd
  have hupd : ∀ (m m' : μ) (w : Wr) (r r' : Nat), (upd c.mus m ⟨r, w⟩ m').wr = (upd mus' m ⟨r', w⟩ m').wr := by
    intro m m' w r r'
    by_cases e : m' = m
    · subst e; simp only [upd_self]
    · simp only [upd_ne _ _ e]; exact hw m'
  cases prog' with
  | ret r => subst hp; cases hm
  | lock m p =>
    subst hp
    simp only [micro, tagL, Prog.bind] at hm
    split at hm
    · next e =>
      simp only [Option.some.injEq, Prod.mk.injEq] at hm
      obtain ⟨rfl, rfl, rfl⟩ := hm
      refine ⟨_, _, if_pos ((hw m).symm.trans e), ⟨ho, rfl, rfl, hid⟩, fun m' => hupd _ _ _ _ _, rfl⟩
    · cases hm
  | acquire m p =>
    subst hp
    simp only [micro, tagL, Prog.bind] at hm
    split at hm
    · next e =>
      simp only [Option.some.injEq, Prod.mk.injEq] at hm
      obtain ⟨rfl, rfl, rfl⟩ := hm
      refine ⟨_, _, if_pos (hz m e), ⟨ho, rfl, rfl, hid⟩, fun m' => hupd _ _ _ _ _, rfl⟩
    · cases hm
  | unlock m p =>
    subst hp
    simp only [micro, tagL, Prog.bind] at hm
    split at hm
    · next e =>
      simp only [Option.some.injEq, Prod.mk.injEq] at hm
      obtain ⟨rfl, rfl, rfl⟩ := hm
      refine ⟨_, _, if_pos ((hw m).symm.trans e), ⟨ho, rfl, rfl, hid⟩, fun m' => hupd _ _ _ _ _, rfl⟩
    · cases hm
  | rlock m p =>
    subst hp
    simp only [micro, tagL, Prog.bind] at hm
    split at hm
    · next e =>
      simp only [Option.some.injEq, Prod.mk.injEq] at hm
      obtain ⟨rfl, rfl, rfl⟩ := hm
      refine ⟨_, _, if_pos ((hw m).symm.trans e), ⟨ho, rfl, rfl, hid⟩, fun m' => ?_, rfl⟩
      rw [hw m]; exact hupd _ _ _ _ _
    · cases hm
  | runlock m p =>
    subst hp
    simp only [micro, tagL, Prog.bind] at hm
    split at hm
    · next e =>
      simp only [Option.some.injEq, Prod.mk.injEq] at hm
      obtain ⟨rfl, rfl, rfl⟩ := hm
      refine ⟨_, _, if_pos (hn m p rfl), ⟨ho, rfl, rfl, hid⟩, fun m' => ?_, rfl⟩
      rw [hw m]; exact hupd _ _ _ _ _
    · cases hm
  | read l p =>
    subst hp
    simp only [micro, tagL, Prog.bind, Option.some.injEq, Prod.mk.injEq] at hm
    obtain ⟨rfl, rfl, rfl⟩ := hm
    exact ⟨_, _, rfl, ⟨ho, rfl, rfl, hid⟩, hw, rfl⟩
  | write l f p =>
    subst hp
    simp only [micro, tagL, Prog.bind, Option.some.injEq, Prod.mk.injEq] at hm
    obtain ⟨rfl, rfl, rfl⟩ := hm
    exact ⟨_, _, rfl, ⟨ho, rfl, rfl, hid⟩, hw, rfl⟩

/-- A step of a call of the second kind does not matter to the others. -/
theorem micro_right {b : μ} {c : Cfg μ κ σ (Op₁ ⊕ Op₂) (Out₁ ⊕ Out₂)} {k k2 : Call μ κ σ (Op₁ ⊕ Op₂) (Out₁ ⊕ Out₂)}
    {q : Prog μ κ σ Out₂} (hp : k.prog = tagR q) (hq : Tame b q) {mus : μ → Mu} {d : σ}
    (hm : micro c k = some (k2, mus, d)) :
    d = c.data ∧ (∀ m, (mus m).wr = (c.mus m).wr) ∧ (∃ q', k2.prog = tagR q' ∧ Tame b q') ∧ k2.op = k.op ∧
      ∀ m, m ≠ b → k2.mine m = k.mine m := by
  unfold micro at hm
  rw [hp] at hm
  have hupd : ∀ (m m' : μ) (r : Nat), (upd c.mus m ⟨r, (c.mus m).wr⟩ m').wr = (c.mus m').wr := by
    intro m m' r
    by_cases e : m' = m
    · subst e; simp only [upd_self]
    · simp only [upd_ne _ _ e]
  cases q with
  | ret r => cases hm
  | lock m p => exact hq.elim
  | acquire m p => exact hq.elim
  | unlock m p => exact hq.elim
  | rlock m p =>
    simp only [tagR, Prog.bind] at hm
    split at hm
    · cases hm
      refine ⟨rfl, fun m' => hupd _ _ _, ⟨p, rfl, hq.2⟩, rfl, fun m' hne => ?_⟩
      exact upd_ne _ _ (fun e => hne (e.trans hq.1))
    · cases hm
  | runlock m p =>
    simp only [tagR, Prog.bind] at hm
    split at hm
    · cases hm
      refine ⟨rfl, fun m' => hupd _ _ _, ⟨p, rfl, hq.2⟩, rfl, fun m' hne => ?_⟩
      exact upd_ne _ _ (fun e => hne (e.trans hq.1))
    · cases hm
  | read l p =>
    simp only [tagR, Prog.bind] at hm
    cases hm; exact ⟨rfl, fun m' => rfl, ⟨p c.data, rfl, hq _⟩, rfl, fun _ _ => rfl⟩
  | write l f p => exact hq.elim

/-- For every execution there is one without the calls of the second kind. -/
theorem erase {b : μ} {p₁ : Op₁ → Prog μ κ σ Out₁} {p₂ : Op₂ → Prog μ κ σ Out₂} {ok : Op₁ ⊕ Op₂ → Prop}
    (hdisc : ∀ m op, ok op → Disc m (fun _ => False) True False (both p₁ p₂ op) (.rd 0))
    (hdisc₁ : ∀ m op, ok (.inl op) → Disc m (fun _ => False) True False (p₁ op) (.rd 0))
    (htame : ∀ op, ok (.inr op) → Tame b (p₂ op)) {s : σ} {c : Cfg μ κ σ (Op₁ ⊕ Op₂) (Out₁ ⊕ Out₂)}
    (hr : Reach (both p₁ p₂) ok s c) :
    ∃ g c', Reach p₁ (fun o => ok (.inl o)) s c' ∧ Sim b g c c' := by
  induction hr with
  | init =>
    exact ⟨id, .init s, .init, rfl, fun _ => rfl, fun _ => trivial, rfl, fun _ _ h => h, fun _ => rfl,
      (fun e he => nomatch he), (fun t k' hk => nomatch hk)⟩
  | step c c2 a hr ha hst ih =>
    obtain ⟨g, c', hr', h⟩ := ih
    cases a with
    | call t op =>
      unfold Conc.step at hst
      cases hc : c.calls t with
      | some k => simp only [hc, reduceCtorEq] at hst
      | none =>
        simp only [hc, Option.some.injEq] at hst
        subst hst
        have hct := h.calls t
        rw [hc] at hct
        have hc' : c'.calls t = none := by
          cases hc' : c'.calls t with
          | none => rfl
          | some k' => rw [hc'] at hct; exact hct.elim
        cases op with
        | inl o =>
          refine ⟨g, ⟨c'.data, c'.mus, upd c'.calls t (some ⟨c'.next, o, p₁ o, fun _ => .init⟩), c'.next + 1,
              c'.hist ++ [.inv c'.next t o]⟩,
            .step c' _ (.call t o) hr' ?_ ?_, h.data, h.wr, ?_, ?_, h.mono, ?_, ?_, ?_⟩
          · intro t' op' e
            cases e
            exact ha t _ rfl
          · simp only [Conc.step, hc']
          · intro t'
            by_cases e : t' = t
            · subst e; simp only [upd_self]; exact ⟨rfl, rfl, rfl, (h.next 0).symm⟩
            · simp only [upd_ne _ _ e]; exact h.calls t'
          · simp only [lefts_append, h.hist, List.map_append]
            show _ ++ [Ev.inv c.next t o] = _ ++ [Ev.inv (g c'.next) t o]
            rw [show g c'.next = c.next from h.next 0]
          · intro i
            show g (c'.next + 1 + i) = c.next + 1 + i
            rw [show c'.next + 1 + i = c'.next + (1 + i) by omega, h.next]
            omega
          · intro e he
            show Ev.num e < c'.next + 1
            rcases List.mem_append.mp he with he | he
            · have := h.old e he; omega
            · rw [List.mem_singleton.mp he]; show c'.next < c'.next + 1; omega
          · intro t' k' hk
            show k'.id < c'.next + 1
            by_cases e : t' = t
            · subst e; simp only [upd_self, Option.some.injEq] at hk; subst hk; show c'.next < c'.next + 1; omega
            · simp only [upd_ne _ _ e] at hk; have := h.live t' k' hk; omega
        | inr o =>
          have hg : ∀ i, i < c'.next → g i < c.next := fun i hi => by
            have := h.mono i c'.next hi
            rw [show g c'.next = c.next from h.next 0] at this; exact this
          refine ⟨fun i => if i < c'.next then g i else g i + 1, c', hr', h.data, h.wr, ?_, ?_, ?_, ?_, h.old, h.live⟩
          · intro t'
            by_cases e : t' = t
            · subst e; simp only [upd_self, hc']; exact ⟨o, _, rfl, rfl, htame o (ha _ _ rfl), fun _ _ => rfl⟩
            · simp only [upd_ne _ _ e]
              have h1 := h.calls t'
              cases e1 : c.calls t' <;> cases e2 : c'.calls t' <;> rw [e1, e2] at h1
              · trivial
              · exact h1.elim
              · exact h1
              · next k k' =>
                obtain ⟨a1, a2, a3, a4⟩ := h1
                exact ⟨a1, a2, a3, a4.trans (if_pos (h.live t' k' e2)).symm⟩
          · rw [lefts_append, h.hist]
            show _ ++ [] = _
            rw [List.append_nil]
            apply List.map_congr_left
            intro e he
            have := h.old e he
            cases e with
            | inv i t' o' => simp only [ren, if_pos (show i < c'.next from this)]
            | res i t' o' => simp only [ren, if_pos (show i < c'.next from this)]
          · intro i j hij
            have := h.mono i j hij
            show (if i < c'.next then g i else g i + 1) < (if j < c'.next then g j else g j + 1)
            split <;> split <;> omega
          · intro i
            show (if c'.next + i < c'.next then g (c'.next + i) else g (c'.next + i) + 1) = c.next + 1 + i
            rw [if_neg (by omega), h.next]; omega
    | tau t =>
      unfold Conc.step at hst
      cases hc : c.calls t with
      | none => simp only [hc, reduceCtorEq] at hst
      | some k =>
        simp only [hc] at hst
        cases hm : micro c k with
        | none => simp only [hm, reduceCtorEq] at hst
        | some r =>
          obtain ⟨k2, mus, d⟩ := r
          simp only [hm, Option.some.injEq] at hst
          subst hst
          have hct := h.calls t
          rw [hc] at hct
          cases hc' : c'.calls t with
          | some k' =>
            rw [hc'] at hct
            have hl := fun m => (lockInv (fun op => hdisc m op) hr).count
            have hl' := fun m => lockInv (fun op => hdisc₁ m op) hr'
            obtain ⟨k2', mus', h1, h2, h3, h4⟩ := micro_left h.data h.wr hct (fun m hz => by
                apply Classical.byContradiction
                intro hne
                obtain ⟨t', ht'⟩ := (hl' m).count.exists_reader trivial hne
                refine (hl m).readers_ne (t := t') ?_ hz
                have := h.calls t'
                unfold mineOf at ht' ⊢
                cases e1 : c.calls t' <;> cases e2 : c'.calls t' <;> rw [e1, e2] at this <;> simp only [e2] at ht'
                · exact absurd rfl ht'
                · exact this.elim
                · exact absurd rfl ht'
                · have h3 := this.2.2.1
                  simp only [h3]
                  exact ht') (fun m p hp => by
                obtain ⟨hold, hmine, hdd⟩ := (hl' m).disc t k' hc'
                rw [hp] at hdd
                simp only [Disc, if_true] at hdd
                obtain ⟨n, rfl, _⟩ := hdd
                refine (hl' m).count.readers_ne (t := t) ?_
                rw [mineOf_some hc', hmine]
                exact Nat.succ_ne_zero n) hm
            refine ⟨g, { c' with data := d, mus := mus', calls := upd c'.calls t (some k2') },
              .step c' _ (.tau t) hr' (fun _ _ e => nomatch e) (by simp only [Conc.step, hc', h1]),
              rfl, h3, ?_, h.hist, h.mono, h.next, h.old, ?_⟩
            · intro t'
              by_cases e : t' = t
              · subst e; simp only [upd_self]; exact h2
              · simp only [upd_ne _ _ e]; exact h.calls t'
            · intro t' kk hk
              by_cases e : t' = t
              · subst e; simp only [upd_self, Option.some.injEq] at hk; subst hk; rw [h4]; exact h.live _ _ hc'
              · simp only [upd_ne _ _ e] at hk; exact h.live t' kk hk
          | none =>
            rw [hc'] at hct
            obtain ⟨o, q, ho, hp, hq, hmine⟩ := hct
            obtain ⟨h1, h2, ⟨q', h3, h3'⟩, h4, h5⟩ := micro_right hp hq hm
            subst h1
            refine ⟨g, c', hr', h.data, fun m => (h2 m).trans (h.wr m), ?_, h.hist, h.mono, h.next, h.old, h.live⟩
            intro t'
            by_cases e : t' = t
            · subst e; simp only [upd_self, hc']
              exact ⟨o, q', h4.trans ho, h3, h3', fun m hne => (h5 m hne).trans (hmine m hne)⟩
            · simp only [upd_ne _ _ e]; exact h.calls t'
    | ret t =>
      unfold Conc.step at hst
      cases hc : c.calls t with
      | none => simp only [hc, reduceCtorEq] at hst
      | some k =>
        simp only [hc] at hst
        have hct := h.calls t
        rw [hc] at hct
        cases hp : k.prog with
        | ret r =>
          simp only [hp, Option.some.injEq] at hst
          subst hst
          cases hc' : c'.calls t with
          | some k' =>
            rw [hc'] at hct
            obtain ⟨a1, a2, a3, a4⟩ := hct
            rw [hp] at a2
            obtain ⟨r', hp', rfl⟩ : ∃ r', k'.prog = .ret r' ∧ r = .inl r' := by
              cases hq : k'.prog <;> rw [hq] at a2 <;> cases a2
              exact ⟨_, rfl, rfl⟩
            refine ⟨g, { c' with calls := upd c'.calls t none, hist := c'.hist ++ [.res k'.id t r'] },
              .step c' _ (.ret t) hr' (fun _ _ e => nomatch e) (by simp only [Conc.step, hc', hp']),
              h.data, h.wr, ?_, ?_, h.mono, h.next, ?_, ?_⟩
            · intro t'
              by_cases e : t' = t
              · subst e; simp only [upd_self]; trivial
              · simp only [upd_ne _ _ e]; exact h.calls t'
            · simp only [lefts_append, h.hist, List.map_append, a4]; rfl
            · intro e he
              rcases List.mem_append.mp he with he | he
              · exact h.old e he
              · rw [List.mem_singleton.mp he]; exact h.live t k' hc'
            · intro t' kk hk
              by_cases e : t' = t
              · subst e; simp only [upd_self, reduceCtorEq] at hk
              · simp only [upd_ne _ _ e] at hk; exact h.live t' kk hk
          | none =>
            rw [hc'] at hct
            obtain ⟨_, q, _, hq, _⟩ := hct
            rw [hp] at hq
            obtain ⟨r', rfl⟩ : ∃ r', r = .inr r' := by
              cases q <;> cases hq
              exact ⟨_, rfl⟩
            refine ⟨g, c', hr', h.data, h.wr, ?_, ?_, h.mono, h.next, h.old, h.live⟩
            · intro t'
              by_cases e : t' = t
              · subst e; simp only [upd_self, hc']; trivial
              · simp only [upd_ne _ _ e]; exact h.calls t'
            · rw [lefts_append, h.hist]
              show _ ++ [] = _
              rw [List.append_nil]
        | lock _ _ => simp only [hp, reduceCtorEq] at hst
        | acquire _ _ => simp only [hp, reduceCtorEq] at hst
        | unlock _ _ => simp only [hp, reduceCtorEq] at hst
        | rlock _ _ => simp only [hp, reduceCtorEq] at hst
        | runlock _ _ => simp only [hp, reduceCtorEq] at hst
        | read _ _ => simp only [hp, reduceCtorEq] at hst
        | write _ _ _ => simp only [hp, reduceCtorEq] at hst

/-! ## Progress -/

/-- If a call of the first kind is blocked then it is blocked without the second kind, unless somebody of the
second kind is in for reading. -/
theorem micro_stuck {b : μ} {g : Nat → Nat} {c : Cfg μ κ σ (Op₁ ⊕ Op₂) (Out₁ ⊕ Out₂)} {c' : Cfg μ κ σ Op₁ Out₁}
    (hw : ∀ m, (c.mus m).wr = (c'.mus m).wr) {k : Call μ κ σ (Op₁ ⊕ Op₂) (Out₁ ⊕ Out₂)} {k' : Call μ κ σ Op₁ Out₁}
    (hk : CallSim b g (some k) (some k')) (hz : ∀ m, (c'.mus m).readers = 0 → (c.mus m).readers = 0)
    (hn : ∀ m p, k.prog = .runlock m p → (c.mus m).readers ≠ 0) (hm : micro c k = none) : micro c' k' = none := by
  obtain ⟨_, hp, _, _⟩ := hk
  cases hq : k'.prog with
  | ret r => simp only [micro, hq]
  | lock m p =>
    rw [hq] at hp
    simp only [micro, hp, tagL, Prog.bind] at hm
    simp only [micro, hq]
    split at hm
    · cases hm
    · next e => exact if_neg (by rw [← hw]; exact e)
  | acquire m p =>
    rw [hq] at hp
    simp only [micro, hp, tagL, Prog.bind] at hm
    simp only [micro, hq]
    split at hm
    · cases hm
    · next e => exact if_neg (fun h => e (hz m h))
  | unlock m p =>
    rw [hq] at hp
    simp only [micro, hp, tagL, Prog.bind] at hm
    simp only [micro, hq]
    split at hm
    · cases hm
    · next e => exact if_neg (by rw [← hw]; exact e)
  | rlock m p =>
    rw [hq] at hp
    simp only [micro, hp, tagL, Prog.bind] at hm
    simp only [micro, hq]
    split at hm
    · cases hm
    · next e => exact if_neg (by rw [← hw]; exact e)
  | runlock m p =>
    rw [hq] at hp
    have h0 := hn m _ hp
    simp only [micro, hp, tagL, Prog.bind] at hm
    split at hm
    · cases hm
    · next e => exact absurd h0 e
  | read l p => rw [hq] at hp; simp only [micro, hp, tagL, Prog.bind, reduceCtorEq] at hm
  | write l f p => rw [hq] at hp; simp only [micro, hp, tagL, Prog.bind, reduceCtorEq] at hm

/-- Calls that only look cause no deadlock, if they do not nest their read locks. -/
theorem no_deadlock_erase {b : μ} {p₁ : Op₁ → Prog μ κ σ Out₁} {p₂ : Op₂ → Prog μ κ σ Out₂} {ok : Op₁ ⊕ Op₂ → Prop}
    (hdisc : ∀ m op, ok op → Disc m (fun _ => False) True False (both p₁ p₂ op) (.rd 0))
    (hdisc₁ : ∀ m op, ok (.inl op) → Disc m (fun _ => False) True False (p₁ op) (.rd 0))
    (htame : ∀ op, ok (.inr op) → Tame b (p₂ op))
    (hflat : ∀ op, ok (.inr op) → Disc b (fun _ => False) True True (both p₁ p₂ (.inr op)) (.rd 0)) {s : σ}
    (hone : ∀ c', Reach p₁ (fun o => ok (.inl o)) s c' → ¬ Deadlock p₁ c')
    {c : Cfg μ κ σ (Op₁ ⊕ Op₂) (Out₁ ⊕ Out₂)} (hr : Reach (both p₁ p₂) ok s c) : ¬ Deadlock (both p₁ p₂) c := by
  rintro ⟨⟨t0, k0, hk0⟩, hstuck⟩
  obtain ⟨g, c', hr', h⟩ := erase hdisc hdisc₁ htame hr
  have hl := fun m => lockInv (fun op => hdisc m op) hr
  have hl' := fun m => (lockInv (fun op => hdisc₁ m op) hr').count
  have hmic : ∀ t k, c.calls t = some k → micro c k = none := fun t k hk => tau_isSome hk (hstuck t).1
  have hfl := discCall (ops := fun op => ∃ o, op = .inr o) (m := b) (prot := fun _ => False) (strict := True)
    (flat := True) (fun op ha ⟨o, e⟩ => by subst e; exact hflat o ha) hr
  -- nobody of the second kind is in
  have hout : ∀ t k, c.calls t = some k → c'.calls t = none → (k.mine b).readers = 0 := by
    intro t k hk hk'
    have hct := h.calls t
    rw [hk, hk'] at hct
    obtain ⟨o, q, ho, hp, hq, _⟩ := hct
    obtain ⟨hold, hmine, hd⟩ := hfl t k hk ⟨o, ho⟩
    have hs := hmic t k hk
    cases hold with
    | ann => rw [hmine]; rfl
    | wr => rw [hmine]; rfl
    | rd n =>
      cases n with
      | zero => rw [hmine]; rfl
      | succ n =>
        exfalso
        have hM : (c.mus b).readers ≠ 0 := (hl b).count.readers_ne (t := t) (by
          rw [mineOf_some hk, hmine]; exact Nat.succ_ne_zero n)
        rw [hp] at hd
        cases q with
        | ret r => obtain ⟨n', e, h0⟩ := hd; cases e; cases h0 trivial
        | lock m' p => exact hq.elim
        | acquire m' p => exact hq.elim
        | unlock m' p => exact hq.elim
        | rlock m' p =>
          obtain ⟨rfl, _⟩ := hq
          simp only [tagR, Prog.bind, Disc, if_true] at hd
          obtain ⟨n', e, h0, _⟩ := hd
          cases e
          cases h0 trivial
        | runlock m' p =>
          obtain ⟨rfl, _⟩ := hq
          simp only [micro, hp, tagR, Prog.bind] at hs
          rw [if_pos hM] at hs
          cases hs
        | read l p => simp only [micro, hp, tagR, Prog.bind, reduceCtorEq] at hs
        | write l f p => exact hq.elim
  have hz : ∀ m, (c'.mus m).readers = 0 → (c.mus m).readers = 0 := by
    intro m h0
    apply Classical.byContradiction
    intro hne
    obtain ⟨t', ht'⟩ := (hl m).count.exists_reader trivial hne
    have hct := h.calls t'
    cases e1 : c.calls t' with
    | none => unfold mineOf at ht'; rw [e1] at ht'; exact ht' rfl
    | some k =>
      rw [mineOf_some e1] at ht'
      cases e2 : c'.calls t' with
      | none =>
        by_cases e : m = b
        · subst e; exact ht' (hout t' k e1 e2)
        · rw [e1, e2] at hct
          obtain ⟨o, q, _, _, _, hm⟩ := hct
          rw [hm m e] at ht'
          exact ht' rfl
      | some k' =>
        rw [e1, e2] at hct
        refine (hl' m).readers_ne (t := t') ?_ h0
        rw [mineOf_some e2, ← hct.2.2.1]
        exact ht'
  by_cases hex : ∃ t k', c'.calls t = some k'
  · refine hone c' hr' ⟨hex, fun t => ?_⟩
    cases e2 : c'.calls t with
    | none => simp only [Conc.step, e2, and_self]
    | some k' =>
      have hct := h.calls t
      rw [e2] at hct
      cases e1 : c.calls t with
      | none => rw [e1] at hct; exact hct.elim
      | some k =>
        rw [e1] at hct
        have hn := micro_stuck h.wr hct hz (fun m p hp => by
          obtain ⟨hold, hmine, hd⟩ := (hl m).disc t k e1
          rw [hp] at hd
          simp only [Disc, if_true] at hd
          obtain ⟨n, rfl, _⟩ := hd
          refine (hl m).count.readers_ne (t := t) ?_
          rw [mineOf_some e1, hmine]
          exact Nat.succ_ne_zero n) (hmic t k e1)
        refine ⟨by simp only [Conc.step, e2, hn], ?_⟩
        have h2 := (hstuck t).2
        simp only [Conc.step, e1] at h2
        simp only [Conc.step, e2]
        cases hp : k'.prog with
        | ret r =>
          have hp' := hct.2.1
          rw [hp] at hp'
          simp only [hp', tagL, Prog.bind, reduceCtorEq] at h2
        | _ => rfl
  · have hnone : ∀ t, c'.calls t = none := fun t => by
      cases e : c'.calls t with
      | none => rfl
      | some k => exact absurd ⟨t, k, e⟩ hex
    have hct := h.calls t0
    rw [hk0, hnone t0] at hct
    obtain ⟨o, q, ho, hp, hq, _⟩ := hct
    have hs := hmic t0 k0 hk0
    have h2 := (hstuck t0).2
    cases q with
    | ret r => simp only [Conc.step, hk0, hp, tagR, Prog.bind, reduceCtorEq] at h2
    | lock m' p => exact hq.elim
    | acquire m' p => exact hq.elim
    | unlock m' p => exact hq.elim
    | rlock m' p =>
      simp only [micro, hp, tagR, Prog.bind] at hs
      split at hs
      · cases hs
      · next e =>
        rw [h.wr] at e
        obtain ⟨t, ht, _⟩ := (hl' m').one e
        apply e
        rw [← ht]
        unfold mineOf
        rw [hnone t]
        rfl
    | runlock m' p =>
      obtain ⟨rfl, _⟩ := hq
      obtain ⟨hold, hmine, hd⟩ := hfl t0 k0 hk0 ⟨o, ho⟩
      rw [hp] at hd
      simp only [tagR, Prog.bind, Disc, if_true] at hd
      obtain ⟨n, rfl, _⟩ := hd
      have := hout t0 k0 hk0 (hnone t0)
      rw [hmine] at this
      cases this
    | read l p => simp only [micro, hp, tagR, Prog.bind, reduceCtorEq] at hs
    | write l f p => exact hq.elim

/-! ## Renumbering -/

theorem ren_inj {g : Nat → Nat} (hg : ∀ i j, i < j → g i < g j) {i j : Nat} (h : g i = g j) : i = j := by
  rcases Nat.lt_trichotomy i j with hl | hl | hl
  · have := hg _ _ hl; omega
  · exact hl
  · have := hg _ _ hl; omega

/-- Explanations survive renumbering. -/
theorem explains_ren {g : Nat → Nat} (hg : ∀ i j, i < j → g i < g j) {lin : List (Nat × Op₁ × Out₁)}
    {h : List (Ev Op₁ Out₁)} (he : Explains lin h) :
    Explains (lin.map fun x => (g x.1, x.2)) (h.map (ren g)) := by
  constructor
  · rw [List.map_map]
    show (lin.map (fun x => g x.1)).Nodup
    rw [show lin.map (fun x => g x.1) = (lin.map fun x => x.1).map g by rw [List.map_map]; rfl]
    exact List.Pairwise.map g (fun a b hne hab => hne (ren_inj hg hab)) he.once
  · intro c op out hm
    obtain ⟨⟨i, op', out'⟩, hx, e⟩ := List.mem_map.mp hm
    cases e
    obtain ⟨t, ht⟩ := he.called _ _ _ hx
    exact ⟨t, List.mem_map.mpr ⟨_, ht, rfl⟩⟩
  · intro c t out hm
    obtain ⟨x, hx, e⟩ := List.mem_map.mp hm
    cases x with
    | inv i t' o => cases e
    | res i t' o =>
      cases e
      obtain ⟨op, ho⟩ := he.returned _ _ _ hx
      exact ⟨op, List.mem_map.mpr ⟨_, ho, rfl⟩⟩
  · rintro c t out c2 t2 op2 ⟨a, b, d, hb⟩ x' hx' hxc
    obtain ⟨a', r', rfl, rfl, hr'⟩ := List.map_eq_append_iff.mp hb
    obtain ⟨e1, r2, rfl, he1, hr2⟩ := List.map_eq_cons_iff.mp hr'
    obtain ⟨b', r3, rfl, rfl, hr3⟩ := List.map_eq_append_iff.mp hr2
    obtain ⟨e2, d', rfl, he2, rfl⟩ := List.map_eq_cons_iff.mp hr3
    cases e1 with
    | inv i t' o => cases he1
    | res i t' o =>
      cases e2 with
      | res i2 t2' o2 => cases he2
      | inv i2 t2' o2 =>
        cases he1; cases he2
        obtain ⟨y, hy, rfl⟩ := List.mem_map.mp hx'
        obtain ⟨x, hx, hxi, u, v, w, huv⟩ := he.realTime i t out i2 t2 op2 ⟨a', b', d', rfl⟩ y hy (ren_inj hg hxc)
        refine ⟨(g x.1, x.2), List.mem_map.mpr ⟨x, hx, rfl⟩, by rw [← hxi], ?_⟩
        rw [huv]
        simp only [List.map_append, List.map_cons]
        exact ⟨_, _, _, rfl⟩

theorem legal_ren {g : Nat → Nat} {seq : σ → Op₁ → σ × Out₁} (lin : List (Nat × Op₁ × Out₁)) :
    ∀ {s : σ}, Legal seq s lin → Legal seq s (lin.map fun x => (g x.1, x.2)) := by
  induction lin with
  | nil => exact fun h => h
  | cons x l ih => exact fun h => ⟨h.1, ih h.2⟩

end Netscrape.Conc
