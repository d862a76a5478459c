import Verif.Lemmas.Conc

/-!
# Invariants kept by critical sections

For methods made of several critical sections of one mutex: an invariant that every section keeps holds
whenever nobody is in a writing section. Between its sections a call may rely on what every section
guarantees, a relation `R` between the states before and after.

`π` is the part of the shared state the mutex protects.
-/

namespace Netscrape.Conc

variable {μ κ σ τ ρ Op Out : Type} [DecidableEq μ]

/-- Where a call is, and what it knows about the protected state: outside a section (or waiting for the
write lock) it knows an earlier state; in a reading section (`n + 1` read locks) the present one; in a
writing section the one at its start and the present one. -/
inductive Mode (τ : Type) where
  | out (g : τ)
  | ann (g : τ)
  | rd (n : Nat) (g : τ)
  | wr (g₀ g : τ)

def Mode.hold : Mode τ → Hold
  | .out _ => .rd 0
  | .ann _ => .ann
  | .rd n _ => .rd (n + 1)
  | .wr _ _ => .wr

/-- The protected state, where the mode determines it. -/
def Mode.Sees : Mode τ → τ → Prop
  | .rd _ g, x => x = g
  | .wr _ g, x => x = g
  | _, _ => True

/-- The mode after a write that makes the protected state `x`. -/
def Mode.wrote : Mode τ → τ → Mode τ
  | .wr g₀ _, x => .wr g₀ x
  | md, _ => md

/-- Is this a writing section? -/
def Mode.Writing : Mode τ → Prop
  | .wr _ _ => True
  | _ => False

/-- `p` keeps the invariant and the guarantee. -/
def Ver (m : μ) (π : σ → τ) (Inv : τ → Prop) (R : τ → τ → Prop) : Prog μ κ σ ρ → Mode τ → Prop
  | .ret _, md => ∃ g, md = .out g
  | .lock m' k, md => m' = m ∧ ∃ g, md = .out g ∧ ∀ g', R g g' → Inv g' → Ver m π Inv R k (.wr g' g')
  | .acquire m' k, md => m' = m ∧ ∃ g, md = .ann g ∧ ∀ g', R g g' → Inv g' → Ver m π Inv R k (.wr g' g')
  | .unlock m' k, md => m' = m ∧ ∃ g₀ g, md = .wr g₀ g ∧ Inv g ∧ R g₀ g ∧ Ver m π Inv R k (.out g)
  | .rlock m' k, md => m' = m ∧
      ((∃ g, md = .out g ∧ ∀ g', R g g' → Inv g' → Ver m π Inv R k (.rd 0 g')) ∨
        ∃ n g, md = .rd n g ∧ Ver m π Inv R k (.rd (n + 1) g))
  | .runlock m' k, md => m' = m ∧
      ((∃ g, md = .rd 0 g ∧ Ver m π Inv R k (.out g)) ∨
        ∃ n g, md = .rd (n + 1) g ∧ Ver m π Inv R k (.rd n g))
  | .read _ k, md => ∀ s, md.Sees (π s) → Ver m π Inv R (k s) md
  | .write _ f k, md => ∀ s, md.Sees (π s) → (¬ md.Writing → π (f s) = π s) ∧
      Ver m π Inv R (k s) (md.wrote (π (f s)))

/-- How a mode fits the present configuration: `G` is the state as of the last completed section, `d` the
present one. -/
def Mode.Fits (R : τ → τ → Prop) (G d : τ) : Mode τ → Prop
  | .out g => R g G
  | .ann g => R g G
  | .rd _ g => g = G
  | .wr g₀ g => g₀ = G ∧ g = d

structure SecInv (m : μ) (π : σ → τ) (Inv : τ → Prop) (R : τ → τ → Prop) (c : Cfg μ κ σ Op Out) (G : τ) :
    Prop where
  inv : Inv G
  same : (c.mus m).wr ≠ .held → π c.data = G
  calls : ∀ t k, c.calls t = some k → ∃ md : Mode τ, k.mine m = md.hold.mu ∧
    md.Fits R G (π c.data) ∧ Ver m π Inv R k.prog md

private theorem fits_sees {m : μ} {R : τ → τ → Prop} {G d : τ} {md : Mode τ} {M : Mu}
    (h : md.Fits R G d) (hs : (md.hold.mu.readers ≠ 0 → M.wr ≠ .held)) (hd : M.wr ≠ .held → d = G) :
    md.Sees d := by
  cases md with
  | out g => trivial
  | ann g => trivial
  | rd n g => exact (hd (hs (Nat.succ_ne_zero n))).trans (Eq.symm h)
  | wr g₀ g => exact h.2.symm

theorem secInv_tau {m : μ} {π : σ → τ} {Inv : τ → Prop} {R : τ → τ → Prop} (hrefl : ∀ g, R g g)
    (htrans : ∀ g g' g'', R g g' → R g' g'' → R g g'') {prot : κ → Prop} {strict flat : Prop}
    {c : Cfg μ κ σ Op Out} {G : τ} (hl : LockInv m prot strict flat c) (h : SecInv m π Inv R c G)
    {t : Nat} {k k' : Call μ κ σ Op Out} {mus : μ → Mu} {d : σ} (hk : c.calls t = some k)
    (hm : micro c k = some (k', mus, d)) :
    ∃ G', SecInv m π Inv R { c with data := d, mus := mus, calls := upd c.calls t (some k') } G' := by
  obtain ⟨md, hmine, hfit, hver⟩ := h.calls t k hk
  have hft : mineOf m c t = md.hold.mu := (mineOf_some hk).trans hmine
  have hnoread : ∀ {t' : Nat} {k1 : Call μ κ σ Op Out}, c.calls t' = some k1 →
      (k1.mine m).readers ≠ 0 → (c.mus m).wr ≠ .held := by
    intro t' k1 hk1 hr hheld
    have := hl.count.readers_ne (t := t') (by rw [mineOf_some hk1]; exact hr)
    exact this (hl.count.held hheld)
  -- assemble from the stepping call, the others keeping their modes
  have mk : ∀ G' : τ, Inv G' → ((mus m).wr ≠ .held → π d = G') →
      (∃ md' : Mode τ, k'.mine m = md'.hold.mu ∧ md'.Fits R G' (π d) ∧ Ver m π Inv R k'.prog md') →
      (∀ t' k1 (md1 : Mode τ), t' ≠ t → c.calls t' = some k1 → k1.mine m = md1.hold.mu →
        md1.Fits R G (π c.data) → md1.Fits R G' (π d)) →
      ∃ G', SecInv m π Inv R { c with data := d, mus := mus, calls := upd c.calls t (some k') } G' := by
    intro G' h1 h2 h3 h4
    refine ⟨G', h1, h2, ?_⟩
    intro t' q hq
    by_cases e : t' = t
    · subst e
      simp only [upd_self, Option.some.injEq] at hq
      subst hq
      exact h3
    · simp only [upd_ne _ _ e] at hq
      obtain ⟨md1, a1, a2, a3⟩ := h.calls t' q hq
      exact ⟨md1, a1, h4 t' q md1 e hq a1 a2, a3⟩
  unfold Conc.micro at hm
  cases hp : k.prog with
  | ret r => simp only [hp, reduceCtorEq] at hm
  | lock m' p =>
    rw [hp] at hver
    obtain ⟨rfl, g, rfl, hver⟩ := hver
    simp only [hp] at hm
    split at hm
    · next hfree =>
      cases hm
      refine mk G h.inv (fun _ => h.same (by rw [hfree]; decide)) ⟨.ann g, ?_, hfit, rfl, g, rfl, hver⟩
        (fun _ _ _ _ _ _ h => h)
      simp only [upd_self, hmine]; rfl
    · cases hm
  | acquire m' p =>
    rw [hp] at hver
    obtain ⟨rfl, g, rfl, hver⟩ := hver
    have hann := (hl.count.wr_eq (t := t) (w := .announced) (by decide) (by rw [hft]; rfl)).1
    have hsame := h.same (by rw [hann]; decide)
    simp only [hp] at hm
    split at hm
    · cases hm
      refine mk G h.inv (fun hh => ?_) ⟨.wr G G, ?_, ⟨rfl, hsame.symm⟩, hver G hfit h.inv⟩
        (fun _ _ _ _ _ _ h => h)
      · simp only [upd_self, ne_eq, not_true_eq_false] at hh
      · simp only [upd_self, hmine]; rfl
    · cases hm
  | unlock m' p =>
    rw [hp] at hver
    obtain ⟨rfl, g₀, g, rfl, hI, hR, hver⟩ := hver
    obtain ⟨rfl, hg⟩ := hfit
    have hheld : (mineOf m' c t).wr = .held := by rw [hft]; rfl
    simp only [hp] at hm
    split at hm
    · cases hm
      refine mk g hI (fun _ => hg.symm) ⟨.out g, ?_, hrefl g, hver⟩ ?_
      · simp only [upd_self, hmine]; rfl
      · intro t' k1 md1 hne hk1 hm1 hf1
        have hfree := (hl.count.wr_eq (by decide) hheld).2 t' hne
        have hzero := hl.count.excl hheld t'
        rw [mineOf_some hk1, hm1] at hfree hzero
        cases md1 with
        | out g1 => exact htrans _ _ _ hf1 hR
        | ann g1 => cases hfree
        | rd n g1 => cases hzero
        | wr a b => cases hfree
    · cases hm
  | rlock m' p =>
    rw [hp] at hver
    obtain ⟨rfl, hver⟩ := hver
    simp only [hp] at hm
    split at hm
    · next hfree =>
      cases hm
      have hsame : π c.data = G := h.same (by rw [hfree]; decide)
      rcases hver with ⟨g, rfl, hver⟩ | ⟨n, g, rfl, hver⟩
      · refine mk G h.inv (fun _ => hsame) ⟨.rd 0 G, ?_, rfl, hver G hfit h.inv⟩ (fun _ _ _ _ _ _ h => h)
        simp only [upd_self, hmine]; rfl
      · refine mk G h.inv (fun _ => hsame) ⟨.rd (n + 1) g, ?_, hfit, hver⟩ (fun _ _ _ _ _ _ h => h)
        simp only [upd_self, hmine]; rfl
    · cases hm
  | runlock m' p =>
    rw [hp] at hver
    obtain ⟨rfl, hver⟩ := hver
    simp only [hp] at hm
    split at hm
    · cases hm
      rcases hver with ⟨g, rfl, hver⟩ | ⟨n, g, rfl, hver⟩
      · have hsame : π c.data = G := h.same (hnoread hk (by rw [hmine]; exact Nat.succ_ne_zero 0))
        refine mk G h.inv (fun _ => hsame) ⟨.out g, ?_, ?_, hver⟩ (fun _ _ _ _ _ _ h => h)
        · simp only [upd_self, hmine]; rfl
        · cases hfit; exact hrefl _
      · have hsame : π c.data = G := h.same (hnoread hk (by rw [hmine]; exact Nat.succ_ne_zero (n + 1)))
        refine mk G h.inv (fun _ => hsame) ⟨.rd n g, ?_, hfit, hver⟩ (fun _ _ _ _ _ _ h => h)
        simp only [upd_self, hmine]; rfl
    · cases hm
  | read l p =>
    rw [hp] at hver
    simp only [hp, Option.some.injEq, Prod.mk.injEq] at hm
    obtain ⟨rfl, rfl, rfl⟩ := hm
    have hsees : md.Sees (π c.data) := fits_sees (m := m) hfit
      (fun hr => hnoread hk (by rw [hmine]; exact hr)) h.same
    exact mk G h.inv h.same ⟨md, hmine, hfit, hver _ hsees⟩ (fun _ _ _ _ _ _ h => h)
  | write l f p =>
    rw [hp] at hver
    simp only [hp, Option.some.injEq, Prod.mk.injEq] at hm
    obtain ⟨rfl, rfl, rfl⟩ := hm
    have hsees : md.Sees (π c.data) := fits_sees (m := m) hfit
      (fun hr => hnoread hk (by rw [hmine]; exact hr)) h.same
    obtain ⟨hkeep, hver⟩ := hver _ hsees
    cases md with
    | wr g₀ g =>
      obtain ⟨rfl, hg⟩ := hfit
      have hheld : (mineOf m c t).wr = .held := by rw [hft]; rfl
      have hM := (hl.count.wr_eq (by decide) hheld).1
      refine mk g₀ h.inv (fun hh => absurd hM hh) ⟨.wr g₀ (π (f c.data)), hmine, ⟨rfl, rfl⟩, hver⟩ ?_
      intro t' k1 md1 hne hk1 hm1 hf1
      have hfree := (hl.count.wr_eq (by decide) hheld).2 t' hne
      rw [mineOf_some hk1, hm1] at hfree
      cases md1 with
      | out g1 => exact hf1
      | ann g1 => exact hf1
      | rd n g1 => exact hf1
      | wr a b => cases hfree
    | out g =>
      have e := hkeep id
      refine mk G h.inv (by rw [e]; exact h.same) ⟨.out g, hmine, hfit, hver⟩ ?_
      intro _ _ md1 _ _ _ hf1; rw [e]; exact hf1
    | ann g =>
      have e := hkeep id
      refine mk G h.inv (by rw [e]; exact h.same) ⟨.ann g, hmine, hfit, hver⟩ ?_
      intro _ _ md1 _ _ _ hf1; rw [e]; exact hf1
    | rd n g =>
      have e := hkeep id
      refine mk G h.inv (by rw [e]; exact h.same) ⟨.rd n g, hmine, hfit, hver⟩ ?_
      intro _ _ md1 _ _ _ hf1; rw [e]; exact hf1

theorem secInv {m : μ} {π : σ → τ} {Inv : τ → Prop} {R : τ → τ → Prop} (hrefl : ∀ g, R g g)
    (htrans : ∀ g g' g'', R g g' → R g' g'' → R g g'') {prot : κ → Prop} {strict flat : Prop}
    {prog : Op → Prog μ κ σ Out} {allowed : Op → Prop}
    (hdisc : ∀ op, allowed op → Disc m prot strict flat (prog op) (.rd 0))
    (hver : ∀ op, allowed op → ∀ g, Inv g → Ver m π Inv R (prog op) (.out g))
    {s : σ} (h0 : Inv (π s)) {c : Cfg μ κ σ Op Out} (hr : Reach prog allowed s c) :
    ∃ G, SecInv m π Inv R c G := by
  induction hr with
  | init => exact ⟨π s, h0, fun _ => rfl, fun t k hk => by cases hk⟩
  | step c c' a hrc ha hst ih =>
    obtain ⟨G, ih⟩ := ih
    cases a with
    | call t op =>
      unfold Conc.step at hst
      cases hc : c.calls t with
      | some k => simp only [hc, reduceCtorEq] at hst
      | none =>
        simp only [hc, Option.some.injEq] at hst
        subst hst
        refine ⟨G, ih.inv, ih.same, ?_⟩
        intro t' k hk
        by_cases e : t' = t
        · subst e
          simp only [upd_self, Option.some.injEq] at hk
          subst hk
          exact ⟨.out G, rfl, hrefl G, hver op (ha t' op rfl) G ih.inv⟩
        · simp only [upd_ne _ _ e] at hk
          exact ih.calls t' k hk
    | tau t =>
      unfold Conc.step at hst
      cases hc : c.calls t with
      | none => simp only [hc, reduceCtorEq] at hst
      | some k =>
        simp only [hc] at hst
        cases hm : Conc.micro c k with
        | none => simp only [hm, reduceCtorEq] at hst
        | some r =>
          obtain ⟨k', mus, d⟩ := r
          simp only [hm, Option.some.injEq] at hst
          subst hst
          exact secInv_tau hrefl htrans (lockInv hdisc hrc) ih hc hm
    | ret t =>
      unfold Conc.step at hst
      cases hc : c.calls t with
      | none => simp only [hc, reduceCtorEq] at hst
      | some k =>
        cases hp : k.prog with
        | ret r =>
          simp only [hc, hp, Option.some.injEq] at hst
          subst hst
          refine ⟨G, ih.inv, ih.same, ?_⟩
          intro t' q hq
          by_cases e : t' = t
          · subst e; simp only [upd_self, reduceCtorEq] at hq
          · simp only [upd_ne _ _ e] at hq
            exact ih.calls t' q hq
        | _ => simp only [hc, hp, reduceCtorEq] at hst

/-- The invariant holds whenever nobody has the write lock, in particular when nobody is in a call. -/
theorem sections {m : μ} {π : σ → τ} {Inv : τ → Prop} {R : τ → τ → Prop} (hrefl : ∀ g, R g g)
    (htrans : ∀ g g' g'', R g g' → R g' g'' → R g g'') {prot : κ → Prop} {strict flat : Prop}
    {prog : Op → Prog μ κ σ Out} {allowed : Op → Prop}
    (hdisc : ∀ op, allowed op → Disc m prot strict flat (prog op) (.rd 0))
    (hver : ∀ op, allowed op → ∀ g, Inv g → Ver m π Inv R (prog op) (.out g))
    {s : σ} (h0 : Inv (π s)) {c : Cfg μ κ σ Op Out} (hr : Reach prog allowed s c)
    (hfree : (c.mus m).wr ≠ .held) : Inv (π c.data) := by
  obtain ⟨G, h⟩ := secInv hrefl htrans hdisc hver h0 hr
  rw [h.same hfree]
  exact h.inv

/-- If no call is in progress nobody has the write lock. -/
theorem idle_free {m : μ} {prot : κ → Prop} {strict flat : Prop} {prog : Op → Prog μ κ σ Out}
    {allowed : Op → Prop} (hdisc : ∀ op, allowed op → Disc m prot strict flat (prog op) (.rd 0))
    {s : σ} {c : Cfg μ κ σ Op Out} (hr : Reach prog allowed s c) (hidle : ∀ t, c.calls t = none) :
    (c.mus m).wr ≠ .held := by
  intro hh
  obtain ⟨t, ht, -⟩ := (lockInv hdisc hr).count.one (by rw [hh]; decide)
  rw [hh] at ht
  unfold mineOf at ht
  rw [hidle t] at ht
  cases ht

end Netscrape.Conc
