import Verif.Lemmas.Sections

/-!
# Invariants kept by critical sections, with another mutex around some of them

As `Lemmas/Sections.lean`, for methods of which some hold an outer mutex `a` around sections of `b`. While somebody
is inside `a` nobody else is there to write, and so they may rely on more: on what those guarantee who are not
inside `a` for writing. What calls return is covered as well.
-/

namespace Netscrape.Conc

variable {μ κ σ τ ρ ρ' Op Out : Type} [DecidableEq μ]

/-- Holding the outer mutex in this way keeps its writers out. -/
def Hold.Inside : Hold → Prop
  | .rd 0 => False
  | .ann => False
  | _ => True

/-- What others do to the protected state, while the outer mutex is held like this. -/
def Rely (Rin Rall : τ → τ → Prop) (o : Hold) (g g' : τ) : Prop := (o.Inside → Rin g g') ∧ Rall g g'

/-- What a section has to guarantee. -/
def Guar (Rin Rall : τ → τ → Prop) (o : Hold) (g g' : τ) : Prop := (o ≠ .wr → Rin g g') ∧ Rall g g'

/-- The state a mode knows of, if it is not about to write or writing. -/
def Mode.At : Mode τ → τ → Prop
  | .out g, x => x = g
  | .rd _ g, x => x = g
  | _, _ => False

/-- `p` keeps the invariant and the guarantees, and `Q` holds when it returns. `A` and `B` tell which mutexes are the
outer and the inner one; others do not matter. -/
def Ver2 (A B : μ → Prop) (π : σ → τ) (Inv : τ → Prop) (Rin Rall : τ → τ → Prop) (Q : ρ → Hold → Mode τ → Prop) :
    Prog μ κ σ ρ → Hold → Mode τ → Prop
  | .ret r, o, md => Q r o md
  | .lock m k, o, md =>
    ((A m ∧ o = .rd 0 ∧ ∃ g, md = .out g ∧ ∀ g', Rall g g' → Inv g' → Ver2 A B π Inv Rin Rall Q k .wr (.out g')) ∨
      ((¬ A m ∧ ¬ B m) ∧ Ver2 A B π Inv Rin Rall Q k o md)) ∨
    (B m ∧ o ≠ .ann ∧ ∃ g, md = .out g ∧ ∀ g', Rely Rin Rall o g g' → Inv g' → Ver2 A B π Inv Rin Rall Q k o (.wr g' g'))
  | .acquire m k, o, md =>
    ((A m ∧ o = .ann ∧ ∃ g, md = .out g ∧ ∀ g', Rall g g' → Inv g' → Ver2 A B π Inv Rin Rall Q k .wr (.out g')) ∨
      ((¬ A m ∧ ¬ B m) ∧ Ver2 A B π Inv Rin Rall Q k o md)) ∨
    (B m ∧ o ≠ .ann ∧ ∃ g, md = .ann g ∧ ∀ g', Rely Rin Rall o g g' → Inv g' → Ver2 A B π Inv Rin Rall Q k o (.wr g' g'))
  | .unlock m k, o, md =>
    ((A m ∧ o = .wr ∧ ∃ g, md = .out g ∧ Ver2 A B π Inv Rin Rall Q k (.rd 0) (.out g)) ∨
      ((¬ A m ∧ ¬ B m) ∧ Ver2 A B π Inv Rin Rall Q k o md)) ∨
    (B m ∧ ∃ g₀ g, md = .wr g₀ g ∧ Inv g ∧ Guar Rin Rall o g₀ g ∧ Ver2 A B π Inv Rin Rall Q k o (.out g))
  | .rlock m k, o, md =>
    ((A m ∧ o = .rd 0 ∧ ∃ g, md = .out g ∧ ∀ g', Rall g g' → Inv g' → Ver2 A B π Inv Rin Rall Q k (.rd 1) (.out g')) ∨
      ((¬ A m ∧ ¬ B m) ∧ Ver2 A B π Inv Rin Rall Q k o md)) ∨
    (B m ∧ ((∃ g, md = .out g ∧ ∀ g', Rely Rin Rall o g g' → Inv g' → Ver2 A B π Inv Rin Rall Q k o (.rd 0 g')) ∨
      ∃ n g, md = .rd n g ∧ Ver2 A B π Inv Rin Rall Q k o (.rd (n + 1) g)))
  | .runlock m k, o, md =>
    ((A m ∧ o = .rd 1 ∧ ∃ g, md = .out g ∧ Ver2 A B π Inv Rin Rall Q k (.rd 0) (.out g)) ∨
      ((¬ A m ∧ ¬ B m) ∧ Ver2 A B π Inv Rin Rall Q k o md)) ∨
    (B m ∧ ((∃ g, md = .rd 0 g ∧ Ver2 A B π Inv Rin Rall Q k o (.out g)) ∨
      ∃ n g, md = .rd (n + 1) g ∧ Ver2 A B π Inv Rin Rall Q k o (.rd n g)))
  | .read _ k, o, md => ∀ s, md.Sees (π s) → Ver2 A B π Inv Rin Rall Q (k s) o md
  | .write _ f k, o, md => ∀ s, md.Sees (π s) → (¬ md.Writing → π (f s) = π s) ∧
      Ver2 A B π Inv Rin Rall Q (k s) o (md.wrote (π (f s)))

omit [DecidableEq μ] in
theorem Ver2.bind {A B : μ → Prop} {π : σ → τ} {Inv : τ → Prop} {Rin Rall : τ → τ → Prop} {Q : ρ → Hold → Mode τ → Prop}
    {Q' : ρ' → Hold → Mode τ → Prop} {f : ρ → Prog μ κ σ ρ'}
    (hf : ∀ r o md, Q r o md → Ver2 A B π Inv Rin Rall Q' (f r) o md) :
    ∀ {p : Prog μ κ σ ρ} {o : Hold} {md : Mode τ}, Ver2 A B π Inv Rin Rall Q p o md →
      Ver2 A B π Inv Rin Rall Q' (p.bind f) o md := by
  intro p
  induction p with
  | ret r => intro o md h; exact hf r o md h
  | lock m k ih =>
    rintro o md ((⟨h1, h2, g, h3, h4⟩ | ⟨h1, h2⟩) | ⟨h1, h2, g, h3, h4⟩)
    · exact .inl (.inl ⟨h1, h2, g, h3, fun g' h h' => ih (h4 g' h h')⟩)
    · exact .inl (.inr ⟨h1, ih h2⟩)
    · exact .inr ⟨h1, h2, g, h3, fun g' h h' => ih (h4 g' h h')⟩
  | acquire m k ih =>
    rintro o md ((⟨h1, h2, g, h3, h4⟩ | ⟨h1, h2⟩) | ⟨h1, h2, g, h3, h4⟩)
    · exact .inl (.inl ⟨h1, h2, g, h3, fun g' h h' => ih (h4 g' h h')⟩)
    · exact .inl (.inr ⟨h1, ih h2⟩)
    · exact .inr ⟨h1, h2, g, h3, fun g' h h' => ih (h4 g' h h')⟩
  | unlock m k ih =>
    rintro o md ((⟨h1, h2, g, h3, h4⟩ | ⟨h1, h2⟩) | ⟨h1, g₀, g, h3, h4, h5, h6⟩)
    · exact .inl (.inl ⟨h1, h2, g, h3, ih h4⟩)
    · exact .inl (.inr ⟨h1, ih h2⟩)
    · exact .inr ⟨h1, g₀, g, h3, h4, h5, ih h6⟩
  | rlock m k ih =>
    rintro o md ((⟨h1, h2, g, h3, h4⟩ | ⟨h1, h2⟩) | ⟨h1, ⟨g, h3, h4⟩ | ⟨n, g, h3, h4⟩⟩)
    · exact .inl (.inl ⟨h1, h2, g, h3, fun g' h h' => ih (h4 g' h h')⟩)
    · exact .inl (.inr ⟨h1, ih h2⟩)
    · exact .inr ⟨h1, .inl ⟨g, h3, fun g' h h' => ih (h4 g' h h')⟩⟩
    · exact .inr ⟨h1, .inr ⟨n, g, h3, ih h4⟩⟩
  | runlock m k ih =>
    rintro o md ((⟨h1, h2, g, h3, h4⟩ | ⟨h1, h2⟩) | ⟨h1, ⟨g, h3, h4⟩ | ⟨n, g, h3, h4⟩⟩)
    · exact .inl (.inl ⟨h1, h2, g, h3, ih h4⟩)
    · exact .inl (.inr ⟨h1, ih h2⟩)
    · exact .inr ⟨h1, .inl ⟨g, h3, ih h4⟩⟩
    · exact .inr ⟨h1, .inr ⟨n, g, h3, ih h4⟩⟩
  | read l k ih => intro o md h s hs; exact ih s (h s hs)
  | write l w k ih => intro o md h s hs; exact ⟨(h s hs).1, ih s (h s hs).2⟩

/-- How a mode fits the present configuration. -/
def Mode.Fits2 (Rin Rall : τ → τ → Prop) (o : Hold) (G d : τ) : Mode τ → Prop
  | .out g => Rely Rin Rall o g G
  | .ann g => Rely Rin Rall o g G
  | .rd _ g => g = G
  | .wr g₀ g => g₀ = G ∧ g = d

/-- What a call that returns has to fulfil: it is outside the outer mutex, and what it returns is right. -/
def Ends (Q : ρ → τ → Prop) (r : ρ) (o : Hold) (md : Mode τ) : Prop := o = .rd 0 ∧ ∃ g, md.At g ∧ Q r g

structure SecInv2 (a b : μ) (π : σ → τ) (Inv : τ → Prop) (Rin Rall : τ → τ → Prop) (Q : Op → Out → τ → Prop)
    (c : Cfg μ κ σ Op Out) (G : τ) : Prop where
  inv : Inv G
  same : (c.mus b).wr ≠ .held → π c.data = G
  calls : ∀ t k, c.calls t = some k → Ev.inv k.id t k.op ∈ c.hist ∧ ∃ (o : Hold) (md : Mode τ), k.mine a = o.mu ∧
    k.mine b = md.hold.mu ∧ md.Fits2 Rin Rall o G (π c.data) ∧
    Ver2 (· = a) (· = b) π Inv Rin Rall (Ends (Q k.op)) k.prog o md
  hist : ∀ i t r, Ev.res i t r ∈ c.hist → ∃ op, Ev.inv i t op ∈ c.hist ∧ Q op r G

private theorem fits_sees {Rin Rall : τ → τ → Prop} {o : Hold} {G d : τ} {md : Mode τ} {M : Mu}
    (h : md.Fits2 Rin Rall o G d) (hs : (md.hold.mu.readers ≠ 0 → M.wr ≠ .held)) (hd : M.wr ≠ .held → d = G) :
    md.Sees d := by
  cases md with
  | out g => trivial
  | ann g => trivial
  | rd n g => exact (hd (hs (Nat.succ_ne_zero n))).trans (Eq.symm h)
  | wr g₀ g => exact h.2.symm

theorem Rely.refl {Rin Rall : τ → τ → Prop} (h1 : ∀ g, Rin g g) (h2 : ∀ g, Rall g g) (o : Hold) (g : τ) :
    Rely Rin Rall o g g := ⟨fun _ => h1 g, h2 g⟩

section
variable {a b : μ} {π : σ → τ} {Inv : τ → Prop} {Rin Rall : τ → τ → Prop} {Q : Op → Out → τ → Prop}

theorem secInv2_tau (hab : a ≠ b) (hrefl : ∀ g, Rin g g) (hrefl' : ∀ g, Rall g g)
    (htrans : ∀ g g' g'', Rin g g' → Rin g' g'' → Rin g g'')
    (htrans' : ∀ g g' g'', Rall g g' → Rall g' g'' → Rall g g'')
    (hQ : ∀ op r g g', Q op r g → Rall g g' → Q op r g') {prot prot' : κ → Prop} {strict strict' flat flat' : Prop}
    {c : Cfg μ κ σ Op Out} {G : τ} (hla : LockInv a prot strict flat c) (hl : LockInv b prot' strict' flat' c)
    (h : SecInv2 a b π Inv Rin Rall Q c G)
    {t : Nat} {k k' : Call μ κ σ Op Out} {mus : μ → Mu} {d : σ} (hk : c.calls t = some k)
    (hm : micro c k = some (k', mus, d)) :
    ∃ G', SecInv2 a b π Inv Rin Rall Q { c with data := d, mus := mus, calls := upd c.calls t (some k') } G' := by
  obtain ⟨hin, o, md, hmine, hmineb, hfit, hver⟩ := h.calls t k hk
  have hft : mineOf b c t = md.hold.mu := (mineOf_some hk).trans hmineb
  have hfta : mineOf a c t = o.mu := (mineOf_some hk).trans hmine
  have hba : b ≠ a := fun e => hab e.symm
  have hnoread : ∀ {t' : Nat} {k1 : Call μ κ σ Op Out}, c.calls t' = some k1 →
      (k1.mine b).readers ≠ 0 → (c.mus b).wr ≠ .held := by
    intro t' k1 hk1 hr hheld
    have := hl.count.readers_ne (t := t') (by rw [mineOf_some hk1]; exact hr)
    exact this (hl.count.held hheld)
  -- assemble from the stepping call, the others keeping their modes
  have mk : ∀ G' : τ, Inv G' → Rall G G' → ((mus b).wr ≠ .held → π d = G') → k'.id = k.id → k'.op = k.op →
      (∃ (o' : Hold) (md' : Mode τ), k'.mine a = o'.mu ∧ k'.mine b = md'.hold.mu ∧ md'.Fits2 Rin Rall o' G' (π d) ∧
        Ver2 (· = a) (· = b) π Inv Rin Rall (Ends (Q k.op)) k'.prog o' md') →
      (∀ t' k1 (o1 : Hold) (md1 : Mode τ), t' ≠ t → c.calls t' = some k1 → k1.mine a = o1.mu →
        k1.mine b = md1.hold.mu → md1.Fits2 Rin Rall o1 G (π c.data) → md1.Fits2 Rin Rall o1 G' (π d)) →
      ∃ G', SecInv2 a b π Inv Rin Rall Q { c with data := d, mus := mus, calls := upd c.calls t (some k') } G' := by
    intro G' h1 hR h2 e1 e2 h3 h4
    refine ⟨G', h1, h2, ?_, ?_⟩
    · intro t' q hq
      by_cases e : t' = t
      · subst e
        simp only [upd_self, Option.some.injEq] at hq
        subst hq
        rw [e1, e2]
        exact ⟨hin, h3⟩
      · simp only [upd_ne _ _ e] at hq
        obtain ⟨a0, o1, md1, a1, a1', a2, a3⟩ := h.calls t' q hq
        exact ⟨a0, o1, md1, a1, a1', h4 t' q o1 md1 e hq a1 a1' a2, a3⟩
    · intro i t' r hr
      obtain ⟨op, h5, h6⟩ := h.hist i t' r hr
      exact ⟨op, h5, hQ _ _ _ _ h6 hR⟩
  have stay : ∀ t' (k1 : Call μ κ σ Op Out) (o1 : Hold) (md1 : Mode τ), t' ≠ t → c.calls t' = some k1 → k1.mine a = o1.mu →
        k1.mine b = md1.hold.mu → md1.Fits2 Rin Rall o1 G (π c.data) → md1.Fits2 Rin Rall o1 G (π c.data) :=
    fun _ _ _ _ _ _ _ _ h => h
  unfold Conc.micro at hm
  cases hp : k.prog with
  | ret r => simp only [hp, reduceCtorEq] at hm
  | lock m' p =>
    rw [hp] at hver
    simp only [hp] at hm
    split at hm
    · next hfree =>
      cases hm
      rcases hver with (⟨rfl, rfl, g, rfl, hver⟩ | ⟨hoth, hver⟩) | ⟨rfl, hna, g, rfl, hver⟩
      · refine mk G h.inv (hrefl' G) (fun hh => h.same ?_) rfl rfl
          ⟨.ann, .out g, ?_, ?_, ⟨False.elim, hfit.2⟩, .inl (.inl ⟨rfl, rfl, g, rfl, hver⟩)⟩ stay
        · simpa only [upd_ne _ _ hba] using hh
        · simp only [upd_self, hmine]; rfl
        · simp only [upd_ne _ _ hba]; exact hmineb
      · exact mk G h.inv (hrefl' G) (fun hh => h.same (by simpa only [upd_ne _ _ (Ne.symm hoth.2)] using hh)) rfl rfl
          ⟨o, md, by simpa only [upd_ne _ _ (Ne.symm hoth.1)] using hmine,
            by simpa only [upd_ne _ _ (Ne.symm hoth.2)] using hmineb, hfit, .inl (.inr ⟨hoth, hver⟩)⟩ stay
      · refine mk G h.inv (hrefl' G) (fun _ => h.same (by rw [hfree]; decide)) rfl rfl
          ⟨o, .ann g, ?_, ?_, hfit, .inr ⟨rfl, hna, g, rfl, hver⟩⟩ stay
        · simp only [upd_ne _ _ hab]; exact hmine
        · simp only [upd_self, hmineb]; rfl
    · cases hm
  | acquire m' p =>
    rw [hp] at hver
    simp only [hp] at hm
    split at hm
    · cases hm
      rcases hver with (⟨rfl, rfl, g, rfl, hver⟩ | ⟨hoth, hver⟩) | ⟨rfl, hna, g, rfl, hver⟩
      · refine mk G h.inv (hrefl' G) (fun hh => h.same ?_) rfl rfl
          ⟨.wr, .out G, ?_, ?_, .refl hrefl hrefl' _ _, hver G hfit.2 h.inv⟩ stay
        · simpa only [upd_ne _ _ hba] using hh
        · simp only [upd_self, hmine]; rfl
        · simp only [upd_ne _ _ hba]; exact hmineb
      · exact mk G h.inv (hrefl' G) (fun hh => h.same (by simpa only [upd_ne _ _ (Ne.symm hoth.2)] using hh)) rfl rfl
          ⟨o, md, by simpa only [upd_ne _ _ (Ne.symm hoth.1)] using hmine,
            by simpa only [upd_ne _ _ (Ne.symm hoth.2)] using hmineb, hfit, hver⟩ stay
      · have hann := (hl.count.wr_eq (t := t) (w := .announced) (by decide) (by rw [hft]; rfl)).1
        have hsame := h.same (by rw [hann]; decide)
        refine mk G h.inv (hrefl' G) (fun hh => ?_) rfl rfl ⟨o, .wr G G, ?_, ?_, ⟨rfl, hsame.symm⟩, hver G hfit h.inv⟩ stay
        · simp only [upd_self, ne_eq, not_true_eq_false] at hh
        · simp only [upd_ne _ _ hab]; exact hmine
        · simp only [upd_self, hmineb]; rfl
    · cases hm
  | unlock m' p =>
    rw [hp] at hver
    simp only [hp] at hm
    split at hm
    · cases hm
      rcases hver with (⟨rfl, rfl, g, rfl, hver⟩ | ⟨hoth, hver⟩) | ⟨rfl, g₀, g, rfl, hI, hR, hver⟩
      · refine mk G h.inv (hrefl' G) (fun hh => h.same ?_) rfl rfl
          ⟨.rd 0, .out g, ?_, ?_, ⟨False.elim, hfit.2⟩, hver⟩ stay
        · simpa only [upd_ne _ _ hba] using hh
        · simp only [upd_self, hmine]; rfl
        · simp only [upd_ne _ _ hba]; exact hmineb
      · exact mk G h.inv (hrefl' G) (fun hh => h.same (by simpa only [upd_ne _ _ (Ne.symm hoth.2)] using hh)) rfl rfl
          ⟨o, md, by simpa only [upd_ne _ _ (Ne.symm hoth.1)] using hmine,
            by simpa only [upd_ne _ _ (Ne.symm hoth.2)] using hmineb, hfit, hver⟩ stay
      · obtain ⟨rfl, hg⟩ := hfit
        have hheld : (mineOf m' c t).wr = .held := by rw [hft]; rfl
        refine mk g hI hR.2 (fun _ => hg.symm) rfl rfl ⟨o, .out g, ?_, ?_, .refl hrefl hrefl' _ _, hver⟩ ?_
        · simp only [upd_ne _ _ hab]; exact hmine
        · simp only [upd_self, hmineb]; rfl
        · intro t' k1 o1 md1 hne hk1 ho1 hm1 hf1
          have hfree := (hl.count.wr_eq (by decide) hheld).2 t' hne
          have hzero := hl.count.excl hheld t'
          rw [mineOf_some hk1, hm1] at hfree hzero
          have hrely : ∀ g1, Rely Rin Rall o1 g1 g₀ → Rely Rin Rall o1 g1 g := by
            intro g1 h1
            refine ⟨fun hi => htrans _ _ _ (h1.1 hi) (hR.1 ?_), htrans' _ _ _ h1.2 hR.2⟩
            rintro rfl
            have hhelda : (mineOf a c t).wr = .held := by rw [hfta]; rfl
            have hf := (hla.count.wr_eq (by decide) hhelda).2 t' hne
            have hz := hla.count.excl hhelda t'
            rw [mineOf_some hk1, ho1] at hf hz
            cases o1 with
            | rd n =>
              cases n with
              | zero => exact hi
              | succ n => cases hz
            | ann => cases hf
            | wr => cases hf
          cases md1 with
          | out g1 => exact hrely g1 hf1
          | ann g1 => cases hfree
          | rd n g1 => cases hzero
          | wr a b => cases hfree
    · cases hm
  | rlock m' p =>
    rw [hp] at hver
    simp only [hp] at hm
    split at hm
    · next hfree =>
      cases hm
      rcases hver with (⟨rfl, rfl, g, rfl, hver⟩ | ⟨hoth, hver⟩) | ⟨rfl, hver⟩
      · refine mk G h.inv (hrefl' G) (fun hh => h.same ?_) rfl rfl
          ⟨.rd 1, .out G, ?_, ?_, .refl hrefl hrefl' _ _, hver G hfit.2 h.inv⟩ stay
        · simpa only [upd_ne _ _ hba] using hh
        · simp only [upd_self, hmine]; rfl
        · simp only [upd_ne _ _ hba]; exact hmineb
      · exact mk G h.inv (hrefl' G) (fun hh => h.same (by simpa only [upd_ne _ _ (Ne.symm hoth.2)] using hh)) rfl rfl
          ⟨o, md, by simpa only [upd_ne _ _ (Ne.symm hoth.1)] using hmine,
            by simpa only [upd_ne _ _ (Ne.symm hoth.2)] using hmineb, hfit, hver⟩ stay
      · have hsame : π c.data = G := h.same (by rw [hfree]; decide)
        rcases hver with ⟨g, rfl, hver⟩ | ⟨n, g, rfl, hver⟩
        · refine mk G h.inv (hrefl' G) (fun _ => hsame) rfl rfl ⟨o, .rd 0 G, ?_, ?_, rfl, hver G hfit h.inv⟩ stay
          · simp only [upd_ne _ _ hab]; exact hmine
          · simp only [upd_self, hmineb]; rfl
        · refine mk G h.inv (hrefl' G) (fun _ => hsame) rfl rfl ⟨o, .rd (n + 1) g, ?_, ?_, hfit, hver⟩ stay
          · simp only [upd_ne _ _ hab]; exact hmine
          · simp only [upd_self, hmineb]; rfl
    · cases hm
  | runlock m' p =>
    rw [hp] at hver
    simp only [hp] at hm
    split at hm
    · cases hm
      rcases hver with (⟨rfl, rfl, g, rfl, hver⟩ | ⟨hoth, hver⟩) | ⟨rfl, hver⟩
      · refine mk G h.inv (hrefl' G) (fun hh => h.same ?_) rfl rfl
          ⟨.rd 0, .out g, ?_, ?_, ⟨False.elim, hfit.2⟩, hver⟩ stay
        · simpa only [upd_ne _ _ hba] using hh
        · simp only [upd_self, hmine]; rfl
        · simp only [upd_ne _ _ hba]; exact hmineb
      · exact mk G h.inv (hrefl' G) (fun hh => h.same (by simpa only [upd_ne _ _ (Ne.symm hoth.2)] using hh)) rfl rfl
          ⟨o, md, by simpa only [upd_ne _ _ (Ne.symm hoth.1)] using hmine,
            by simpa only [upd_ne _ _ (Ne.symm hoth.2)] using hmineb, hfit, hver⟩ stay
      · rcases hver with ⟨g, rfl, hver⟩ | ⟨n, g, rfl, hver⟩
        · have hsame : π c.data = G := h.same (hnoread hk (by rw [hmineb]; exact Nat.succ_ne_zero 0))
          refine mk G h.inv (hrefl' G) (fun _ => hsame) rfl rfl ⟨o, .out g, ?_, ?_, ?_, hver⟩ stay
          · simp only [upd_ne _ _ hab]; exact hmine
          · simp only [upd_self, hmineb]; rfl
          · cases hfit; exact .refl hrefl hrefl' _ _
        · have hsame : π c.data = G := h.same (hnoread hk (by rw [hmineb]; exact Nat.succ_ne_zero (n + 1)))
          refine mk G h.inv (hrefl' G) (fun _ => hsame) rfl rfl ⟨o, .rd n g, ?_, ?_, hfit, hver⟩ stay
          · simp only [upd_ne _ _ hab]; exact hmine
          · simp only [upd_self, hmineb]; rfl
    · cases hm
  | read l p =>
    rw [hp] at hver
    simp only [hp, Option.some.injEq, Prod.mk.injEq] at hm
    obtain ⟨rfl, rfl, rfl⟩ := hm
    have hsees : md.Sees (π c.data) := fits_sees hfit (fun hr => hnoread hk (by rw [hmineb]; exact hr)) h.same
    exact mk G h.inv (hrefl' G) h.same rfl rfl ⟨o, md, hmine, hmineb, hfit, hver _ hsees⟩ stay
  | write l f p =>
    rw [hp] at hver
    simp only [hp, Option.some.injEq, Prod.mk.injEq] at hm
    obtain ⟨rfl, rfl, rfl⟩ := hm
    have hsees : md.Sees (π c.data) := fits_sees hfit (fun hr => hnoread hk (by rw [hmineb]; exact hr)) h.same
    obtain ⟨hkeep, hver⟩ := hver _ hsees
    cases md with
    | wr g₀ g =>
      obtain ⟨rfl, hg⟩ := hfit
      have hheld : (mineOf b c t).wr = .held := by rw [hft]; rfl
      have hM := (hl.count.wr_eq (by decide) hheld).1
      refine mk g₀ h.inv (hrefl' _) (fun hh => absurd hM hh) rfl rfl
        ⟨o, .wr g₀ (π (f c.data)), hmine, hmineb, ⟨rfl, rfl⟩, hver⟩ ?_
      intro t' k1 o1 md1 hne hk1 _ hm1 hf1
      have hfree := (hl.count.wr_eq (by decide) hheld).2 t' hne
      rw [mineOf_some hk1, hm1] at hfree
      cases md1 with
      | out g1 => exact hf1
      | ann g1 => exact hf1
      | rd n g1 => exact hf1
      | wr a b => cases hfree
    | out g =>
      have e := hkeep id
      refine mk G h.inv (hrefl' _) (by rw [e]; exact h.same) rfl rfl ⟨o, .out g, hmine, hmineb, hfit, hver⟩ ?_
      intro _ _ _ md1 _ _ _ _ hf1; rw [e]; exact hf1
    | ann g =>
      have e := hkeep id
      refine mk G h.inv (hrefl' _) (by rw [e]; exact h.same) rfl rfl ⟨o, .ann g, hmine, hmineb, hfit, hver⟩ ?_
      intro _ _ _ md1 _ _ _ _ hf1; rw [e]; exact hf1
    | rd n g =>
      have e := hkeep id
      refine mk G h.inv (hrefl' _) (by rw [e]; exact h.same) rfl rfl ⟨o, .rd n g, hmine, hmineb, hfit, hver⟩ ?_
      intro _ _ _ md1 _ _ _ _ hf1; rw [e]; exact hf1

theorem secInv2 (hab : a ≠ b) (hrefl : ∀ g, Rin g g) (hrefl' : ∀ g, Rall g g)
    (htrans : ∀ g g' g'', Rin g g' → Rin g' g'' → Rin g g'')
    (htrans' : ∀ g g' g'', Rall g g' → Rall g' g'' → Rall g g'')
    (hQ : ∀ op r g g', Q op r g → Rall g g' → Q op r g') {prot prot' : κ → Prop} {strict strict' flat flat' : Prop}
    {prog : Op → Prog μ κ σ Out} {allowed : Op → Prop}
    (hda : ∀ op, allowed op → Disc a prot strict flat (prog op) (.rd 0))
    (hdb : ∀ op, allowed op → Disc b prot' strict' flat' (prog op) (.rd 0))
    (hver : ∀ op, allowed op → ∀ g, Inv g → Ver2 (· = a) (· = b) π Inv Rin Rall (Ends (Q op)) (prog op) (.rd 0) (.out g))
    {s : σ} (h0 : Inv (π s)) {c : Cfg μ κ σ Op Out} (hr : Reach prog allowed s c) :
    ∃ G, SecInv2 a b π Inv Rin Rall Q c G := by
  induction hr with
  | init => exact ⟨π s, h0, fun _ => rfl, (fun t k hk => by cases hk), fun i t r hr => by cases hr⟩
  | step c c' x hrc ha hst ih =>
    obtain ⟨G, ih⟩ := ih
    cases x with
    | call t op =>
      unfold Conc.step at hst
      cases hc : c.calls t with
      | some k => simp only [hc, reduceCtorEq] at hst
      | none =>
        simp only [hc, Option.some.injEq] at hst
        subst hst
        refine ⟨G, ih.inv, ih.same, ?_, ?_⟩
        · intro t' k hk
          by_cases e : t' = t
          · subst e
            simp only [upd_self, Option.some.injEq] at hk
            subst hk
            exact ⟨by simp, .rd 0, .out G, rfl, rfl, .refl hrefl hrefl' _ _, hver op (ha t' op rfl) G ih.inv⟩
          · simp only [upd_ne _ _ e] at hk
            obtain ⟨h1, h2⟩ := ih.calls t' k hk
            exact ⟨List.mem_append_left _ h1, h2⟩
        · intro i t' r hr
          simp only [List.mem_append, List.mem_singleton, reduceCtorEq, or_false] at hr
          obtain ⟨op', h1, h2⟩ := ih.hist i t' r hr
          exact ⟨op', List.mem_append_left _ h1, h2⟩
    | tau t =>
      unfold Conc.step at hst
      cases hc : c.calls t with
      | none => simp only [hc, reduceCtorEq] at hst
      | some k =>
        simp only [hc] at hst
        cases hm : Conc.micro c k with
        | none => simp only [hm, reduceCtorEq] at hst
        | some r =>
          obtain ⟨k', mus, d⟩ := r
          simp only [hm, Option.some.injEq] at hst
          subst hst
          exact secInv2_tau hab hrefl hrefl' htrans htrans' hQ (lockInv hda hrc) (lockInv hdb hrc) ih hc hm
    | ret t =>
      unfold Conc.step at hst
      cases hc : c.calls t with
      | none => simp only [hc, reduceCtorEq] at hst
      | some k =>
        cases hp : k.prog with
        | ret r =>
          simp only [hc, hp, Option.some.injEq] at hst
          subst hst
          refine ⟨G, ih.inv, ih.same, ?_, ?_⟩
          · intro t' q hq
            by_cases e : t' = t
            · subst e; simp only [upd_self, reduceCtorEq] at hq
            · simp only [upd_ne _ _ e] at hq
              obtain ⟨h1, h2⟩ := ih.calls t' q hq
              exact ⟨List.mem_append_left _ h1, h2⟩
          · intro i t' r' hr
            simp only [List.mem_append, List.mem_singleton] at hr
            rcases hr with hr | hr
            · obtain ⟨op', h1, h2⟩ := ih.hist i t' r' hr
              exact ⟨op', List.mem_append_left _ h1, h2⟩
            · cases hr
              obtain ⟨h1, o, md, -, -, hfit, hv⟩ := ih.calls t k hc
              rw [hp] at hv
              obtain ⟨-, g, hat, hq⟩ := hv
              refine ⟨k.op, List.mem_append_left _ h1, hQ _ _ _ _ hq ?_⟩
              cases md with
              | out g' => cases hat; exact hfit.2
              | rd n g' => cases hat; cases hfit; exact hrefl' _
              | ann g' => exact hat.elim
              | wr g' g'' => exact hat.elim
        | _ => simp only [hc, hp, reduceCtorEq] at hst

end

end Netscrape.Conc
