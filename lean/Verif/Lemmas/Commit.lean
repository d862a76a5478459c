import Verif.Lemmas.LinFrame

/-!
# Linearizability with two mutexes

Methods that hold `a` exclusively and change what is visible under `b` (the view `π`) in at most one critical
section of `b`, methods that hold `a` for reading, and methods that hold only `b` for reading and look only at the
view. All of them together are linearizable.
-/

namespace Netscrape.Conc
open Netscrape.Spec

variable {μ κ σ ν Op Out : Type} [DecidableEq μ]

/-- How far a writer has come: before, waiting for `a`, holding `a` with the view unchanged, in the section of
`b` that changes the view, after it, and with `a` released. -/
inductive WPhase where
  | pre
  | ann
  | pend
  | mid
  | late
  | done
deriving DecidableEq

/-- What the writer has added to `a`. -/
def WPhase.mu : WPhase → Mu
  | .pre | .done => .init
  | .ann => ⟨0, .announced⟩
  | .pend | .mid | .late => ⟨0, .held⟩

/-- `p`, run from phase `ph` on and holding `b` as `h` says, is a writer. -/
def Writer (a b : μ) (π : σ → ν) : Prog μ κ σ Out → WPhase → Hold → Prop
  | .ret _, ph, h => ph = .done ∧ h = .rd 0
  | .lock m k, ph, h =>
    (m = a ∧ ph = .pre ∧ h = .rd 0 ∧ Writer a b π k .pend (.rd 0)) ∨
    (m = b ∧ (ph = .pend ∨ ph = .late) ∧ h = .rd 0 ∧ Writer a b π k ph .wr)
  | .acquire m k, ph, h =>
    (m = a ∧ ph = .ann ∧ h = .rd 0 ∧ Writer a b π k .pend (.rd 0)) ∨
    (m = b ∧ (ph = .pend ∨ ph = .late) ∧ h = .ann ∧ Writer a b π k ph .wr)
  | .unlock m k, ph, h =>
    (m = a ∧ (ph = .pend ∨ ph = .late) ∧ h = .rd 0 ∧ ∃ r, k = .ret r) ∨
    (m = b ∧ h = .wr ∧ ((ph = .mid ∧ Writer a b π k .late (.rd 0)) ∨
      ((ph = .pend ∨ ph = .late) ∧ Writer a b π k ph (.rd 0))))
  | .rlock m k, ph, h => m = b ∧ (ph = .pend ∨ ph = .late) ∧ ∃ n, h = .rd n ∧ Writer a b π k ph (.rd (n + 1))
  | .runlock m k, ph, h => m = b ∧ (ph = .pend ∨ ph = .late) ∧ ∃ n, h = .rd (n + 1) ∧ Writer a b π k ph (.rd n)
  | .read _ k, ph, h => (ph = .pend ∨ ph = .mid ∨ ph = .late) ∧ ∀ s, Writer a b π (k s) ph h
  | .write _ f k, ph, h =>
    (ph = .pend ∧ (∀ s, π (f s) = π s) ∧ ∀ s, Writer a b π (k s) .pend h) ∨
    ((ph = .pend ∨ ph = .mid) ∧ h = .wr ∧ ∀ s, Writer a b π (k s) .mid .wr)

omit [DecidableEq μ] in
/-- After the section that changes the view nothing is written. -/
theorem Writer.eval_late {a b : μ} {π : σ → ν} {p : Prog μ κ σ Out} {d : σ} :
    ∀ {h : Hold}, Writer a b π p .late h → (p.eval d).1 = d := by
  induction p with
  | ret r => intro h _; rfl
  | lock m k ih =>
    rintro h (⟨_, h1, _⟩ | ⟨_, _, _, h2⟩)
    · cases h1
    · exact ih h2
  | acquire m k ih =>
    rintro h (⟨_, h1, _⟩ | ⟨_, _, _, h2⟩)
    · cases h1
    · exact ih h2
  | unlock m k ih =>
    rintro h (⟨_, _, _, r, rfl⟩ | ⟨_, _, ⟨h1, _⟩ | ⟨_, h2⟩⟩)
    · rfl
    · cases h1
    · exact ih h2
  | rlock m k ih => rintro h ⟨_, _, n, _, h2⟩; exact ih h2
  | runlock m k ih => rintro h ⟨_, _, n, _, h2⟩; exact ih h2
  | read l k ih => rintro h ⟨_, h2⟩; exact ih d (h2 d)
  | write l f k ih =>
    rintro h (⟨h1, _⟩ | ⟨h1 | h1, _⟩)
    · cases h1
    · cases h1
    · cases h1

/-- `p`, run from phase `ph` on, reads under a read lock of `m` and sees of the state only what `E` says. It may
use read locks of other mutexes. -/
def Looker (m : μ) (E : σ → σ → Prop) : Prog μ κ σ Out → Phase → Prop
  | .ret _, ph => ph = .post
  | .rlock m' k, ph => (m' = m ∧ ph = .pre ∧ Looker m E k .inR) ∨ (m' ≠ m ∧ Looker m E k ph)
  | .runlock m' k, ph => (m' = m ∧ ph = .inR ∧ Looker m E k .post) ∨ (m' ≠ m ∧ Looker m E k ph)
  | .read _ k, ph => ph = .inR ∧ (∀ s s', E s s' → k s = k s') ∧ ∀ s, Looker m E (k s) .inR
  | _, _ => False

omit [DecidableEq μ] in
theorem Looker.eval {m : μ} {E : σ → σ → Prop} {p : Prog μ κ σ Out} {d : σ} :
    ∀ {ph : Phase}, Looker m E p ph → (p.eval d).1 = d := by
  induction p with
  | ret r => intro ph _; rfl
  | lock m k ih => intro ph h; exact h.elim
  | acquire m k ih => intro ph h; exact h.elim
  | unlock m k ih => intro ph h; exact h.elim
  | rlock m k ih =>
    rintro ph (⟨_, _, h⟩ | ⟨_, h⟩)
    · exact ih h
    · exact ih h
  | runlock m k ih =>
    rintro ph (⟨_, _, h⟩ | ⟨_, h⟩)
    · exact ih h
    · exact ih h
  | read l k ih => rintro ph ⟨_, _, h⟩; exact ih d (h d)
  | write l f k ih => intro ph h; exact h.elim

omit [DecidableEq μ] in
theorem Looker.same {m : μ} {E : σ → σ → Prop} {p : Prog μ κ σ Out} {d d' : σ} (hE : E d d') :
    ∀ {ph : Phase}, Looker m E p ph → (p.eval d).2 = (p.eval d').2 := by
  induction p with
  | ret r => intro ph _; rfl
  | lock m k ih => intro ph h; exact h.elim
  | acquire m k ih => intro ph h; exact h.elim
  | unlock m k ih => intro ph h; exact h.elim
  | rlock m k ih =>
    rintro ph (⟨_, _, h⟩ | ⟨_, h⟩)
    · exact ih h
    · exact ih h
  | runlock m k ih =>
    rintro ph (⟨_, _, h⟩ | ⟨_, h⟩)
    · exact ih h
    · exact ih h
  | read l k ih =>
    rintro ph ⟨_, h1, h⟩
    show ((k d).eval d).2 = ((k d').eval d').2
    rw [← h1 d d' hE]
    exact ih d (h d)
  | write l f k ih => intro ph h; exact h.elim

omit [DecidableEq μ] in
/-- Once it has seen enough it does not look any more. -/
theorem Looker.const {m : μ} {E : σ → σ → Prop} {p : Prog μ κ σ Out} (d d' : σ) (h : Looker m E p .post) :
    (p.eval d).2 = (p.eval d').2 := by
  induction p with
  | ret r => rfl
  | lock m k ih => exact h.elim
  | acquire m k ih => exact h.elim
  | unlock m k ih => exact h.elim
  | rlock m k ih =>
    rcases h with ⟨_, h, _⟩ | ⟨_, h⟩
    · cases h
    · exact ih h
  | runlock m k ih =>
    rcases h with ⟨_, h, _⟩ | ⟨_, h⟩
    · cases h
    · exact ih h
  | read l k ih => cases h.1
  | write l f k ih => exact h.elim

/-- What is known about a writer. -/
def WAt (π : σ → ν) (seq : σ → Op → σ × Out) (st : Option Out) (d G : σ) (op : Op) (p : Prog μ κ σ Out) : WPhase → Prop
  | .pre | .ann => st = none ∧ ∀ d, p.eval d = seq d op
  | .pend => st = none ∧ p.eval d = seq G op ∧ π d = π G
  | .mid | .late => ∃ out, st = some out ∧ p.eval d = (G, out)
  | .done => ∃ out, st = some out ∧ p = .ret out

/-- What is known about a reader. -/
def LAt (E : σ → σ → Prop) (seq : σ → Op → σ × Out) (st : Option Out) (d : σ) (op : Op) (p : Prog μ κ σ Out) :
    Phase → Prop
  | .pre => st = none ∧ ∀ d, p.eval d = seq d op
  | .inR => ∃ out, st = some out ∧ ∀ d', E d' d → (p.eval d').2 = out
  | .post => ∃ out, st = some out ∧ ∀ d', (p.eval d').2 = out
  | _ => False

/-- What is known about a call. -/
def CommitAt (a b : μ) (π : σ → ν) (seq : σ → Op → σ × Out) (st : Option Out) (d G : σ) (k : Call μ κ σ Op Out) :
    Prop :=
  (∃ ph h, k.mine a = ph.mu ∧ k.mine b = h.mu ∧ Writer a b π k.prog ph h ∧ WAt π seq st d G k.op k.prog ph) ∨
  (∃ ph, k.mine a = ph.mu ∧ Looker a Eq k.prog ph ∧ LAt Eq seq st d k.op k.prog ph) ∨
  (∃ ph, k.mine b = ph.mu ∧ Looker b (fun d d' => π d = π d') k.prog ph ∧
    LAt (fun d d' => π d = π d') seq st d k.op k.prog ph)

/-- What is known about the shared state. -/
def CommitInv (a b : μ) (π : σ → ν) (d : σ) (mus : μ → Mu) (G : σ) : Prop :=
  ((mus a).wr ≠ .held → d = G) ∧ ((mus b).wr ≠ .held → π d = π G)

/-- One step of a reader. -/
theorem looker_tau {a b m : μ} {π : σ → ν} {E : σ → σ → Prop} (hrefl : ∀ d, E d d)
    (htrans : ∀ d d' d'', E d d' → E d' d'' → E d d'') {seq : σ → Op → σ × Out} {c : Cfg μ κ σ Op Out} {st : Option Out}
    {k k' : Call μ κ σ Op Out} {mus : μ → Mu} {d G : σ} {ph : Phase} (hmine : k.mine m = ph.mu)
    (hlook : Looker m E k.prog ph) (hat : LAt E seq st c.data k.op k.prog ph)
    (hfree : (c.mus m).wr = .free → E c.data G) (hg : CommitInv a b π c.data c.mus G)
    (hm : micro c k = some (k', mus, d)) :
    d = c.data ∧ CommitInv a b π d mus G ∧
      ((∃ ph, k'.mine m = ph.mu ∧ Looker m E k'.prog ph ∧ LAt E seq st d k'.op k'.prog ph) ∨
       (st = none ∧ (seq G k.op).1 = G ∧ (c.mus m).wr = .free ∧ ∃ ph, k'.mine m = ph.mu ∧ Looker m E k'.prog ph ∧
         LAt E seq (some (seq G k.op).2) d k'.op k'.prog ph)) := by
  have hwr : ∀ (m' : μ) (n : Nat) (x : μ), (upd c.mus m' ⟨n, (c.mus m').wr⟩ x).wr = (c.mus x).wr := by
    intro m' n x
    by_cases e : x = m'
    · subst e; simp only [upd_self]
    · simp only [upd_ne _ _ e]
  have hI : ∀ (m' : μ) (n : Nat), CommitInv a b π c.data (upd c.mus m' ⟨n, (c.mus m').wr⟩) G := by
    intro m' n
    unfold CommitInv
    rw [hwr, hwr]
    exact hg
  unfold micro at hm
  cases hp : k.prog with
  | ret r => simp only [hp, reduceCtorEq] at hm
  | lock m' p => rw [hp] at hlook; exact hlook.elim
  | acquire m' p => rw [hp] at hlook; exact hlook.elim
  | unlock m' p => rw [hp] at hlook; exact hlook.elim
  | write l f p => rw [hp] at hlook; exact hlook.elim
  | read l p =>
    rw [hp] at hlook
    obtain ⟨rfl, h1, h2⟩ := hlook
    simp only [hp, Option.some.injEq, Prod.mk.injEq] at hm
    obtain ⟨rfl, rfl, rfl⟩ := hm
    obtain ⟨out, ho, hev⟩ := hat
    refine ⟨rfl, hg, .inl ⟨.inR, hmine, h2 _, out, ho, fun d' hd => ?_⟩⟩
    have := hev d' hd
    rw [hp] at this
    show ((p c.data).eval d').2 = out
    rw [← h1 d' c.data hd]
    exact this
  | rlock m' p =>
    rw [hp] at hlook
    simp only [hp] at hm
    split at hm
    · next hf =>
      simp only [Option.some.injEq, Prod.mk.injEq] at hm
      obtain ⟨rfl, rfl, rfl⟩ := hm
      refine ⟨rfl, hI _ _, ?_⟩
      rcases hlook with ⟨rfl, rfl, h2⟩ | ⟨hne, h2⟩
      · obtain ⟨hst, hev⟩ := hat
        have hd := hfree hf
        have hG := hev G
        rw [hp] at hG
        refine .inr ⟨hst, ?_, hf, .inR, ?_, h2, _, rfl, fun d' hd' => ?_⟩
        · rw [← hG]; exact h2.eval
        · simp only [upd_self, hmine]; rfl
        · rw [← hG]; exact h2.same (htrans _ _ _ hd' hd)
      · refine .inl ⟨ph, by simp only [upd_ne _ _ (Ne.symm hne)]; exact hmine, h2, ?_⟩
        rw [hp] at hat
        cases ph <;> exact hat
    · cases hm
  | runlock m' p =>
    rw [hp] at hlook
    simp only [hp] at hm
    split at hm
    · simp only [Option.some.injEq, Prod.mk.injEq] at hm
      obtain ⟨rfl, rfl, rfl⟩ := hm
      refine ⟨rfl, hI _ _, ?_⟩
      rcases hlook with ⟨rfl, rfl, h2⟩ | ⟨hne, h2⟩
      · obtain ⟨out, ho, hev⟩ := hat
        refine .inl ⟨.post, ?_, h2, out, ho, fun d' => (h2.const _ c.data).trans ?_⟩
        · simp only [upd_self, hmine]; rfl
        · have := hev c.data (hrefl _)
          rw [hp] at this
          exact this
      · refine .inl ⟨ph, by simp only [upd_ne _ _ (Ne.symm hne)]; exact hmine, h2, ?_⟩
        rw [hp] at hat
        cases ph <;> exact hat
    · cases hm

omit [DecidableEq μ] in
/-- What others know while a writer that holds `a` changes the state. -/
theorem commit_others {a b : μ} {π : σ → ν} {seq : σ → Op → σ × Out} {c : Cfg μ κ σ Op Out} {st : Nat → Option Out} {G : σ}
    (ha : CountInv True (c.mus a) (mineOf a c)) (hb : CountInv True (c.mus b) (mineOf b c))
    (hA : ∀ t k, c.calls t = some k → CommitAt a b π seq (st t) c.data G k) {t : Nat} {d G' : σ}
    (hheld : (mineOf a c t).wr = .held) (hview : π d = π c.data ∨ (mineOf b c t).wr = .held) :
    ∀ t' q, t' ≠ t → c.calls t' = some q → CommitAt a b π seq (st t') d G' q := by
  intro t' q hne hq
  have hfree := (ha.wr_eq (by decide) hheld).2 t' hne
  have hzero := ha.excl hheld t'
  rw [mineOf_some hq] at hfree hzero
  rcases hA t' q hq with ⟨ph, h, h1, h2, h3, h4⟩ | ⟨ph, h1, h2, h3⟩ | ⟨ph, h1, h2, h3⟩
  · refine .inl ⟨ph, h, h1, h2, h3, ?_⟩
    rw [h1] at hfree
    cases ph with
    | pre => exact h4
    | ann => exact h4
    | done => exact h4
    | pend => cases hfree
    | mid => cases hfree
    | late => cases hfree
  · refine .inr (.inl ⟨ph, h1, h2, ?_⟩)
    rw [h1] at hzero
    cases ph with
    | pre => exact h3
    | ann => exact h3.elim
    | inW => exact h3.elim
    | inR => cases hzero
    | post => exact h3
  · refine .inr (.inr ⟨ph, h1, h2, ?_⟩)
    cases ph with
    | pre => exact h3
    | ann => exact h3.elim
    | inW => exact h3.elim
    | post => exact h3
    | inR =>
      rcases hview with hv | hv
      · obtain ⟨out, ho, hev⟩ := h3
        exact ⟨out, ho, fun d' hd => hev d' (hd.trans hv)⟩
      · have := hb.excl hv t'
        rw [mineOf_some hq, h1] at this
        cases this

/-- One step of a writer. -/
theorem writer_tau {a b : μ} (hab : a ≠ b) {π : σ → ν} {seq : σ → Op → σ × Out} {c : Cfg μ κ σ Op Out}
    {st : Nat → Option Out} {G : σ}
    (ha : CountInv True (c.mus a) (mineOf a c)) (hb : CountInv True (c.mus b) (mineOf b c))
    (hA : ∀ t k, c.calls t = some k → CommitAt a b π seq (st t) c.data G k) (hg : CommitInv a b π c.data c.mus G)
    {t : Nat} {k k' : Call μ κ σ Op Out} {mus : μ → Mu} {d : σ} {ph : WPhase} {h : Hold}
    (hk : c.calls t = some k) (hma : k.mine a = ph.mu) (hmb : k.mine b = h.mu) (hw : Writer a b π k.prog ph h)
    (hat : WAt π seq (st t) c.data G k.op k.prog ph) (hm : micro c k = some (k', mus, d)) :
    (CommitAt a b π seq (st t) d G k' ∧ CommitInv a b π d mus G ∧
      ∀ t' q, t' ≠ t → c.calls t' = some q → CommitAt a b π seq (st t') d G q) ∨
    (st t = none ∧ CommitAt a b π seq (some (seq G k.op).2) d (seq G k.op).1 k' ∧
      CommitInv a b π d mus (seq G k.op).1 ∧
      ∀ t' q, t' ≠ t → c.calls t' = some q → CommitAt a b π seq (st t') d (seq G k.op).1 q) := by
  have hba := Ne.symm hab
  have hmoa : (mineOf a c t).wr = ph.mu.wr := by rw [mineOf_some hk, hma]
  have hmob : (mineOf b c t).wr = h.mu.wr := by rw [mineOf_some hk, hmb]
  have hheld : ph.mu.wr = .held → (c.mus a).wr = .held := fun e =>
    (ha.wr_eq (by decide) (hmoa.trans e)).1
  have hheldb : h.mu.wr = .held → (c.mus b).wr = .held := fun e =>
    (hb.wr_eq (by decide) (hmob.trans e)).1
  -- steps that do not change the state and do not add the call
  have quiet : ∀ ph' h', d = c.data → k'.op = k.op → k'.mine a = WPhase.mu ph' → k'.mine b = Hold.mu h' →
      Writer a b π k'.prog ph' h' → WAt π seq (st t) c.data G k.op k'.prog ph' → CommitInv a b π c.data mus G →
      (CommitAt a b π seq (st t) d G k' ∧ CommitInv a b π d mus G ∧
        ∀ t' q, t' ≠ t → c.calls t' = some q → CommitAt a b π seq (st t') d G q) ∨
      (st t = none ∧ CommitAt a b π seq (some (seq G k.op).2) d (seq G k.op).1 k' ∧
        CommitInv a b π d mus (seq G k.op).1 ∧
        ∀ t' q, t' ≠ t → c.calls t' = some q → CommitAt a b π seq (st t') d (seq G k.op).1 q) := by
    intro ph' h' hd hop h1 h2 h3 h4 h5
    subst hd
    exact .inl ⟨.inl ⟨ph', h', h1, h2, h3, by rw [hop]; exact h4⟩, h5, fun t' q _ hq => hA t' q hq⟩
  unfold micro at hm
  cases hp : k.prog with
  | ret r => simp only [hp, reduceCtorEq] at hm
  | lock m p =>
    rw [hp] at hw
    simp only [hp] at hm
    split at hm
    · next hf =>
      simp only [Option.some.injEq, Prod.mk.injEq] at hm
      obtain ⟨rfl, rfl, rfl⟩ := hm
      rcases hw with ⟨rfl, rfl, rfl, hw⟩ | ⟨rfl, hph, rfl, hw⟩
      · refine quiet .ann (.rd 0) rfl rfl ?_ ?_ (.inl ⟨rfl, rfl, rfl, hw⟩) ⟨hat.1, fun d => ?_⟩ ⟨?_, ?_⟩
        · simp only [upd_self, hma]; rfl
        · simp only [upd_ne _ _ hba]; exact hmb
        · have := hat.2 d
          rw [hp] at this
          exact this
        · exact fun _ => hg.1 (by rw [hf]; decide)
        · simp only [upd_ne _ _ hba]; exact hg.2
      · refine quiet ph .ann rfl rfl ?_ ?_ (.inr ⟨rfl, hph, rfl, hw⟩) ?_ ⟨?_, ?_⟩
        · simp only [upd_ne _ _ hab]; exact hma
        · simp only [upd_self, hmb]; rfl
        · rw [hp] at hat
          rcases hph with rfl | rfl <;> exact hat
        · simp only [upd_ne _ _ hab]; exact hg.1
        · exact fun _ => hg.2 (by rw [hf]; decide)
    · cases hm
  | acquire m p =>
    rw [hp] at hw
    simp only [hp] at hm
    split at hm
    · simp only [Option.some.injEq, Prod.mk.injEq] at hm
      obtain ⟨rfl, rfl, rfl⟩ := hm
      rcases hw with ⟨rfl, rfl, rfl, hw⟩ | ⟨rfl, hph, rfl, hw⟩
      · have hd : c.data = G := hg.1 (by rw [(ha.wr_eq (by decide) hmoa).1]; decide)
        refine quiet .pend (.rd 0) rfl rfl ?_ ?_ hw ⟨hat.1, ?_, by rw [hd]⟩ ⟨?_, ?_⟩
        · simp only [upd_self, hma]; rfl
        · simp only [upd_ne _ _ hba]; exact hmb
        · have := hat.2 G
          rw [hp] at this
          rw [hd]
          exact this
        · intro hne; exact absurd (by simp only [upd_self]) hne
        · simp only [upd_ne _ _ hba]; exact hg.2
      · refine quiet ph .wr rfl rfl ?_ ?_ hw ?_ ⟨?_, ?_⟩
        · simp only [upd_ne _ _ hab]; exact hma
        · simp only [upd_self, hmb]; rfl
        · rw [hp] at hat
          rcases hph with rfl | rfl <;> exact hat
        · simp only [upd_ne _ _ hab]; exact hg.1
        · intro hne; exact absurd (by simp only [upd_self]) hne
    · cases hm
  | unlock m p =>
    rw [hp] at hw
    simp only [hp] at hm
    split at hm
    · simp only [Option.some.injEq, Prod.mk.injEq] at hm
      obtain ⟨rfl, rfl, rfl⟩ := hm
      rcases hw with ⟨rfl, hph, rfl, r, rfl⟩ | ⟨rfl, rfl, hw⟩
      · rw [hp] at hat
        rcases hph with rfl | rfl
        · obtain ⟨h0, hev, _⟩ := hat
          have hev' : (c.data, r) = seq G k.op := hev
          refine .inr ⟨h0, .inl ⟨.done, .rd 0, ?_, ?_, ⟨rfl, rfl⟩, r, ?_, rfl⟩, ⟨?_, ?_⟩,
            commit_others ha hb hA (t := t) hmoa (.inl rfl)⟩
          · simp only [upd_self, hma]; rfl
          · simp only [upd_ne _ _ hba]; exact hmb
          · rw [← hev']
          · exact fun _ => by rw [← hev']
          · exact fun _ => by rw [← hev']
        · obtain ⟨out, ho, hev⟩ := hat
          have hev' : (c.data, r) = (G, out) := hev
          simp only [Prod.mk.injEq] at hev'
          refine quiet .done (.rd 0) rfl rfl ?_ ?_ ⟨rfl, rfl⟩ ⟨r, by rw [ho, hev'.2], rfl⟩ ⟨?_, ?_⟩
          · simp only [upd_self, hma]; rfl
          · simp only [upd_ne _ _ hba]; exact hmb
          · exact fun _ => hev'.1
          · exact fun _ => by rw [hev'.1]
      · rw [hp] at hat
        rcases hw with ⟨rfl, hw⟩ | ⟨rfl | rfl, hw⟩
        · obtain ⟨out, ho, hev⟩ := hat
          have hd : c.data = G := by
            have := hw.eval_late (d := c.data)
            rw [show p.eval c.data = (G, out) from hev] at this
            exact this.symm
          refine quiet .late (.rd 0) rfl rfl ?_ ?_ hw ⟨out, ho, hev⟩ ⟨fun _ => hd, fun _ => by rw [hd]⟩
          · simp only [upd_ne _ _ hab]; exact hma
          · simp only [upd_self, hmb]; rfl
        · refine quiet .pend (.rd 0) rfl rfl ?_ ?_ hw hat ⟨?_, fun _ => hat.2.2⟩
          · simp only [upd_ne _ _ hab]; exact hma
          · simp only [upd_self, hmb]; rfl
          · simp only [upd_ne _ _ hab]; exact hg.1
        · obtain ⟨out, ho, hev⟩ := hat
          have hd : c.data = G := by
            have := hw.eval_late (d := c.data)
            rw [show p.eval c.data = (G, out) from hev] at this
            exact this.symm
          refine quiet .late (.rd 0) rfl rfl ?_ ?_ hw ⟨out, ho, hev⟩ ⟨fun _ => hd, fun _ => by rw [hd]⟩
          · simp only [upd_ne _ _ hab]; exact hma
          · simp only [upd_self, hmb]; rfl
    · cases hm
  | rlock m p =>
    rw [hp] at hw
    obtain ⟨rfl, hph, n, rfl, hw⟩ := hw
    simp only [hp] at hm
    split at hm
    · next hf =>
      simp only [Option.some.injEq, Prod.mk.injEq] at hm
      obtain ⟨rfl, rfl, rfl⟩ := hm
      refine quiet ph (.rd (n + 1)) rfl rfl ?_ ?_ hw ?_ ⟨?_, ?_⟩
      · simp only [upd_ne _ _ hab]; exact hma
      · simp only [upd_self, hmb]; rfl
      · rw [hp] at hat
        rcases hph with rfl | rfl <;> exact hat
      · simp only [upd_ne _ _ hab]; exact hg.1
      · simp only [upd_self]; exact hg.2
    · cases hm
  | runlock m p =>
    rw [hp] at hw
    obtain ⟨rfl, hph, n, rfl, hw⟩ := hw
    simp only [hp] at hm
    split at hm
    · next hf =>
      simp only [Option.some.injEq, Prod.mk.injEq] at hm
      obtain ⟨rfl, rfl, rfl⟩ := hm
      refine quiet ph (.rd n) rfl rfl ?_ ?_ hw ?_ ⟨?_, ?_⟩
      · simp only [upd_ne _ _ hab]; exact hma
      · simp only [upd_self, hmb]; rfl
      · rw [hp] at hat
        rcases hph with rfl | rfl <;> exact hat
      · simp only [upd_ne _ _ hab]; exact hg.1
      · simp only [upd_self]; exact hg.2
    · cases hm
  | read l p =>
    rw [hp] at hw
    simp only [hp, Option.some.injEq, Prod.mk.injEq] at hm
    obtain ⟨rfl, rfl, rfl⟩ := hm
    refine quiet ph h rfl rfl hma hmb (hw.2 _) ?_ hg
    rw [hp] at hat
    rcases hw.1 with rfl | rfl | rfl <;> exact hat
  | write l f p =>
    rw [hp] at hw
    simp only [hp, Option.some.injEq, Prod.mk.injEq] at hm
    obtain ⟨rfl, rfl, rfl⟩ := hm
    rw [hp] at hat
    have hnot : ∀ {P : Prop}, ph.mu.wr = .held → (c.mus a).wr ≠ .held → P := fun e hne => absurd (hheld e) hne
    rcases hw with ⟨rfl, hv, hw⟩ | ⟨rfl | rfl, rfl, hw⟩
    · obtain ⟨h0, hev, hpi⟩ := hat
      refine .inl ⟨.inl ⟨.pend, h, hma, hmb, hw _, h0, hev, (hv _).trans hpi⟩, ⟨hnot rfl, fun _ => (hv _).trans hpi⟩,
        commit_others ha hb hA (t := t) hmoa (.inl (hv _))⟩
    · obtain ⟨h0, hev, hpi⟩ := hat
      have hev' : (p c.data).eval (f c.data) = seq G k.op := hev
      refine .inr ⟨h0, .inl ⟨.mid, .wr, hma, hmb, hw _, _, rfl, hev'⟩, ⟨hnot rfl, fun hne => absurd (hheldb rfl) hne⟩,
        commit_others ha hb hA (t := t) hmoa (.inr hmob)⟩
    · refine .inl ⟨.inl ⟨.mid, .wr, hma, hmb, hw _, hat⟩, ⟨hnot rfl, fun hne => absurd (hheldb rfl) hne⟩,
        commit_others ha hb hA (t := t) hmoa (.inr hmob)⟩

/-- Writers, readers under `a` and readers under `b` are linearizable together. -/
theorem commit_linearizable {a b : μ} (hab : a ≠ b) {π : σ → ν} {prog : Op → Prog μ κ σ Out} {seq : σ → Op → σ × Out}
    {allowed : Op → Prop} {prot : κ → Prop} {flat : Prop}
    (hdisc : ∀ m op, allowed op → Disc m prot True flat (prog op) (.rd 0))
    (hkind : ∀ op, allowed op → Writer a b π (prog op) .pre (.rd 0) ∨ Looker a Eq (prog op) .pre ∨
      Looker b (fun d d' => π d = π d') (prog op) .pre)
    (hseq : ∀ op, allowed op → ∀ d, (prog op).eval d = seq d op) {s : σ} {c : Cfg μ κ σ Op Out}
    (hr : Reach prog allowed s c) : Linearizable seq s c.hist := by
  refine frame_linearizable (I := CommitInv a b π) (A := CommitAt a b π seq) ⟨fun _ => rfl, fun _ => rfl⟩ ?_ ?_ ?_ hr
  · intro n op d G hop
    rcases hkind op hop with h | h | h
    · exact .inl ⟨.pre, .rd 0, rfl, rfl, h, rfl, hseq op hop⟩
    · exact .inr (.inl ⟨.pre, rfl, h, rfl, hseq op hop⟩)
    · exact .inr (.inr ⟨.pre, rfl, h, rfl, hseq op hop⟩)
  · rintro st d G k r hp (⟨ph, h, _, _, h3, h4⟩ | ⟨ph, _, h3, h4⟩ | ⟨ph, _, h3, h4⟩) <;> rw [hp] at h3 h4
    · obtain ⟨rfl, _⟩ := h3
      obtain ⟨out, ho, e⟩ := h4
      cases e; exact ho
    · cases h3
      obtain ⟨out, ho, e⟩ := h4
      cases e d; exact ho
    · cases h3
      obtain ⟨out, ho, e⟩ := h4
      cases e d; exact ho
  · intro c t k k' mus d G st hrc hk hm hg hA
    have ha := (lockInv (fun op => hdisc a op) hrc).count
    have hb := (lockInv (fun op => hdisc b op) hrc).count
    rcases hA t k hk with ⟨ph, h, h1, h2, h3, h4⟩ | ⟨ph, h1, h2, h3⟩ | ⟨ph, h1, h2, h3⟩
    · exact writer_tau hab ha hb hA hg hk h1 h2 h3 h4 hm
    · obtain ⟨rfl, h5, h6⟩ := looker_tau (fun _ => rfl) (fun _ _ _ e e' => e.trans e') h1 h2 h3
        (fun hf => hg.1 (by rw [hf]; decide)) hg hm
      rcases h6 with h6 | ⟨h0, h7, _, h6⟩
      · exact .inl ⟨.inr (.inl h6), h5, fun t' q _ hq => hA t' q hq⟩
      · rw [h7]
        exact .inr ⟨h0, .inr (.inl h6), h5, fun t' q _ hq => hA t' q hq⟩
    · obtain ⟨rfl, h5, h6⟩ := looker_tau (E := fun d d' => π d = π d') (fun _ => rfl) (fun _ _ _ e e' => e.trans e')
        h1 h2 h3 (fun hf => hg.2 (by rw [hf]; decide)) hg hm
      rcases h6 with h6 | ⟨h0, h7, _, h6⟩
      · exact .inl ⟨.inr (.inr h6), h5, fun t' q _ hq => hA t' q hq⟩
      · rw [h7]
        exact .inr ⟨h0, .inr (.inr h6), h5, fun t' q _ hq => hA t' q hq⟩

end Netscrape.Conc
