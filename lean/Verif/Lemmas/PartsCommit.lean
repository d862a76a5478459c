import Verif.Lemmas.Commit
import Verif.Lemmas.PartsFrame

/-!
# Linearizability with two mutexes, for calls that are made up of parts

As `Lemmas/Commit.lean`, but methods that hold `a` exclusively may change the view in several critical sections of
`b`: one for each of their parts.
-/

namespace Netscrape.Conc
open Netscrape.Spec

variable {μ κ σ ν ρ Op Out : Type} [DecidableEq μ]

/-- `p`, run from phase `ph` on and holding `b` as `h` says, changes the view in at most one critical section of
`b`. It is run holding `a` and does not touch it. -/
def Body (b : μ) (π : σ → ν) : Prog μ κ σ ρ → WPhase → Hold → Prop
  | .ret _, ph, h => (ph = .pend ∨ ph = .late) ∧ h = .rd 0
  | .lock m k, ph, h => m = b ∧ (ph = .pend ∨ ph = .late) ∧ h = .rd 0 ∧ Body b π k ph .wr
  | .acquire m k, ph, h => m = b ∧ (ph = .pend ∨ ph = .late) ∧ h = .ann ∧ Body b π k ph .wr
  | .unlock m k, ph, h => m = b ∧ h = .wr ∧ ((ph = .mid ∧ Body b π k .late (.rd 0)) ∨
      ((ph = .pend ∨ ph = .late) ∧ Body b π k ph (.rd 0)))
  | .rlock m k, ph, h => m = b ∧ (ph = .pend ∨ ph = .late) ∧ ∃ n, h = .rd n ∧ Body b π k ph (.rd (n + 1))
  | .runlock m k, ph, h => m = b ∧ (ph = .pend ∨ ph = .late) ∧ ∃ n, h = .rd (n + 1) ∧ Body b π k ph (.rd n)
  | .read _ k, ph, h => (ph = .pend ∨ ph = .mid ∨ ph = .late) ∧ ∀ s, Body b π (k s) ph h
  | .write _ f k, ph, h =>
    (ph = .pend ∧ (∀ s, π (f s) = π s) ∧ ∀ s, Body b π (k s) .pend h) ∨
    ((ph = .pend ∨ ph = .mid) ∧ h = .wr ∧ ∀ s, Body b π (k s) .mid .wr)

omit [DecidableEq μ] in
/-- After the section that changes the view nothing is written. -/
theorem Body.eval_late {b : μ} {π : σ → ν} {p : Prog μ κ σ ρ} {d : σ} :
    ∀ {h : Hold}, Body b π p .late h → (p.eval d).1 = d := by
  induction p with
  | ret r => intro h _; rfl
  | lock m k ih => rintro h ⟨_, _, _, h2⟩; exact ih h2
  | acquire m k ih => rintro h ⟨_, _, _, h2⟩; exact ih h2
  | unlock m k ih =>
    rintro h ⟨_, _, ⟨h1, _⟩ | ⟨_, h2⟩⟩
    · cases h1
    · exact ih h2
  | rlock m k ih => rintro h ⟨_, _, n, _, h2⟩; exact ih h2
  | runlock m k ih => rintro h ⟨_, _, n, _, h2⟩; exact ih h2
  | read l k ih => rintro h ⟨_, h2⟩; exact ih d (h2 d)
  | write l f k ih =>
    rintro h (⟨h1, _⟩ | ⟨h1 | h1, _⟩)
    · cases h1
    · cases h1
    · cases h1

/-- What follows a part that returned `x`: the other parts, or the end. -/
def Then (a : μ) (S : Split Op Out) (op : Op) (todo : List Out → Prog μ κ σ Out → Prop) (outs : List Out) (x : Out)
    (p : Prog μ κ σ Out) : Prop :=
  (S.goesOn x ∧ todo (outs ++ [x]) p) ∨ ∃ r, p = .unlock a (.ret r) ∧ S.result op (outs ++ [x]) r

/-- `p` executes the parts of `op` in the list, after parts that returned `outs`, and releases `a`. -/
def Todo (a b : μ) (π : σ → ν) (S : Split Op Out) (seq : σ → Op → σ × Out) (op : Op) :
    List Op → List Out → Prog μ κ σ Out → Prop
  | [], outs, p => ∃ r, p = .unlock a (.ret r) ∧ S.result op outs r
  | o :: rem, outs, p => ∃ (ρ : Type) (q : Prog μ κ σ ρ) (g : ρ → Out) (cont : ρ → Prog μ κ σ Out),
      p = q.bind cont ∧ Body b π q .pend (.rd 0) ∧ (∀ r, q ≠ .ret r) ∧
      (∀ d, seq d o = ((q.eval d).1, g (q.eval d).2)) ∧
      ∀ r, Then a S op (Todo a b π S seq op rem) outs (g r) (cont r)

/-- What is known about the part `o` that is being executed, of which `q` is left. -/
def PartAt (π : σ → ν) (seq : σ → Op → σ × Out) (done outs : List (Op × Out)) (d G : σ) (o : Op) (q : Prog μ κ σ ρ)
    (g : ρ → Out) : WPhase → Prop
  | .pend => outs = done ∧ seq G o = ((q.eval d).1, g (q.eval d).2) ∧ π d = π G
  | .mid | .late => outs = done ++ [(o, g (q.eval d).2)] ∧ (q.eval d).1 = G
  | _ => False

/-- What is known about a writer. -/
inductive PWAt (a b : μ) (π : σ → ν) (S : Split Op Out) (seq : σ → Op → σ × Out) (outs : List (Op × Out)) (d G : σ)
    (k : Call μ κ σ Op Out) : Prop where
  | pre (p : Prog μ κ σ Out) : k.prog = .lock a p → k.mine a = .init → k.mine b = .init → outs = [] →
      Todo a b π S seq k.op (S.parts k.op) [] p → PWAt a b π S seq outs d G k
  | ann (p : Prog μ κ σ Out) : k.prog = .acquire a p → k.mine a = ⟨0, .announced⟩ → k.mine b = .init → outs = [] →
      Todo a b π S seq k.op (S.parts k.op) [] p → PWAt a b π S seq outs d G k
  | run (done : List (Op × Out)) (o : Op) (rem : List Op) (ρ : Type) (q : Prog μ κ σ ρ) (g : ρ → Out)
      (cont : ρ → Prog μ κ σ Out) (ph : WPhase) (h : Hold) : k.prog = q.bind cont → k.mine a = ⟨0, .held⟩ →
      k.mine b = h.mu → Body b π q ph h → (∀ r, q ≠ .ret r) →
      (done.map (fun x => x.1)) ++ o :: rem = S.parts k.op → (∀ x ∈ done, S.goesOn x.2) →
      (∀ r, Then a S k.op (Todo a b π S seq k.op rem) (done.map fun x => x.2) (g r) (cont r)) →
      PartAt π seq done outs d G o q g ph → PWAt a b π S seq outs d G k
  | fin (r : Out) : k.prog = .unlock a (.ret r) → k.mine a = ⟨0, .held⟩ → k.mine b = .init → d = G →
      S.result k.op (outs.map fun x => x.2) r → PWAt a b π S seq outs d G k
  | done (r : Out) : k.prog = .ret r → k.mine a = .init → k.mine b = .init →
      S.result k.op (outs.map fun x => x.2) r → PWAt a b π S seq outs d G k

omit [DecidableEq μ] in
/-- Between parts. -/
theorem settle {a b : μ} {π : σ → ν} {S : Split Op Out} {seq : σ → Op → σ × Out} {outs : List (Op × Out)} {d : σ}
    {k : Call μ κ σ Op Out} {rem : List Op} (ha : k.mine a = ⟨0, .held⟩) (hb : k.mine b = .init)
    (hparts : outs.map (fun x => x.1) ++ rem = S.parts k.op) (hgo : ∀ x ∈ outs, S.goesOn x.2)
    (ht : Todo a b π S seq k.op rem (outs.map fun x => x.2) k.prog) : PWAt a b π S seq outs d d k := by
  cases rem with
  | nil =>
    obtain ⟨r, h1, h2⟩ := ht
    exact .fin r h1 ha hb rfl h2
  | cons o rem =>
    obtain ⟨ρ, q, g, cont, h1, h2, h3, h4, h5⟩ := ht
    exact .run outs o rem ρ q g cont .pend (.rd 0) h1 ha hb h2 h3 hparts hgo h5 ⟨rfl, h4 d, rfl⟩

omit [DecidableEq μ] in
/-- A part has just ended. -/
theorem PWAt.next {a b : μ} {π : σ → ν} {S : Split Op Out} {seq : σ → Op → σ × Out} {done : List (Op × Out)} {d : σ}
    {k : Call μ κ σ Op Out} {o : Op} {rem : List Op} {x : Out} (ha : k.mine a = ⟨0, .held⟩) (hb : k.mine b = .init)
    (hparts : done.map (fun x => x.1) ++ o :: rem = S.parts k.op) (hgo : ∀ x ∈ done, S.goesOn x.2)
    (hn : Then a S k.op (Todo a b π S seq k.op rem) (done.map fun x => x.2) x k.prog) :
    PWAt a b π S seq (done ++ [(o, x)]) d d k := by
  rcases hn with ⟨h1, h2⟩ | ⟨r, h1, h2⟩
  · refine settle ha hb (rem := rem) ?_ ?_ ?_
    · rw [← hparts]; simp
    · intro y hy
      rcases List.mem_append.mp hy with hy | hy
      · exact hgo y hy
      · rw [List.mem_singleton.mp hy]; exact h1
    · rw [List.map_append]; exact h2
  · exact .fin r h1 ha hb rfl (by rw [List.map_append]; exact h2)

/-- What is known about a call. -/
def PartsAt (a b : μ) (π : σ → ν) (S : Split Op Out) (seq : σ → Op → σ × Out) (outs : List (Op × Out)) (d G : σ)
    (k : Call μ κ σ Op Out) : Prop :=
  PWAt a b π S seq outs d G k ∨
  (S.parts k.op = [k.op] ∧ (∀ r, S.result k.op [r] r) ∧ (k.mine a).wr = .free ∧
    ∃ st : Option Out, outs = st.toList.map (fun x => (k.op, x)) ∧
      ((∃ ph, k.mine a = ph.mu ∧ Looker a Eq k.prog ph ∧ LAt Eq seq st d k.op k.prog ph) ∨
       (¬ S.main k.op ∧ ∃ ph, k.mine b = ph.mu ∧ Looker b (fun d d' => π d = π d') k.prog ph ∧
         LAt (fun d d' => π d = π d') seq st d k.op k.prog ph)))

/-- What follows from a step of goroutine `t`. -/
def Stepped (a b : μ) (π : σ → ν) (S : Split Op Out) (seq : σ → Op → σ × Out) (c : Cfg μ κ σ Op Out)
    (st : Nat → List (Op × Out)) (t : Nat) (k k' : Call μ κ σ Op Out) (mus : μ → Mu) (d G : σ) : Prop :=
  (PartsAt a b π S seq (st t) d G k' ∧ CommitInv a b π d mus G ∧
    ∀ t' q, t' ≠ t → c.calls t' = some q → PartsAt a b π S seq (st t') d G q) ∨
  (∃ o, (st t).map (fun x => x.1) ++ [o] <+: S.parts k.op ∧ (∀ x ∈ st t, S.goesOn x.2) ∧
    (st t = [] ∨ (k.mine a).wr = .held) ∧
    (S.main o → ∀ t' q, t' ≠ t → c.calls t' = some q → ¬ (q.mine a).wr = .held) ∧
    PartsAt a b π S seq (st t ++ [(o, (seq G o).2)]) d (seq G o).1 k' ∧ CommitInv a b π d mus (seq G o).1 ∧
    ∀ t' q, t' ≠ t → c.calls t' = some q → PartsAt a b π S seq (st t') d (seq G o).1 q)

omit [DecidableEq μ] in
/-- What others know while a writer that holds `a` changes the state. -/
theorem parts_others {a b : μ} {π : σ → ν} {S : Split Op Out} {seq : σ → Op → σ × Out} {c : Cfg μ κ σ Op Out}
    {st : Nat → List (Op × Out)} {G : σ}
    (ha : CountInv True (c.mus a) (mineOf a c)) (hb : CountInv True (c.mus b) (mineOf b c))
    (hA : ∀ t k, c.calls t = some k → PartsAt a b π S seq (st t) c.data G k) {t : Nat} {d G' : σ}
    (hheld : (mineOf a c t).wr = .held) (hview : π d = π c.data ∨ (mineOf b c t).wr = .held) :
    ∀ t' q, t' ≠ t → c.calls t' = some q → PartsAt a b π S seq (st t') d G' q := by
  intro t' q hne hq
  have hfree := (ha.wr_eq (by decide) hheld).2 t' hne
  have hzero := ha.excl hheld t'
  rw [mineOf_some hq] at hfree hzero
  rcases hA t' q hq with hw | ⟨h1, h2, h3, s, h4, h5⟩
  · refine .inl ?_
    cases hw with
    | pre p h1 h2 h3 h4 h5 => exact .pre p h1 h2 h3 h4 h5
    | ann p h1 h2 h3 h4 h5 => exact .ann p h1 h2 h3 h4 h5
    | run done o rem ρ q g cont ph h h1 h2 => rw [h2] at hfree; cases hfree
    | fin r h1 h2 => rw [h2] at hfree; cases hfree
    | done r h1 h2 h3 h4 => exact .done r h1 h2 h3 h4
  · refine .inr ⟨h1, h2, h3, s, h4, ?_⟩
    rcases h5 with ⟨ph, h5, h6, h7⟩ | ⟨hm, ph, h5, h6, h7⟩
    · refine .inl ⟨ph, h5, h6, ?_⟩
      rw [h5] at hzero
      cases ph with
      | pre => exact h7
      | ann => exact h7.elim
      | inW => exact h7.elim
      | inR => cases hzero
      | post => exact h7
    · refine .inr ⟨hm, ph, h5, h6, ?_⟩
      cases ph with
      | pre => exact h7
      | ann => exact h7.elim
      | inW => exact h7.elim
      | post => exact h7
      | inR =>
        rcases hview with hv | hv
        · obtain ⟨out, ho, hev⟩ := h7
          exact ⟨out, ho, fun d' hd => hev d' (hd.trans hv)⟩
        · have := hb.excl hv t'
          rw [mineOf_some hq, h5] at this
          cases this

/-- One step of a part. -/
theorem part_tau {a b : μ} (hab : a ≠ b) {π : σ → ν} {S : Split Op Out} {seq : σ → Op → σ × Out}
    {c : Cfg μ κ σ Op Out} {st : Nat → List (Op × Out)} {G : σ}
    (ha : CountInv True (c.mus a) (mineOf a c)) (hb : CountInv True (c.mus b) (mineOf b c))
    (hA : ∀ t k, c.calls t = some k → PartsAt a b π S seq (st t) c.data G k) (hg : CommitInv a b π c.data c.mus G)
    {t : Nat} {k k' : Call μ κ σ Op Out} {mus : μ → Mu} {d : σ} (hk : c.calls t = some k)
    {done : List (Op × Out)} {o : Op} {rem : List Op} {q : Prog μ κ σ ρ} {g : ρ → Out} {cont : ρ → Prog μ κ σ Out}
    {ph : WPhase} {h : Hold} (hp : k.prog = q.bind cont) (hma : k.mine a = ⟨0, .held⟩) (hmb : k.mine b = h.mu)
    (hbody : Body b π q ph h) (hnr : ∀ r, q ≠ .ret r) (hparts : done.map (fun x => x.1) ++ o :: rem = S.parts k.op)
    (hgo : ∀ x ∈ done, S.goesOn x.2)
    (hnext : ∀ r, Then a S k.op (Todo a b π S seq k.op rem) (done.map fun x => x.2) (g r) (cont r))
    (hat : PartAt π seq done (st t) c.data G o q g ph) (hm : micro c k = some (k', mus, d)) :
    Stepped a b π S seq c st t k k' mus d G := by
  have hmoa : (mineOf a c t).wr = .held := by rw [mineOf_some hk, hma]
  have hmob : (mineOf b c t).wr = h.mu.wr := by rw [mineOf_some hk, hmb]
  have hheld : (c.mus a).wr = .held := (ha.wr_eq (by decide) hmoa).1
  have hheldb : h.mu.wr = .held → (c.mus b).wr = .held := fun e => (hb.wr_eq (by decide) (hmob.trans e)).1
  have hown : S.main o → ∀ t' q, t' ≠ t → c.calls t' = some q → ¬ (q.mine a).wr = .held := by
    intro _ t' q hne hq hh
    have := (ha.wr_eq (by decide) hmoa).2 t' hne
    rw [mineOf_some hq, hh] at this
    cases this
  have hprefix : done.map (fun x => x.1) ++ [o] <+: S.parts k.op := ⟨rem, by rw [← hparts]; simp⟩
  have mkRun : ∀ {q' : Prog μ κ σ ρ} {ph' h' outs G'}, k'.prog = q'.bind cont → k'.op = k.op → k'.mine a = ⟨0, .held⟩ →
      k'.mine b = Hold.mu h' → Body b π q' ph' h' → (∀ r, q' ≠ .ret r) → PartAt π seq done outs d G' o q' g ph' →
      PWAt a b π S seq outs d G' k' := by
    intro q' ph' h' outs G' e1 e2 e3 e4 e5 e6 e7
    exact .run done o rem ρ q' g cont ph' h' e1 e3 e4 e5 e6 (by rw [e2]; exact hparts) hgo (by rw [e2]; exact hnext) e7
  -- steps that do not change the view and leave the part not yet added
  have stay : ∀ {q' : Prog μ κ σ ρ} {h'}, ph = .pend → k'.prog = q'.bind cont → k'.op = k.op →
      k'.mine a = ⟨0, .held⟩ → k'.mine b = Hold.mu h' → Body b π q' .pend h' → π d = π c.data →
      seq G o = ((q'.eval d).1, g (q'.eval d).2) → (mus a).wr = .held →
      Stepped a b π S seq c st t k k' mus d G := by
    intro q' h' hph e1 e2 e3 e4 e5 e6 e7 e8
    subst hph
    obtain ⟨ho, _, hv⟩ := hat
    have oth : ∀ G', ∀ t' q, t' ≠ t → c.calls t' = some q → PartsAt a b π S seq (st t') d G' q :=
      fun G' => parts_others ha hb hA (t := t) hmoa (.inl e6)
    by_cases hret : ∃ r, q' = .ret r
    · obtain ⟨r, rfl⟩ := hret
      obtain ⟨_, rfl⟩ := e5
      have e7' : seq G o = (d, g r) := e7
      refine .inr ⟨o, by rw [ho]; exact hprefix, by rw [ho]; exact hgo, .inr (by rw [hma]), hown, ?_, ?_, oth _⟩
      · rw [e7', ho]
        exact .inl (PWAt.next e3 e4 (by rw [e2]; exact hparts) hgo (by rw [e1, e2]; exact hnext r))
      · rw [e7']; exact ⟨fun _ => rfl, fun _ => rfl⟩
    · exact .inl ⟨.inl (mkRun e1 e2 e3 e4 e5 (fun r hr => hret ⟨r, hr⟩) ⟨ho, e7, e6.trans hv⟩),
        ⟨fun hne => absurd e8 hne, fun _ => e6.trans hv⟩, oth _⟩
  -- steps after the part has been added
  have after : ∀ {q' : Prog μ κ σ ρ} {h'}, k'.prog = q'.bind cont → k'.op = k.op →
      k'.mine a = ⟨0, .held⟩ → k'.mine b = Hold.mu h' → Body b π q' .late h' → d = c.data → c.data = G →
      st t = done ++ [(o, g (q'.eval c.data).2)] →
      Stepped a b π S seq c st t k k' mus d G := by
    intro q' h' e1 e2 e3 e4 e5 e6 e7 e8
    subst e6
    subst e7
    refine .inl ⟨.inl ?_, ⟨fun _ => rfl, fun _ => rfl⟩, fun t' q _ hq => hA t' q hq⟩
    by_cases hret : ∃ r, q' = .ret r
    · obtain ⟨r, rfl⟩ := hret
      obtain ⟨_, rfl⟩ := e5
      rw [e8]
      exact PWAt.next e3 e4 (by rw [e2]; exact hparts) hgo (by rw [e1, e2]; exact hnext r)
    · exact mkRun e1 e2 e3 e4 e5 (fun r hr => hret ⟨r, hr⟩) ⟨e8, e5.eval_late⟩
  unfold micro at hm
  cases hq : q with
  | ret r => exact absurd hq (hnr r)
  | lock m p =>
    rw [hq] at hbody hat hp
    obtain ⟨rfl, hph, rfl, hbody⟩ := hbody
    simp only [hp, Prog.bind] at hm
    split at hm
    · simp only [Option.some.injEq, Prod.mk.injEq] at hm
      obtain ⟨rfl, rfl, rfl⟩ := hm
      have e3 : upd k.mine m ⟨(k.mine m).readers, .announced⟩ a = ⟨0, .held⟩ := by rw [upd_ne _ _ hab]; exact hma
      have e4 : upd k.mine m ⟨(k.mine m).readers, .announced⟩ m = Hold.mu .ann := by rw [upd_self, hmb]; rfl
      rcases hph with rfl | rfl
      · exact stay (q' := .acquire m p) rfl rfl rfl e3 e4 ⟨rfl, .inl rfl, rfl, hbody⟩ rfl hat.2.1
          (by rw [upd_ne _ _ hab]; exact hheld)
      · exact after (q' := .acquire m p) rfl rfl e3 e4 ⟨rfl, .inr rfl, rfl, hbody⟩ rfl
          ((hbody.eval_late (d := c.data)).symm.trans hat.2) hat.1
    · cases hm
  | acquire m p =>
    rw [hq] at hbody hat hp
    obtain ⟨rfl, hph, rfl, hbody⟩ := hbody
    simp only [hp, Prog.bind] at hm
    split at hm
    · simp only [Option.some.injEq, Prod.mk.injEq] at hm
      obtain ⟨rfl, rfl, rfl⟩ := hm
      have e3 : upd k.mine m ⟨(k.mine m).readers, .held⟩ a = ⟨0, .held⟩ := by rw [upd_ne _ _ hab]; exact hma
      have e4 : upd k.mine m ⟨(k.mine m).readers, .held⟩ m = Hold.mu .wr := by rw [upd_self, hmb]; rfl
      rcases hph with rfl | rfl
      · exact stay rfl rfl rfl e3 e4 hbody rfl hat.2.1 (by rw [upd_ne _ _ hab]; exact hheld)
      · exact after rfl rfl e3 e4 hbody rfl ((hbody.eval_late (d := c.data)).symm.trans hat.2) hat.1
    · cases hm
  | unlock m p =>
    rw [hq] at hbody hat hp
    obtain ⟨rfl, rfl, hbody⟩ := hbody
    simp only [hp, Prog.bind] at hm
    split at hm
    · simp only [Option.some.injEq, Prod.mk.injEq] at hm
      obtain ⟨rfl, rfl, rfl⟩ := hm
      have e3 : upd k.mine m ⟨(k.mine m).readers, .free⟩ a = ⟨0, .held⟩ := by rw [upd_ne _ _ hab]; exact hma
      have e4 : upd k.mine m ⟨(k.mine m).readers, .free⟩ m = Hold.mu (.rd 0) := by rw [upd_self, hmb]; rfl
      rcases hbody with ⟨rfl, hbody⟩ | ⟨rfl | rfl, hbody⟩
      · exact after rfl rfl e3 e4 hbody rfl ((hbody.eval_late (d := c.data)).symm.trans hat.2) hat.1
      · exact stay rfl rfl rfl e3 e4 hbody rfl hat.2.1 (by rw [upd_ne _ _ hab]; exact hheld)
      · exact after rfl rfl e3 e4 hbody rfl ((hbody.eval_late (d := c.data)).symm.trans hat.2) hat.1
    · cases hm
  | rlock m p =>
    rw [hq] at hbody hat hp
    obtain ⟨rfl, hph, n, rfl, hbody⟩ := hbody
    simp only [hp, Prog.bind] at hm
    split at hm
    · simp only [Option.some.injEq, Prod.mk.injEq] at hm
      obtain ⟨rfl, rfl, rfl⟩ := hm
      have e3 : upd k.mine m ⟨(k.mine m).readers + 1, (k.mine m).wr⟩ a = ⟨0, .held⟩ := by rw [upd_ne _ _ hab]; exact hma
      have e4 : upd k.mine m ⟨(k.mine m).readers + 1, (k.mine m).wr⟩ m = Hold.mu (.rd (n + 1)) := by
        rw [upd_self, hmb]; rfl
      rcases hph with rfl | rfl
      · exact stay rfl rfl rfl e3 e4 hbody rfl hat.2.1 (by rw [upd_ne _ _ hab]; exact hheld)
      · exact after rfl rfl e3 e4 hbody rfl ((hbody.eval_late (d := c.data)).symm.trans hat.2) hat.1
    · cases hm
  | runlock m p =>
    rw [hq] at hbody hat hp
    obtain ⟨rfl, hph, n, rfl, hbody⟩ := hbody
    simp only [hp, Prog.bind] at hm
    split at hm
    · simp only [Option.some.injEq, Prod.mk.injEq] at hm
      obtain ⟨rfl, rfl, rfl⟩ := hm
      have e3 : upd k.mine m ⟨(k.mine m).readers - 1, (k.mine m).wr⟩ a = ⟨0, .held⟩ := by rw [upd_ne _ _ hab]; exact hma
      have e4 : upd k.mine m ⟨(k.mine m).readers - 1, (k.mine m).wr⟩ m = Hold.mu (.rd n) := by
        rw [upd_self, hmb]; rfl
      rcases hph with rfl | rfl
      · exact stay rfl rfl rfl e3 e4 hbody rfl hat.2.1 (by rw [upd_ne _ _ hab]; exact hheld)
      · exact after rfl rfl e3 e4 hbody rfl ((hbody.eval_late (d := c.data)).symm.trans hat.2) hat.1
    · cases hm
  | read l p =>
    rw [hq] at hbody hat hp
    simp only [hp, Prog.bind, Option.some.injEq, Prod.mk.injEq] at hm
    obtain ⟨rfl, rfl, rfl⟩ := hm
    rcases hbody with ⟨rfl | rfl | rfl, hbody⟩
    · exact stay rfl rfl rfl hma hmb (hbody _) rfl hat.2.1 hheld
    · refine .inl ⟨.inl (mkRun rfl rfl hma hmb (hbody _) ?_ hat), hg, fun t' q _ hq => hA t' q hq⟩
      intro r hr
      have := hbody c.data
      rw [hr] at this
      rcases this.1 with e | e <;> cases e
    · exact after rfl rfl hma hmb (hbody _) rfl (((hbody _).eval_late (d := c.data)).symm.trans hat.2) hat.1
  | write l f p =>
    rw [hq] at hbody hat hp
    simp only [hp, Prog.bind, Option.some.injEq, Prod.mk.injEq] at hm
    obtain ⟨rfl, rfl, rfl⟩ := hm
    rcases hbody with ⟨rfl, hv, hbody⟩ | ⟨hph, rfl, hbody⟩
    · exact stay rfl rfl rfl hma hmb (hbody _) (hv _) hat.2.1 hheld
    · have hnr' : ∀ r, p c.data ≠ .ret r := by
        intro r hr
        have := hbody c.data
        rw [hr] at this
        rcases this.1 with e | e <;> cases e
      rcases hph with rfl | rfl
      · obtain ⟨ho, hev, hpi⟩ := hat
        have hev' : seq G o = (((p c.data).eval (f c.data)).1, g ((p c.data).eval (f c.data)).2) := hev
        refine .inr ⟨o, by rw [ho]; exact hprefix, by rw [ho]; exact hgo, .inr (by rw [hma]), hown, .inl ?_, ?_,
          parts_others ha hb hA (t := t) hmoa (.inr hmob)⟩
        · exact mkRun rfl rfl hma hmb (hbody _) hnr' (by rw [ho, hev']; exact ⟨rfl, rfl⟩)
        · exact ⟨fun hne => absurd hheld hne, fun hne => absurd (hheldb rfl) hne⟩
      · refine .inl ⟨.inl (mkRun rfl rfl hma hmb (hbody _) hnr' hat), ?_, parts_others ha hb hA (t := t) hmoa (.inr hmob)⟩
        exact ⟨fun hne => absurd hheld hne, fun hne => absurd (hheldb rfl) hne⟩

/-- A micro-step does not change which call it is. -/
theorem micro_op {c : Cfg μ κ σ Op Out} {k k' : Call μ κ σ Op Out} {mus : μ → Mu} {d : σ}
    (hm : micro c k = some (k', mus, d)) : k'.op = k.op := by
  unfold micro at hm
  cases hp : k.prog <;> simp only [hp] at hm
  case ret => cases hm
  case read => cases hm; rfl
  case write => cases hm; rfl
  all_goals
    split at hm
    · cases hm; rfl
    · cases hm

/-- A reader does not announce itself. -/
theorem looker_wr {m : μ} {E : σ → σ → Prop} {c : Cfg μ κ σ Op Out} {k k' : Call μ κ σ Op Out} {mus : μ → Mu} {d : σ}
    {ph : Phase} (h : Looker m E k.prog ph) (hm : micro c k = some (k', mus, d)) (x : μ) :
    (k'.mine x).wr = (k.mine x).wr := by
  have hu : ∀ (m' : μ) (n : Nat), (upd k.mine m' ⟨n, (k.mine m').wr⟩ x).wr = (k.mine x).wr := by
    intro m' n
    by_cases e : x = m'
    · subst e; simp only [upd_self]
    · simp only [upd_ne _ _ e]
  unfold micro at hm
  cases hp : k.prog with
  | ret r => simp only [hp, reduceCtorEq] at hm
  | lock m' p => rw [hp] at h; exact h.elim
  | acquire m' p => rw [hp] at h; exact h.elim
  | unlock m' p => rw [hp] at h; exact h.elim
  | write l f p => rw [hp] at h; exact h.elim
  | read l p =>
    simp only [hp, Option.some.injEq, Prod.mk.injEq] at hm
    obtain ⟨rfl, _, _⟩ := hm
    rfl
  | rlock m' p =>
    simp only [hp] at hm
    split at hm
    · simp only [Option.some.injEq, Prod.mk.injEq] at hm
      obtain ⟨rfl, _, _⟩ := hm
      exact hu _ _
    · cases hm
  | runlock m' p =>
    simp only [hp] at hm
    split at hm
    · simp only [Option.some.injEq, Prod.mk.injEq] at hm
      obtain ⟨rfl, _, _⟩ := hm
      exact hu _ _
    · cases hm

/-- Writers, readers under `a` and readers under `b` are linearizable together, in parts. -/
theorem parts_commit_linearizable {a b : μ} (hab : a ≠ b) {π : σ → ν} {S : Split Op Out} {prog : Op → Prog μ κ σ Out}
    {seq : σ → Op → σ × Out} {allowed : Op → Prop} {prot : κ → Prop} {flat : Prop}
    (hdisc : ∀ m op, allowed op → Disc m prot True flat (prog op) (.rd 0))
    (hkind : ∀ op, allowed op →
      (∃ p, prog op = .lock a p ∧ Todo a b π S seq op (S.parts op) [] p) ∨
      (S.parts op = [op] ∧ (∀ r, S.result op [r] r) ∧ (∀ d, (prog op).eval d = seq d op) ∧
        (Looker a Eq (prog op) .pre ∨ (¬ S.main op ∧ Looker b (fun d d' => π d = π d') (prog op) .pre))))
    {s : σ} {c : Cfg μ κ σ Op Out} (hr : Reach prog allowed s c) : LinearizableInParts S seq s c.hist := by
  have hba := Ne.symm hab
  refine parts_linearizable (own := fun k => (k.mine a).wr = .held) (I := CommitInv a b π) (A := PartsAt a b π S seq)
    ⟨fun _ => rfl, fun _ => rfl⟩ ?_ ?_ ?_ hr
  · intro n op d G hop
    refine ⟨?_, by simp [Mu.init]⟩
    rcases hkind op hop with ⟨p, h1, h2⟩ | ⟨h1, h2, h3, h4⟩
    · exact .inl (.pre p h1 rfl rfl rfl h2)
    · refine .inr ⟨h1, h2, rfl, none, rfl, ?_⟩
      rcases h4 with h4 | ⟨hm, h4⟩
      · exact .inl ⟨.pre, rfl, h4, rfl, h3⟩
      · exact .inr ⟨hm, .pre, rfl, h4, rfl, h3⟩
  · rintro st d G k r hp (hw | ⟨_, h2, _, s, rfl, ⟨ph, _, h3, h4⟩ | ⟨_, ph, _, h3, h4⟩⟩)
    · cases hw with
      | pre p h1 => rw [hp] at h1; cases h1
      | ann p h1 => rw [hp] at h1; cases h1
      | run done o rem ρ q g cont ph h h1 _ _ h2 h3 =>
        rw [hp] at h1
        cases q with
        | ret r => exact absurd rfl (h3 r)
        | _ => cases h1
      | fin r h1 => rw [hp] at h1; cases h1
      | done r' h1 h2 h3 h4 => rw [hp] at h1; cases h1; exact h4
    · rw [hp] at h3 h4
      cases h3
      obtain ⟨out, rfl, e⟩ := h4
      cases e d
      exact h2 r
    · rw [hp] at h3 h4
      cases h3
      obtain ⟨out, rfl, e⟩ := h4
      cases e d
      exact h2 r
  · intro c t k k' mus d G st hrc hk hm hg hA
    have ha := (lockInv (fun op => hdisc a op) hrc).count
    have hb := (lockInv (fun op => hdisc b op) hrc).count
    rcases hA t k hk with hw | ⟨h1, h2, hfree, s, h4, h5⟩
    · cases hw with
      | pre p h1 h2 h3 h4 h5 =>
        unfold micro at hm
        simp only [h1] at hm
        split at hm
        · next hf =>
          simp only [Option.some.injEq, Prod.mk.injEq] at hm
          obtain ⟨rfl, rfl, rfl⟩ := hm
          refine ⟨fun _ => .inr h4, .inl ⟨.inl (.ann p rfl ?_ ?_ h4 h5), ⟨?_, ?_⟩, fun t' q _ hq => hA t' q hq⟩⟩
          · simp only [upd_self, h2]; rfl
          · simp only [upd_ne _ _ hba]; exact h3
          · exact fun _ => hg.1 (by rw [hf]; decide)
          · simp only [upd_ne _ _ hba]; exact hg.2
        · cases hm
      | ann p h1 h2 h3 h4 h5 =>
        unfold micro at hm
        simp only [h1] at hm
        split at hm
        · simp only [Option.some.injEq, Prod.mk.injEq] at hm
          obtain ⟨rfl, rfl, rfl⟩ := hm
          have hd : c.data = G := by
            refine hg.1 ?_
            rw [(ha.wr_eq (t := t) (w := .announced) (by decide) (by rw [mineOf_some hk, h2])).1]
            decide
          subst hd
          refine ⟨fun _ => .inr h4, .inl ⟨.inl ?_, ⟨fun _ => rfl, fun _ => rfl⟩, fun t' q _ hq => hA t' q hq⟩⟩
          rw [h4]
          refine settle (rem := S.parts k.op) ?_ ?_ rfl (fun x hx => by cases hx) h5
          · simp only [upd_self, h2]
          · simp only [upd_ne _ _ hba]; exact h3
        · cases hm
      | run done o rem ρ q g cont ph h h1 h2 h3 h4 h5 h6 h7 h8 h9 =>
        exact ⟨fun _ => .inl (by rw [h2]), part_tau hab ha hb hA hg hk h1 h2 h3 h4 h5 h6 h7 h8 h9 hm⟩
      | fin r h1 h2 h3 h4 h5 =>
        unfold micro at hm
        simp only [h1] at hm
        split at hm
        · simp only [Option.some.injEq, Prod.mk.injEq] at hm
          obtain ⟨rfl, rfl, rfl⟩ := hm
          refine ⟨fun _ => .inl (by rw [h2]), .inl ⟨.inl (.done r rfl ?_ ?_ h5), ⟨fun _ => h4, fun _ => by rw [h4]⟩,
            fun t' q _ hq => hA t' q hq⟩⟩
          · simp only [upd_self, h2]; rfl
          · simp only [upd_ne _ _ hba]; exact h3
        · cases hm
      | done r h1 h2 h3 h4 =>
        unfold micro at hm
        simp only [h1, reduceCtorEq] at hm
    · have hop := micro_op hm
      have hmk : ∀ (m : μ) (E : σ → σ → Prop) ph, Looker m E k.prog ph → (k'.mine a).wr = .free := by
        intro m E ph hl
        rw [looker_wr hl hm]; exact hfree
      rcases h5 with ⟨ph, h5, h6, h7⟩ | ⟨hnm, ph, h5, h6, h7⟩
      · have hwr := hmk _ _ _ h6
        refine ⟨fun h => (by rw [hwr] at h; cases h), ?_⟩
        obtain ⟨rfl, g1, g2⟩ := looker_tau (fun _ => rfl) (fun _ _ _ e e' => e.trans e') h5 h6 h7
          (fun hf => hg.1 (by rw [hf]; decide)) hg hm
        rcases g2 with g2 | ⟨h0, hG, hf, g2⟩
        · exact .inl ⟨.inr ⟨by rw [hop]; exact h1, by rw [hop]; exact h2, hwr, s, by rw [hop]; exact h4, .inl g2⟩, g1,
            fun t' q _ hq => hA t' q hq⟩
        · subst h0
          have hst : st t = [] := h4
          refine .inr ⟨k.op, by rw [hst, h1]; exact List.prefix_rfl, (by rw [hst]; exact fun x hx => (by cases hx)),
            .inl hst, fun _ t' q _ hq => ?_, ?_, by rw [hG]; exact g1, by rw [hG]; exact fun t' q _ hq => hA t' q hq⟩
          · have := ha.free hf t'
            rw [mineOf_some hq] at this
            rw [this]; decide
          · rw [hG, hst]
            exact .inr ⟨by rw [hop]; exact h1, by rw [hop]; exact h2, hwr, some (seq G k.op).2, by rw [hop]; rfl, .inl g2⟩
      · have hwr := hmk _ _ _ h6
        refine ⟨fun h => (by rw [hwr] at h; cases h), ?_⟩
        obtain ⟨rfl, g1, g2⟩ := looker_tau (E := fun d d' => π d = π d') (fun _ => rfl) (fun _ _ _ e e' => e.trans e')
          h5 h6 h7 (fun hf => hg.2 (by rw [hf]; decide)) hg hm
        rcases g2 with g2 | ⟨h0, hG, hf, g2⟩
        · exact .inl ⟨.inr ⟨by rw [hop]; exact h1, by rw [hop]; exact h2, hwr, s, by rw [hop]; exact h4,
            .inr ⟨by rw [hop]; exact hnm, g2⟩⟩, g1, fun t' q _ hq => hA t' q hq⟩
        · subst h0
          have hst : st t = [] := h4
          refine .inr ⟨k.op, by rw [hst, h1]; exact List.prefix_rfl, (by rw [hst]; exact fun x hx => (by cases hx)),
            .inl hst, fun h => absurd h hnm, ?_, by rw [hG]; exact g1, by rw [hG]; exact fun t' q _ hq => hA t' q hq⟩
          rw [hG, hst]
          exact .inr ⟨by rw [hop]; exact h1, by rw [hop]; exact h2, hwr, some (seq G k.op).2, by rw [hop]; rfl,
            .inr ⟨by rw [hop]; exact hnm, g2⟩⟩

end Netscrape.Conc
