import Verif.Lemmas.Linearizable

/-!
# Linearizability of methods that look before they act

Methods that may run some reading sections before the section in which they act. If a reading section goes on
to return, the call takes effect when it enters that section. Otherwise the rest of the method must compute
what the sequential specification says from any later state, so that the call can take effect later. What the
sections see satisfies an invariant `Inv` of the sequential specification.
-/

namespace Netscrape.Conc
open Netscrape.Spec

variable {μ κ σ Op Out : Type} [DecidableEq μ]

/-- From phase `ph` on, `p` runs reading sections of `m` and at most one writing section, after which it
returns. If it does not return after a reading section, what follows satisfies `Q`. -/
def Scout (m : μ) (Inv : σ → Prop) (Q : Prog μ κ σ Out → Prop) : Prog μ κ σ Out → Phase → Prop
  | .ret _, ph => ph = .post ∨ ph = .pre
  | .lock m' k, ph => m' = m ∧ ph = .pre ∧ Scout m Inv Q k .inW
  | .acquire m' k, ph => m' = m ∧ ph = .ann ∧ Scout m Inv Q k .inW
  | .unlock m' k, ph => m' = m ∧ ph = .inW ∧ ∃ r, k = .ret r
  | .rlock m' k, ph => m' = m ∧ ph = .pre ∧ Scout m Inv Q k .inR
  | .runlock m' k, ph => m' = m ∧ ph = .inR ∧ ((∃ r, k = .ret r) ∨ (Q k ∧ Scout m Inv Q k .pre))
  | .read _ k, ph => (ph = .inW ∧ ∀ s, Scout m Inv Q (k s) ph) ∨ (ph = .inR ∧ ∀ s, Inv s → Scout m Inv Q (k s) ph)
  | .write _ _ k, ph => ph = .inW ∧ ∀ s, Scout m Inv Q (k s) ph

/-- What follows a reading section run in state `s`. -/
def rest : Prog μ κ σ Out → σ → Prog μ κ σ Out
  | .runlock _ k, _ => k
  | .read _ k, s => rest (k s) s
  | p, _ => p

omit [DecidableEq μ] in
theorem Scout.eval_rest {m : μ} {Inv : σ → Prop} {Q : Prog μ κ σ Out → Prop} {p : Prog μ κ σ Out} {s : σ}
    (hs : Inv s) : Scout m Inv Q p .inR → p.eval s = (rest p s).eval s := by
  induction p with
  | ret r => intro _; rfl
  | lock m' k _ => intro _; rfl
  | acquire m' k _ => intro _; rfl
  | unlock m' k _ => intro _; rfl
  | rlock m' k _ => intro _; rfl
  | runlock m' k _ => intro _; rfl
  | read l k ih =>
    intro h
    rcases h with ⟨h, _⟩ | ⟨_, h⟩
    · cases h
    · exact ih s (h s hs)
  | write l f k _ => intro _; rfl

/-- What is known about a call in each phase. -/
def At (Inv : σ → Prop) (seq : σ → Op → σ × Out) (s : σ) (lin : List (Nat × Op × Out)) (d : σ) (id : Nat) (op : Op)
    (p : Prog μ κ σ Out) : Phase → Prop
  | .pre => (∀ x ∈ lin, x.1 ≠ id) ∧ ∀ s, Inv s → p.eval s = seq s op
  | .ann => (∀ x ∈ lin, x.1 ≠ id) ∧ ∀ s, Inv s → p.eval s = seq s op
  | .inW => ∃ out, (id, op, out) ∈ lin ∧ p.eval d = (final seq s lin, out)
  | .inR => (∃ out, (id, op, out) ∈ lin ∧ rest p d = .ret out) ∨
      ((∀ x ∈ lin, x.1 ≠ id) ∧ ∀ r, rest p d ≠ .ret r)
  | .post => ∃ out, (id, op, out) ∈ lin ∧ p = .ret out

/-- The linearization invariant. -/
structure ScoutInv (m : μ) (allowed : Op → Prop) (Inv : σ → Prop) (seq : σ → Op → σ × Out) (s : σ)
    (c : Cfg μ κ σ Op Out) (lin : List (Nat × Op × Out)) : Prop where
  legal : Legal seq s lin
  explains : Explains lin c.hist
  fresh : ∀ i t op, Ev.inv i t op ∈ c.hist → i < c.next
  invoked : ∀ t k, c.calls t = some k → Ev.inv k.id t k.op ∈ c.hist ∧ allowed k.op
  distinct : ∀ t t' k k', c.calls t = some k → c.calls t' = some k' → k.id = k'.id → t = t'
  inv : Inv (final seq s lin)
  data : (∀ t, (mineOf m c t).wr ≠ .held) → c.data = final seq s lin
  phase : ∀ t k, c.calls t = some k → ∃ ph,
    Scout m Inv (fun p => ∀ s, Inv s → p.eval s = seq s k.op) k.prog ph ∧ k.mine m = ph.mu ∧
    At Inv seq s lin c.data k.id k.op k.prog ph

/-- Adding a call that is in progress at the end of the sequential run. -/
theorem explains_append {lin : List (Nat × Op × Out)} {h : List (Ev Op Out)} (he : Explains lin h)
    {i t : Nat} {op : Op} {out : Out} (hnot : ∀ x ∈ lin, x.1 ≠ i) (hin : Ev.inv i t op ∈ h) :
    Explains (lin ++ [(i, op, out)]) h := by
  refine ⟨?_, ?_, ?_, ?_⟩
  · rw [List.map_append, List.nodup_append]
    refine ⟨he.once, by simp, ?_⟩
    intro a ha b hb
    obtain ⟨x, hx, rfl⟩ := List.mem_map.mp ha
    simp only [List.map_cons, List.map_nil, List.mem_singleton] at hb
    rw [hb]
    exact hnot x hx
  · intro j op' out' hx
    rcases List.mem_append.mp hx with hx | hx
    · exact he.called j op' out' hx
    · simp only [List.mem_singleton, Prod.mk.injEq] at hx
      obtain ⟨rfl, rfl, _⟩ := hx
      exact ⟨t, hin⟩
  · intro j t' out' hx
    obtain ⟨op', h⟩ := he.returned j t' out' hx
    exact ⟨op', List.mem_append_left _ h⟩
  · intro j t' out' i' t'' op' hb x' hx' e
    rcases List.mem_append.mp hx' with hx' | hx'
    · obtain ⟨x, h1, h2, h3⟩ := he.realTime j t' out' i' t'' op' hb x' hx' e
      exact ⟨x, List.mem_append_left _ h1, h2, before_append h3 _⟩
    · obtain ⟨op'', h⟩ := he.returned j t' out' (before_mem hb).1
      simp only [List.mem_singleton] at hx'
      refine ⟨_, List.mem_append_left _ h, rfl, ?_⟩
      rw [hx']
      exact before_last h

omit [DecidableEq μ] in
/-- A call that is not in its writing section does not notice others being added to the run, unless they
change the state. -/
theorem At.append {Inv : σ → Prop} {seq : σ → Op → σ × Out} {s : σ} {lin : List (Nat × Op × Out)} {d : σ}
    {id : Nat} {op : Op} {p : Prog μ κ σ Out} {ph : Phase} {x : Nat × Op × Out} (hx : x.1 ≠ id)
    (h : At Inv seq s lin d id op p ph)
    (hw : ph = .inW → (seq (final seq s lin) x.2.1).1 = final seq s lin) :
    At Inv seq s (lin ++ [x]) d id op p ph := by
  have hnot : (∀ y ∈ lin, y.1 ≠ id) → ∀ y ∈ lin ++ [x], y.1 ≠ id := by
    intro h y hy
    rcases List.mem_append.mp hy with hy | hy
    · exact h y hy
    · rw [List.mem_singleton.mp hy]; exact hx
  cases ph with
  | pre => exact ⟨hnot h.1, h.2⟩
  | ann => exact ⟨hnot h.1, h.2⟩
  | inW =>
    obtain ⟨out, h1, h2⟩ := h
    exact ⟨out, List.mem_append_left _ h1, by rw [final_append, hw rfl]; exact h2⟩
  | inR =>
    rcases h with ⟨out, h1, h2⟩ | ⟨h1, h2⟩
    · exact .inl ⟨out, List.mem_append_left _ h1, h2⟩
    · exact .inr ⟨hnot h1, h2⟩
  | post =>
    obtain ⟨out, h1, h2⟩ := h
    exact ⟨out, List.mem_append_left _ h1, h2⟩

theorem scout_tau {m : μ} {allowed : Op → Prop} {Inv : σ → Prop} {seq : σ → Op → σ × Out} {s : σ}
    (hkeep : ∀ op s, allowed op → Inv s → Inv (seq s op).1)
    {c : Cfg μ κ σ Op Out} {lin : List (Nat × Op × Out)} (hi : ScoutInv m allowed Inv seq s c lin)
    {prot : κ → Prop} {strict flat : Prop} (hl : LockInv m prot strict flat c) {t : Nat}
    {k k' : Call μ κ σ Op Out} {mus : μ → Mu} {d : σ}
    (hk : c.calls t = some k) (hm : micro c k = some (k', mus, d)) :
    ∃ lin', ScoutInv m allowed Inv seq s
      { c with data := d, mus := mus, calls := upd c.calls t (some k') } lin' := by
  obtain ⟨ph, hone, hmine, hat⟩ := hi.phase t k hk
  have hft : mineOf m c t = ph.mu := (mineOf_some hk).trans hmine
  have others : ∀ t' q, t' ≠ t → upd c.calls t (some k') t' = some q → c.calls t' = some q := by
    intro t' q e h
    rwa [upd_ne _ _ e] at h
  have hid : k'.id = k.id ∧ k'.op = k.op := by
    unfold micro at hm
    cases hp : k.prog <;> simp only [hp] at hm
    case ret => cases hm
    case read => cases hm; exact ⟨rfl, rfl⟩
    case write => cases hm; exact ⟨rfl, rfl⟩
    all_goals
      split at hm
      · cases hm; exact ⟨rfl, rfl⟩
      · cases hm
  have mk : ∀ lin', Legal seq s lin' → Explains lin' c.hist → Inv (final seq s lin') →
      ((∀ t', (upd (mineOf m c) t (k'.mine m) t').wr ≠ .held) → d = final seq s lin') →
      (∀ t' q, t' ≠ t → c.calls t' = some q → ∀ ph, q.mine m = ph.mu →
        At Inv seq s lin c.data q.id q.op q.prog ph → At Inv seq s lin' d q.id q.op q.prog ph) →
      (∃ ph, Scout m Inv (fun p => ∀ s, Inv s → p.eval s = seq s k.op) k'.prog ph ∧ k'.mine m = ph.mu ∧
        At Inv seq s lin' d k.id k.op k'.prog ph) →
      ∃ lin', ScoutInv m allowed Inv seq s
        { c with data := d, mus := mus, calls := upd c.calls t (some k') } lin' := by
    intro lin' h1 h2 h2' h3 h4 h5
    refine ⟨lin', h1, h2, hi.fresh, ?_, ?_, h2', ?_, ?_⟩
    · intro t' q hq
      by_cases e : t' = t
      · subst e
        simp only [upd_self, Option.some.injEq] at hq
        subst hq
        rw [hid.1, hid.2]
        exact hi.invoked t' k hk
      · exact hi.invoked t' q (others t' q e hq)
    · intro t1 t2 q1 q2 h1 h2 he
      have g1 : ∃ p, c.calls t1 = some p ∧ p.id = q1.id := by
        by_cases e : t1 = t
        · subst e
          simp only [upd_self, Option.some.injEq] at h1
          subst h1
          exact ⟨k, hk, hid.1.symm⟩
        · exact ⟨q1, others t1 q1 e h1, rfl⟩
      have g2 : ∃ p, c.calls t2 = some p ∧ p.id = q2.id := by
        by_cases e : t2 = t
        · subst e
          simp only [upd_self, Option.some.injEq] at h2
          subst h2
          exact ⟨k, hk, hid.1.symm⟩
        · exact ⟨q2, others t2 q2 e h2, rfl⟩
      obtain ⟨p1, g1, e1⟩ := g1
      obtain ⟨p2, g2, e2⟩ := g2
      exact hi.distinct t1 t2 p1 p2 g1 g2 (by rw [e1, e2, he])
    · rw [mineOf_upd]; exact h3
    · intro t' q hq
      by_cases e : t' = t
      · subst e
        simp only [upd_self, Option.some.injEq] at hq
        subst hq
        rw [hid.1, hid.2]
        exact h5
      · obtain ⟨phq, g1, g2, g3⟩ := hi.phase t' q (others t' q e hq)
        exact ⟨phq, g1, g2, h4 t' q e (others t' q e hq) phq g2 g3⟩
  -- a step that neither takes effect nor changes data
  have quiet : ∀ ph', d = c.data → ((k'.mine m).wr = .held ↔ (k.mine m).wr = .held) →
      Scout m Inv (fun p => ∀ s, Inv s → p.eval s = seq s k.op) k'.prog ph' → k'.mine m = ph'.mu →
      At Inv seq s lin c.data k.id k.op k'.prog ph' →
      ∃ lin', ScoutInv m allowed Inv seq s
        { c with data := d, mus := mus, calls := upd c.calls t (some k') } lin' := by
    intro ph' hd hw h5 h6 h7
    refine mk lin hi.legal hi.explains hi.inv ?_ (fun _ _ _ _ _ _ h => hd ▸ h) ⟨ph', h5, h6, hd ▸ h7⟩
    intro h
    rw [hd]
    refine hi.data (fun t' => ?_)
    by_cases e : t' = t
    · subst e
      have := h t'
      rw [upd_self] at this
      rw [mineOf_some hk]
      exact fun hh => this (hw.mpr hh)
    · have := h t'
      rwa [upd_ne _ _ e] at this
  -- a step with which the call takes effect
  have enter : ∀ ph', d = c.data → (∀ t', (mineOf m c t').wr ≠ .held) →
      (∀ x ∈ lin, x.1 ≠ k.id) → Inv c.data →
      ((∀ t', (upd (mineOf m c) t (k'.mine m) t').wr ≠ .held) → d = (seq c.data k.op).1) →
      Scout m Inv (fun p => ∀ s, Inv s → p.eval s = seq s k.op) k'.prog ph' → k'.mine m = ph'.mu →
      (∀ lin', (k.id, k.op, (seq c.data k.op).2) ∈ lin' → final seq s lin' = (seq c.data k.op).1 →
        At Inv seq s lin' c.data k.id k.op k'.prog ph') →
      ∃ lin', ScoutInv m allowed Inv seq s
        { c with data := d, mus := mus, calls := upd c.calls t (some k') } lin' := by
    intro ph' hd hnone hnot hinv hst h5 h6 h7
    have hdata := hi.data hnone
    obtain ⟨hinvd, hallow⟩ := hi.invoked t k hk
    have hfin : final seq s (lin ++ [(k.id, k.op, (seq c.data k.op).2)]) = (seq c.data k.op).1 := by
      rw [final_append, ← hdata]
    refine mk (lin ++ [(k.id, k.op, (seq c.data k.op).2)]) ?_ ?_ ?_ ?_ ?_ ⟨ph', h5, h6, ?_⟩
    · exact legal_append seq _ lin s hi.legal (by rw [← hdata])
    · exact explains_append hi.explains hnot hinvd
    · rw [hfin]; exact hkeep k.op c.data hallow hinv
    · intro h; rw [hfin]; exact hst h
    · intro t' q e hq phq g2 g3
      rw [hd]
      refine g3.append (fun he => e (hi.distinct t' t q k hq hk he.symm)) ?_
      rintro rfl
      exact absurd (by rw [mineOf_some hq, g2]; rfl) (hnone t')
    · rw [hd]
      exact h7 _ (List.mem_append_right _ (List.mem_singleton.mpr rfl)) hfin
  unfold micro at hm
  cases hp : k.prog with
  | ret r => simp only [hp, reduceCtorEq] at hm
  | lock m' p =>
    rw [hp] at hone
    obtain ⟨rfl, rfl, hone⟩ := hone
    simp only [hp] at hm
    split at hm
    · cases hm
      refine quiet .ann rfl ?_ ⟨rfl, rfl, hone⟩ ?_ ⟨hat.1, fun s hs => ?_⟩
      · simp only [upd_self, hmine, Phase.mu, reduceCtorEq]
      · simp only [upd_self, hmine]; rfl
      · have := hat.2 s hs
        rw [hp] at this
        exact this
    · cases hm
  | acquire m' p =>
    rw [hp] at hone
    obtain ⟨rfl, rfl, hone⟩ := hone
    simp only [hp] at hm
    split at hm
    · cases hm
      have hnone : ∀ t', (mineOf m' c t').wr ≠ .held := by
        intro t' hh
        have hf : (mineOf m' c t).wr = .announced := by rw [hft]; rfl
        by_cases e : t' = t
        · subst e; rw [hf] at hh; cases hh
        · have := (hl.count.wr_eq (by decide) hf).2 t' e
          rw [hh] at this; cases this
      have hinv : Inv c.data := hi.data hnone ▸ hi.inv
      refine enter .inW rfl hnone hat.1 hinv ?_ hone ?_ ?_
      · intro h
        exact absurd (by simp only [upd_self]) (h t)
      · simp only [upd_self, hmine]; rfl
      · intro lin' h1 h2
        have := hat.2 c.data hinv
        rw [hp] at this
        exact ⟨_, h1, by rw [h2]; exact this⟩
    · cases hm
  | unlock m' p =>
    rw [hp] at hone
    obtain ⟨rfl, rfl, r, rfl⟩ := hone
    simp only [hp] at hm
    split at hm
    · cases hm
      obtain ⟨out, hmem, hev⟩ := hat
      rw [hp] at hev
      have hev' : (c.data, r) = (final seq s lin, out) := hev
      simp only [Prod.mk.injEq] at hev'
      obtain ⟨hst, rfl⟩ := hev'
      refine mk lin hi.legal hi.explains hi.inv (fun _ => hst) (fun _ _ _ _ _ _ h => h)
        ⟨.post, .inl rfl, ?_, r, hmem, rfl⟩
      simp only [upd_self, hmine]; rfl
    · cases hm
  | rlock m' p =>
    rw [hp] at hone
    obtain ⟨rfl, rfl, hone⟩ := hone
    simp only [hp] at hm
    split at hm
    · next hfree =>
      cases hm
      have hnone : ∀ t', (mineOf m' c t').wr ≠ .held := by
        intro t' hh
        have := hl.count.free hfree t'
        rw [hh] at this; cases this
      have hinv : Inv c.data := hi.data hnone ▸ hi.inv
      have hev := hat.2 c.data hinv
      rw [hp] at hev
      have hev' : (rest p c.data).eval c.data = seq c.data k.op := (hone.eval_rest hinv).symm.trans hev
      by_cases hret : ∃ r, rest p c.data = .ret r
      · obtain ⟨r, hret⟩ := hret
        rw [hret] at hev'
        have hev'' : (c.data, r) = seq c.data k.op := hev'
        refine enter .inR rfl hnone hat.1 hinv ?_ hone ?_ ?_
        · intro _; rw [← hev'']
        · simp only [upd_self, hmine]; rfl
        · intro lin' h1 _
          rw [← hev''] at h1
          exact .inl ⟨r, h1, hret⟩
      · refine quiet .inR rfl ?_ hone ?_ (.inr ⟨hat.1, fun r h => hret ⟨r, h⟩⟩)
        · simp only [upd_self, hmine, Phase.mu, reduceCtorEq]
        · simp only [upd_self, hmine]; rfl
    · cases hm
  | runlock m' p =>
    rw [hp] at hone
    obtain ⟨rfl, rfl, hone⟩ := hone
    simp only [hp] at hm
    split at hm
    · cases hm
      have hat' : (∃ out, (k.id, k.op, out) ∈ lin ∧ p = .ret out) ∨
          ((∀ x ∈ lin, x.1 ≠ k.id) ∧ ∀ r, p ≠ .ret r) := by
        have := hat
        rw [hp] at this
        exact this
      rcases hat' with ⟨out, hmem, rfl⟩ | ⟨hnot, hne⟩
      · refine quiet .post rfl ?_ (.inl rfl) ?_ ⟨out, hmem, rfl⟩
        · simp only [upd_self, hmine, Phase.mu]
        · simp only [upd_self, hmine]; rfl
      · rcases hone with ⟨r, rfl⟩ | ⟨hq, hone⟩
        · exact absurd rfl (hne r)
        · refine quiet .pre rfl ?_ hone ?_ ⟨hnot, hq⟩
          · simp only [upd_self, hmine, Phase.mu]
          · simp only [upd_self, hmine]; rfl
    · cases hm
  | read l p =>
    rw [hp] at hone
    simp only [hp, Option.some.injEq, Prod.mk.injEq] at hm
    obtain ⟨rfl, rfl, rfl⟩ := hm
    rcases hone with ⟨rfl, hone⟩ | ⟨rfl, hone⟩
    · refine quiet .inW rfl Iff.rfl (hone _) hmine ?_
      have := hat
      rw [hp] at this
      exact this
    · have hinv : Inv c.data := by
        have hnone : ∀ t', (mineOf m c t').wr ≠ .held := by
          intro t' hh
          have := hl.count.excl hh t
          rw [hft] at this; cases this
        exact hi.data hnone ▸ hi.inv
      refine quiet .inR rfl Iff.rfl (hone _ hinv) hmine ?_
      have := hat
      rw [hp] at this
      exact this
  | write l f p =>
    rw [hp] at hone
    simp only [hp, Option.some.injEq, Prod.mk.injEq] at hm
    obtain ⟨rfl, rfl, rfl⟩ := hm
    obtain ⟨rfl, hone⟩ := hone
    have hheld : (mineOf m c t).wr = .held := by rw [hft]; rfl
    refine mk lin hi.legal hi.explains hi.inv ?_ ?_ ⟨.inW, hone _, hmine, ?_⟩
    · intro h
      exact absurd (by rw [upd_self, ← mineOf_some (m := m) hk]; exact hheld) (h t)
    · intro t' q e hq phq g2 g3
      cases phq with
      | pre => exact g3
      | ann => exact g3
      | post => exact g3
      | inW =>
        have := (hl.count.wr_eq (by decide) hheld).2 t' e
        rw [mineOf_some hq, g2] at this
        cases this
      | inR =>
        have := hl.count.excl hheld t'
        rw [mineOf_some hq, g2] at this
        cases this
    · have := hat
      rw [hp] at this
      exact this

/-- Methods that look before they act are linearizable. -/
theorem scout_linearizable {m : μ} {prog : Op → Prog μ κ σ Out} {seq : σ → Op → σ × Out} {allowed : Op → Prop}
    {Inv : σ → Prop} (hkeep : ∀ op s, allowed op → Inv s → Inv (seq s op).1)
    {prot : κ → Prop} {strict flat : Prop} (hdisc : ∀ op, allowed op → Disc m prot strict flat (prog op) (.rd 0))
    (hscout : ∀ op, allowed op →
      Scout m Inv (fun p => ∀ s, Inv s → p.eval s = seq s op) (prog op) .pre)
    (hseq : ∀ op, allowed op → ∀ s, Inv s → (prog op).eval s = seq s op) {s : σ} (hs : Inv s)
    {c : Cfg μ κ σ Op Out} (hr : Reach prog allowed s c) : Linearizable seq s c.hist := by
  suffices h : ∃ lin, ScoutInv m allowed Inv seq s c lin by
    obtain ⟨lin, h⟩ := h
    exact ⟨lin, h.legal, h.explains⟩
  induction hr with
  | init =>
    refine ⟨[], trivial, ⟨List.nodup_nil, ?_, ?_, ?_⟩, ?_, ?_, ?_, hs, fun _ => rfl, ?_⟩
    · intro _ _ _ h; cases h
    · intro _ _ _ h; cases h
    · intro _ _ _ _ _ _ _ x h; cases h
    · intro _ _ _ h; cases h
    · intro _ _ h; cases h
    · intro _ _ _ _ h; cases h
    · intro _ _ h; cases h
  | step c c' a hrc ha hst ih =>
    obtain ⟨lin, hi⟩ := ih
    cases a with
    | tau t =>
      unfold Conc.step at hst
      cases hc : c.calls t with
      | none => simp only [hc, reduceCtorEq] at hst
      | some k =>
        simp only [hc] at hst
        cases hm : Conc.micro c k with
        | none => simp only [hm, reduceCtorEq] at hst
        | some r =>
          obtain ⟨k', mus, d⟩ := r
          simp only [hm, Option.some.injEq] at hst
          subst hst
          exact scout_tau hkeep hi (lockInv hdisc hrc) hc hm
    | call t op =>
      unfold Conc.step at hst
      cases hc : c.calls t with
      | some k => simp only [hc, reduceCtorEq] at hst
      | none =>
        simp only [hc, Option.some.injEq] at hst
        subst hst
        have hin : ∀ {e : Ev Op Out}, e ∈ c.hist ++ [Ev.inv c.next t op] →
            e ∈ c.hist ∨ e = Ev.inv c.next t op := fun h => by simpa using h
        have hidlt : ∀ t' k, c.calls t' = some k → k.id < c.next := fun t' k hk =>
          hi.fresh _ _ _ (hi.invoked t' k hk).1
        have hlinlt : ∀ x ∈ lin, x.1 < c.next := by
          rintro ⟨i, op', out⟩ hx
          obtain ⟨t', h⟩ := hi.explains.called i op' out hx
          exact hi.fresh _ _ _ h
        refine ⟨lin, hi.legal, ⟨hi.explains.once, ?_, ?_, ?_⟩, ?_, ?_, ?_, hi.inv, ?_, ?_⟩
        · intro i op' out hx
          obtain ⟨t', h⟩ := hi.explains.called i op' out hx
          exact ⟨t', List.mem_append_left _ h⟩
        · intro i t' out hx
          rcases hin hx with hx | hx
          · exact hi.explains.returned i t' out hx
          · cases hx
        · intro i t1 out i' t2 op' hb x' hx' he
          rcases before_of_append hb with hb | ⟨_, hb⟩
          · exact hi.explains.realTime i t1 out i' t2 op' hb x' hx' he
          · cases hb
            exact absurd he (Nat.ne_of_lt (hlinlt x' hx'))
        · intro i t' op' hx
          rcases hin hx with hx | hx
          · exact Nat.lt_succ_of_lt (hi.fresh i t' op' hx)
          · cases hx; exact Nat.lt_succ_self _
        · intro t' k hk
          by_cases e : t' = t
          · subst e
            simp only [upd_self, Option.some.injEq] at hk
            subst hk
            exact ⟨List.mem_append_right _ (List.mem_singleton.mpr rfl), ha t' op rfl⟩
          · simp only [upd_ne _ _ e] at hk
            exact ⟨List.mem_append_left _ (hi.invoked t' k hk).1, (hi.invoked t' k hk).2⟩
        · intro t1 t2 k1 k2 h1 h2 he
          by_cases e1 : t1 = t
          · subst e1
            simp only [upd_self, Option.some.injEq] at h1
            subst h1
            by_cases e2 : t2 = t1
            · exact e2.symm
            · simp only [upd_ne _ _ e2] at h2
              exact absurd he.symm (Nat.ne_of_lt (hidlt t2 k2 h2))
          · simp only [upd_ne _ _ e1] at h1
            by_cases e2 : t2 = t
            · subst e2
              simp only [upd_self, Option.some.injEq] at h2
              subst h2
              exact absurd he (Nat.ne_of_lt (hidlt t1 k1 h1))
            · simp only [upd_ne _ _ e2] at h2
              exact hi.distinct t1 t2 k1 k2 h1 h2 he
        · intro h
          refine hi.data (fun t' hh => ?_)
          by_cases e : t' = t
          · subst e
            unfold mineOf at hh
            simp only [hc] at hh
            cases hh
          · refine h t' ?_
            unfold mineOf at hh ⊢
            simp only [upd_ne _ _ e]
            exact hh
        · intro t' k hk
          by_cases e : t' = t
          · subst e
            simp only [upd_self, Option.some.injEq] at hk
            subst hk
            exact ⟨.pre, hscout op (ha t' op rfl), rfl, fun x hx => Nat.ne_of_lt (hlinlt x hx),
              hseq op (ha t' op rfl)⟩
          · simp only [upd_ne _ _ e] at hk
            exact hi.phase t' k hk
    | ret t =>
      unfold Conc.step at hst
      cases hc : c.calls t with
      | none => simp only [hc, reduceCtorEq] at hst
      | some k =>
        cases hp : k.prog with
        | ret r =>
          simp only [hc, hp, Option.some.injEq] at hst
          subst hst
          obtain ⟨ph, h1, h2, h3⟩ := hi.phase t k hc
          have old : ∀ t' q, upd c.calls t none t' = some q → t' ≠ t ∧ c.calls t' = some q := by
            intro t' q h
            by_cases e : t' = t
            · subst e; rw [upd_self] at h; cases h
            · rw [upd_ne _ _ e] at h; exact ⟨e, h⟩
          have hin : ∀ {e : Ev Op Out}, e ∈ c.hist ++ [Ev.res k.id t r] →
              e ∈ c.hist ∨ e = Ev.res k.id t r := fun h => by simpa using h
          -- the run, possibly with this call added
          have hlin : ∃ lin', Legal seq s lin' ∧ Explains lin' c.hist ∧ (k.id, k.op, r) ∈ lin' ∧
              final seq s lin' = final seq s lin ∧ ∀ t' q, t' ≠ t → c.calls t' = some q → ∀ ph,
                At Inv seq s lin c.data q.id q.op q.prog ph → At Inv seq s lin' c.data q.id q.op q.prog ph := by
            rw [hp] at h1 h3
            rcases h1 with rfl | rfl
            · obtain ⟨out, hmem, hr⟩ := h3
              cases hr
              exact ⟨lin, hi.legal, hi.explains, hmem, rfl, fun _ _ _ _ _ h => h⟩
            · have hev : (final seq s lin, r) = seq (final seq s lin) k.op := h3.2 _ hi.inv
              refine ⟨lin ++ [(k.id, k.op, r)], legal_append seq _ lin s hi.legal (by rw [← hev]),
                explains_append hi.explains h3.1 (hi.invoked t k hc).1,
                List.mem_append_right _ (List.mem_singleton.mpr rfl), by rw [final_append, ← hev], ?_⟩
              intro t' q e hq ph h
              exact h.append (fun he => e (hi.distinct t' t q k hq hc he.symm)) (fun _ => by rw [← hev])
          obtain ⟨lin', hlegal, hexp, hmem, hfin, hoth⟩ := hlin
          have hwr : (mineOf m c t).wr ≠ .held := by
            rw [mineOf_some hc, h2]
            rw [hp] at h1
            rcases h1 with rfl | rfl <;> decide
          refine ⟨lin', hlegal, ⟨hexp.once, ?_, ?_, ?_⟩, ?_, ?_, ?_, hfin ▸ hi.inv, ?_, ?_⟩
          · intro i op' out hx
            obtain ⟨t', h⟩ := hexp.called i op' out hx
            exact ⟨t', List.mem_append_left _ h⟩
          · intro i t' out hx
            rcases hin hx with hx | hx
            · exact hexp.returned i t' out hx
            · cases hx; exact ⟨k.op, hmem⟩
          · intro i t1 out i' t2 op' hb x' hx' he
            rcases before_of_append hb with hb | ⟨_, hb⟩
            · exact hexp.realTime i t1 out i' t2 op' hb x' hx' he
            · cases hb
          · intro i t' op' hx
            rcases hin hx with hx | hx
            · exact hi.fresh i t' op' hx
            · cases hx
          · intro t' q hq
            have := hi.invoked t' q (old t' q hq).2
            exact ⟨List.mem_append_left _ this.1, this.2⟩
          · intro t1 t2 k1 k2 h1 h2 he
            exact hi.distinct t1 t2 k1 k2 (old t1 k1 h1).2 (old t2 k2 h2).2 he
          · intro h
            rw [hfin]
            refine hi.data (fun t' hh => ?_)
            by_cases e : t' = t
            · subst e; exact hwr hh
            · refine h t' ?_
              unfold mineOf at hh ⊢
              simp only [upd_ne _ _ e]
              exact hh
          · intro t' q hq
            obtain ⟨e, hq⟩ := old t' q hq
            obtain ⟨phq, g1, g2, g3⟩ := hi.phase t' q hq
            exact ⟨phq, g1, g2, hoth t' q e hq phq g3⟩
        | lock m' p => simp only [hc, hp, reduceCtorEq] at hst
        | acquire m' p => simp only [hc, hp, reduceCtorEq] at hst
        | unlock m' p => simp only [hc, hp, reduceCtorEq] at hst
        | rlock m' p => simp only [hc, hp, reduceCtorEq] at hst
        | runlock m' p => simp only [hc, hp, reduceCtorEq] at hst
        | read l p => simp only [hc, hp, reduceCtorEq] at hst
        | write l f p => simp only [hc, hp, reduceCtorEq] at hst

end Netscrape.Conc
