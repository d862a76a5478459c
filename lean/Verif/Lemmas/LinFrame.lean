import Verif.Lemmas.Scout

/-!
# The bookkeeping of linearizability proofs

`I d mus G` relates the shared state and the mutexes to the state `G` of the sequential run so far, `A st d G k`
says what is known about a call `k`: `st` is `none` as long as the call has not been added to the sequential run,
afterwards it is the result it was added with. It remains to be shown that every micro-step keeps `I` and `A`,
where the call that makes the step may be added to the run.
-/

namespace Netscrape.Conc
open Netscrape.Spec

variable {μ κ σ Op Out : Type} [DecidableEq μ]

/-- Whether a call is in the run. -/
def Status (lin : List (Nat × Op × Out)) (k : Call μ κ σ Op Out) : Option Out → Prop
  | none => ∀ x ∈ lin, x.1 ≠ k.id
  | some out => (k.id, k.op, out) ∈ lin

/-- The invariant. -/
structure FrameInv (I : σ → (μ → Mu) → σ → Prop) (A : Option Out → σ → σ → Call μ κ σ Op Out → Prop)
    (seq : σ → Op → σ × Out) (s : σ) (c : Cfg μ κ σ Op Out) (lin : List (Nat × Op × Out)) (st : Nat → Option Out) :
    Prop where
  legal : Legal seq s lin
  explains : Explains lin c.hist
  fresh : ∀ i t op, Ev.inv i t op ∈ c.hist → i < c.next
  invoked : ∀ t k, c.calls t = some k → Ev.inv k.id t k.op ∈ c.hist
  distinct : ∀ t t' k k', c.calls t = some k → c.calls t' = some k' → k.id = k'.id → t = t'
  glob : I c.data c.mus (final seq s lin)
  status : ∀ t k, c.calls t = some k → Status lin k (st t)
  call : ∀ t k, c.calls t = some k → A (st t) c.data (final seq s lin) k

/-- Linearizability from an invariant that every micro-step keeps. -/
theorem frame_linearizable {I : σ → (μ → Mu) → σ → Prop} {A : Option Out → σ → σ → Call μ κ σ Op Out → Prop}
    {prog : Op → Prog μ κ σ Out} {seq : σ → Op → σ × Out} {allowed : Op → Prop} {s : σ}
    (hinit : I s (fun _ => .init) s)
    (hcall : ∀ n op d G, allowed op → A none d G ⟨n, op, prog op, fun _ => .init⟩)
    (hret : ∀ st d G k r, k.prog = .ret r → A st d G k → st = some r)
    (htau : ∀ (c : Cfg μ κ σ Op Out) (t : Nat) (k k' : Call μ κ σ Op Out) mus d G (st : Nat → Option Out),
      Reach prog allowed s c → c.calls t = some k → micro c k = some (k', mus, d) → I c.data c.mus G →
      (∀ t k, c.calls t = some k → A (st t) c.data G k) →
      (A (st t) d G k' ∧ I d mus G ∧ ∀ t' q, t' ≠ t → c.calls t' = some q → A (st t') d G q) ∨
      (st t = none ∧ A (some (seq G k.op).2) d (seq G k.op).1 k' ∧ I d mus (seq G k.op).1 ∧
        ∀ t' q, t' ≠ t → c.calls t' = some q → A (st t') d (seq G k.op).1 q))
    {c : Cfg μ κ σ Op Out} (hr : Reach prog allowed s c) : Linearizable seq s c.hist := by
  suffices h : ∃ lin st, FrameInv I A seq s c lin st by
    obtain ⟨lin, st, h⟩ := h
    exact ⟨lin, h.legal, h.explains⟩
  induction hr with
  | init =>
    refine ⟨[], fun _ => none, trivial, ⟨List.nodup_nil, ?_, ?_, ?_⟩, ?_, ?_, ?_, hinit, ?_, ?_⟩
    · intro _ _ _ h; cases h
    · intro _ _ _ h; cases h
    · intro _ _ _ _ _ _ _ x h; cases h
    · intro _ _ _ h; cases h
    · intro _ _ h; cases h
    · intro _ _ _ _ h; cases h
    · intro _ _ h; cases h
    · intro _ _ h; cases h
  | step c c' a hrc ha hst ih =>
    obtain ⟨lin, st, hi⟩ := ih
    cases a with
    | tau t =>
      unfold Conc.step at hst
      cases hc : c.calls t with
      | none => simp only [hc, reduceCtorEq] at hst
      | some k =>
        simp only [hc] at hst
        cases hm : Conc.micro c k with
        | none => simp only [hm, reduceCtorEq] at hst
        | some r =>
          obtain ⟨k', mus, d⟩ := r
          simp only [hm, Option.some.injEq] at hst
          subst hst
          have hid : k'.id = k.id ∧ k'.op = k.op := by
            unfold micro at hm
            cases hp : k.prog <;> simp only [hp] at hm
            case ret => cases hm
            case read => cases hm; exact ⟨rfl, rfl⟩
            case write => cases hm; exact ⟨rfl, rfl⟩
            all_goals
              split at hm
              · cases hm; exact ⟨rfl, rfl⟩
              · cases hm
          have others : ∀ t' q, t' ≠ t → upd c.calls t (some k') t' = some q → c.calls t' = some q := by
            intro t' q e h
            rwa [upd_ne _ _ e] at h
          have mk : ∀ lin' (st' : Nat → Option Out), Legal seq s lin' → Explains lin' c.hist → I d mus (final seq s lin') →
              Status lin' k (st' t) → A (st' t) d (final seq s lin') k' →
              (∀ t' q, t' ≠ t → c.calls t' = some q → Status lin' q (st' t') ∧
                A (st' t') d (final seq s lin') q) →
              ∃ lin st, FrameInv I A seq s { c with data := d, mus := mus, calls := upd c.calls t (some k') } lin st := by
            intro lin' st' h1 h2 h3 h4 h5 h6
            refine ⟨lin', st', h1, h2, hi.fresh, ?_, ?_, h3, ?_, ?_⟩
            · intro t' q hq
              by_cases e : t' = t
              · subst e
                simp only [upd_self, Option.some.injEq] at hq
                subst hq
                rw [hid.1, hid.2]
                exact hi.invoked t' k hc
              · exact hi.invoked t' q (others t' q e hq)
            · intro t1 t2 q1 q2 h1 h2 he
              have g : ∀ tt q, upd c.calls t (some k') tt = some q → ∃ p, c.calls tt = some p ∧ p.id = q.id := by
                intro tt q h
                by_cases e : tt = t
                · subst e
                  simp only [upd_self, Option.some.injEq] at h
                  subst h
                  exact ⟨k, hc, hid.1.symm⟩
                · exact ⟨q, others tt q e h, rfl⟩
              obtain ⟨p1, g1, e1⟩ := g t1 q1 h1
              obtain ⟨p2, g2, e2⟩ := g t2 q2 h2
              exact hi.distinct t1 t2 p1 p2 g1 g2 (by rw [e1, e2, he])
            · intro t' q hq
              by_cases e : t' = t
              · subst e
                simp only [upd_self, Option.some.injEq] at hq
                subst hq
                cases hs : st' t' with
                | none => rw [hs] at h4; intro x hx; rw [hid.1]; exact h4 x hx
                | some o => rw [hs] at h4; show (k'.id, k'.op, o) ∈ lin'; rw [hid.1, hid.2]; exact h4
              · exact (h6 t' q e (others t' q e hq)).1
            · intro t' q hq
              by_cases e : t' = t
              · subst e
                simp only [upd_self, Option.some.injEq] at hq
                subst hq
                exact h5
              · exact (h6 t' q e (others t' q e hq)).2
          rcases htau c t k k' mus d _ st hrc hc hm hi.glob hi.call with ⟨h1, h2, h3⟩ | ⟨h0, h1, h2, h3⟩
          · exact mk lin st hi.legal hi.explains h2 (hi.status t k hc) h1
              (fun t' q e hq => ⟨hi.status t' q hq, h3 t' q e hq⟩)
          · have hs := hi.status t k hc
            rw [h0] at hs
            have hfin := final_append seq (k.id, k.op, (seq (final seq s lin) k.op).2) lin s
            refine mk (lin ++ [(k.id, k.op, (seq (final seq s lin) k.op).2)])
              (upd st t (some (seq (final seq s lin) k.op).2)) (legal_append seq _ lin s hi.legal rfl)
              (explains_append hi.explains hs (hi.invoked t k hc)) (by rw [hfin]; exact h2) ?_ ?_ ?_
            · rw [upd_self]; exact List.mem_append_right _ (List.mem_singleton.mpr rfl)
            · rw [upd_self, hfin]; exact h1
            · intro t' q e hq
              rw [upd_ne _ _ e, hfin]
              refine ⟨?_, h3 t' q e hq⟩
              have hsq := hi.status t' q hq
              cases hst' : st t' with
              | none =>
                rw [hst'] at hsq
                intro x hx
                rcases List.mem_append.mp hx with hx | hx
                · exact hsq x hx
                · rw [List.mem_singleton.mp hx]
                  exact fun he => e (hi.distinct t' t q k hq hc he.symm)
              | some o => rw [hst'] at hsq; exact List.mem_append_left _ hsq
    | call t op =>
      unfold Conc.step at hst
      cases hc : c.calls t with
      | some k => simp only [hc, reduceCtorEq] at hst
      | none =>
        simp only [hc, Option.some.injEq] at hst
        subst hst
        have hin : ∀ {e : Ev Op Out}, e ∈ c.hist ++ [Ev.inv c.next t op] →
            e ∈ c.hist ∨ e = Ev.inv c.next t op := fun h => by simpa using h
        have hidlt : ∀ t' k, c.calls t' = some k → k.id < c.next := fun t' k hk =>
          hi.fresh _ _ _ (hi.invoked t' k hk)
        have hlinlt : ∀ x ∈ lin, x.1 < c.next := by
          rintro ⟨i, op', out⟩ hx
          obtain ⟨t', h⟩ := hi.explains.called i op' out hx
          exact hi.fresh _ _ _ h
        refine ⟨lin, upd st t none, hi.legal, ⟨hi.explains.once, ?_, ?_, ?_⟩, ?_, ?_, ?_, hi.glob, ?_, ?_⟩
        · intro i op' out hx
          obtain ⟨t', h⟩ := hi.explains.called i op' out hx
          exact ⟨t', List.mem_append_left _ h⟩
        · intro i t' out hx
          rcases hin hx with hx | hx
          · exact hi.explains.returned i t' out hx
          · cases hx
        · intro i t1 out i' t2 op' hb x' hx' he
          rcases before_of_append hb with hb | ⟨_, hb⟩
          · exact hi.explains.realTime i t1 out i' t2 op' hb x' hx' he
          · cases hb
            exact absurd he (Nat.ne_of_lt (hlinlt x' hx'))
        · intro i t' op' hx
          rcases hin hx with hx | hx
          · exact Nat.lt_succ_of_lt (hi.fresh i t' op' hx)
          · cases hx; exact Nat.lt_succ_self _
        · intro t' k hk
          by_cases e : t' = t
          · subst e
            simp only [upd_self, Option.some.injEq] at hk
            subst hk
            exact List.mem_append_right _ (List.mem_singleton.mpr rfl)
          · simp only [upd_ne _ _ e] at hk
            exact List.mem_append_left _ (hi.invoked t' k hk)
        · intro t1 t2 k1 k2 h1 h2 he
          by_cases e1 : t1 = t
          · subst e1
            simp only [upd_self, Option.some.injEq] at h1
            subst h1
            by_cases e2 : t2 = t1
            · exact e2.symm
            · simp only [upd_ne _ _ e2] at h2
              exact absurd he.symm (Nat.ne_of_lt (hidlt t2 k2 h2))
          · simp only [upd_ne _ _ e1] at h1
            by_cases e2 : t2 = t
            · subst e2
              simp only [upd_self, Option.some.injEq] at h2
              subst h2
              exact absurd he (Nat.ne_of_lt (hidlt t1 k1 h1))
            · simp only [upd_ne _ _ e2] at h2
              exact hi.distinct t1 t2 k1 k2 h1 h2 he
        · intro t' k hk
          by_cases e : t' = t
          · subst e
            simp only [upd_self, Option.some.injEq] at hk
            subst hk
            rw [upd_self]
            exact fun x hx => Nat.ne_of_lt (hlinlt x hx)
          · simp only [upd_ne _ _ e] at hk
            rw [upd_ne _ _ e]
            exact hi.status t' k hk
        · intro t' k hk
          by_cases e : t' = t
          · subst e
            simp only [upd_self, Option.some.injEq] at hk
            subst hk
            rw [upd_self]
            exact hcall _ op _ _ (ha t' op rfl)
          · simp only [upd_ne _ _ e] at hk
            rw [upd_ne _ _ e]
            exact hi.call t' k hk
    | ret t =>
      unfold Conc.step at hst
      cases hc : c.calls t with
      | none => simp only [hc, reduceCtorEq] at hst
      | some k =>
        cases hp : k.prog with
        | ret r =>
          simp only [hc, hp, Option.some.injEq] at hst
          subst hst
          have old : ∀ t' q, upd c.calls t none t' = some q → t' ≠ t ∧ c.calls t' = some q := by
            intro t' q h
            by_cases e : t' = t
            · subst e; rw [upd_self] at h; cases h
            · rw [upd_ne _ _ e] at h; exact ⟨e, h⟩
          have hin : ∀ {e : Ev Op Out}, e ∈ c.hist ++ [Ev.res k.id t r] →
              e ∈ c.hist ∨ e = Ev.res k.id t r := fun h => by simpa using h
          have hmem : (k.id, k.op, r) ∈ lin := by
            have := hi.status t k hc
            rw [hret _ _ _ _ r hp (hi.call t k hc)] at this
            exact this
          refine ⟨lin, st, hi.legal, ⟨hi.explains.once, ?_, ?_, ?_⟩, ?_, ?_, ?_, hi.glob, ?_, ?_⟩
          · intro i op' out hx
            obtain ⟨t', h⟩ := hi.explains.called i op' out hx
            exact ⟨t', List.mem_append_left _ h⟩
          · intro i t' out hx
            rcases hin hx with hx | hx
            · exact hi.explains.returned i t' out hx
            · cases hx; exact ⟨k.op, hmem⟩
          · intro i t1 out i' t2 op' hb x' hx' he
            rcases before_of_append hb with hb | ⟨_, hb⟩
            · exact hi.explains.realTime i t1 out i' t2 op' hb x' hx' he
            · cases hb
          · intro i t' op' hx
            rcases hin hx with hx | hx
            · exact hi.fresh i t' op' hx
            · cases hx
          · intro t' q hq
            exact List.mem_append_left _ (hi.invoked t' q (old t' q hq).2)
          · intro t1 t2 k1 k2 h1 h2 he
            exact hi.distinct t1 t2 k1 k2 (old t1 k1 h1).2 (old t2 k2 h2).2 he
          · exact fun t' q hq => hi.status t' q (old t' q hq).2
          · exact fun t' q hq => hi.call t' q (old t' q hq).2
        | lock m' p => simp only [hc, hp, reduceCtorEq] at hst
        | acquire m' p => simp only [hc, hp, reduceCtorEq] at hst
        | unlock m' p => simp only [hc, hp, reduceCtorEq] at hst
        | rlock m' p => simp only [hc, hp, reduceCtorEq] at hst
        | runlock m' p => simp only [hc, hp, reduceCtorEq] at hst
        | read l p => simp only [hc, hp, reduceCtorEq] at hst
        | write l f p => simp only [hc, hp, reduceCtorEq] at hst

end Netscrape.Conc
