import Verif.Lemmas.Scout
import Verif.Spec.Parts

/-!
# The bookkeeping of linearizability proofs, for calls that are made up of parts

As `Lemmas/LinFrame.lean`, but a call may be added to the sequential run in parts: `st` lists those that have been
added. `own k` says that no main call can get between the parts of `k`.
-/

namespace Netscrape.Conc
open Netscrape.Spec

variable {μ κ σ Op Out : Type} [DecidableEq μ]

/-- Since the first part of `c` there are no main calls but those of `c`. -/
def Tail (main : Op → Prop) (c : Nat) (lin : List (Nat × Op × Out)) : Prop :=
  ∃ l₁ l₂, lin = l₁ ++ l₂ ∧ (∀ x ∈ l₁, x.1 ≠ c) ∧ ∀ x ∈ l₂, main x.2.1 → x.1 = c

omit [DecidableEq μ] in
theorem partsOf_append_self (c : Nat) (x : Op × Out) (lin : List (Nat × Op × Out)) :
    partsOf c (lin ++ [(c, x)]) = partsOf c lin ++ [x] := by
  simp [partsOf]

omit [DecidableEq μ] in
theorem partsOf_append_ne {c i : Nat} (h : i ≠ c) (x : Op × Out) (lin : List (Nat × Op × Out)) :
    partsOf c (lin ++ [(i, x)]) = partsOf c lin := by
  simp [partsOf, h]

omit [DecidableEq μ] in
theorem partsOf_nil {c : Nat} {lin : List (Nat × Op × Out)} (h : partsOf c lin = []) : ∀ x ∈ lin, x.1 ≠ c := by
  intro x hx e
  have : x ∈ lin.filter fun x => x.1 = c := List.mem_filter.mpr ⟨hx, by simpa using e⟩
  rw [List.map_eq_nil_iff.mp h] at this
  cases this

omit [DecidableEq μ] in
theorem partsOf_none {c : Nat} {lin : List (Nat × Op × Out)} (h : ∀ x ∈ lin, x.1 ≠ c) : partsOf c lin = [] := by
  unfold partsOf
  rw [List.map_eq_nil_iff, List.filter_eq_nil_iff]
  intro x hx
  simpa using h x hx

omit [DecidableEq μ] in
/-- Pairs in a list that was extended by one. -/
theorem split_append {α : Type} {lin l₁ l₂ l₃ : List α} {x y w : α} (h : lin ++ [w] = l₁ ++ x :: (l₂ ++ y :: l₃)) :
    (∃ l₃', lin = l₁ ++ x :: (l₂ ++ y :: l₃')) ∨ (y = w ∧ lin = l₁ ++ x :: l₂) := by
  rcases List.eq_nil_or_concat l₃ with rfl | ⟨d', z', rfl⟩
  · right
    have e' : lin ++ [w] = (l₁ ++ x :: l₂) ++ [y] := by rw [h]; simp
    obtain ⟨h1, h2⟩ := List.append_inj' e' rfl
    simp only [List.cons.injEq, and_true] at h2
    exact ⟨h2.symm, h1⟩
  · left
    have e' : lin ++ [w] = (l₁ ++ x :: (l₂ ++ y :: d')) ++ [z'] := by rw [h]; simp
    obtain ⟨h1, _⟩ := List.append_inj' e' rfl
    exact ⟨d', h1⟩

omit [DecidableEq μ] in
/-- What comes after a part of `c`. -/
theorem Tail.after {main : Op → Prop} {c : Nat} {lin l₁ l₂ : List (Nat × Op × Out)} {x : Nat × Op × Out}
    (h : Tail main c lin) (e : lin = l₁ ++ x :: l₂) (hx : x.1 = c) : ∀ z ∈ l₂, main z.2.1 → z.1 = c := by
  obtain ⟨a, b, rfl, h1, h2⟩ := h
  intro z hz hm
  rcases List.append_eq_append_iff.mp e with ⟨l, rfl, hb⟩ | ⟨l, rfl, hb⟩
  · cases l with
    | nil =>
      simp only [List.nil_append] at hb
      exact h2 z (by rw [hb]; exact List.mem_cons_of_mem _ hz) hm
    | cons y l =>
      simp only [List.cons_append] at hb
      exact h2 z (by rw [hb]; simp [hz]) hm
  · cases l with
    | nil =>
      simp only [List.nil_append] at hb
      exact h2 z (by rw [← hb]; exact List.mem_cons_of_mem _ hz) hm
    | cons y l =>
      simp only [List.cons_append, List.cons.injEq] at hb
      exact absurd hx (h1 x (by rw [hb.1]; simp))

omit [DecidableEq μ] in
/-- Adding a part of a call that is in progress at the end of the run. -/
theorem explainsParts_append {S : Split Op Out} {lin : List (Nat × Op × Out)} {h : List (Ev Op Out)}
    (he : ExplainsParts S lin h) {i t : Nat} {op o : Op} {out : Out} (hin : Ev.inv i t op ∈ h)
    (huniq : ∀ t' op', Ev.inv i t' op' ∈ h → op' = op) (hpend : ∀ t' out, Ev.res i t' out ∉ h)
    (hparts : (partsOf i lin).map (fun x => x.1) ++ [o] <+: S.parts op) (hgo : ∀ x ∈ partsOf i lin, S.goesOn x.2)
    (htail : partsOf i lin = [] ∨ Tail S.main i lin) : ExplainsParts S (lin ++ [(i, o, out)]) h := by
  refine ⟨?_, ?_, ?_, ?_, ?_, ?_⟩
  · intro x hx
    rcases List.mem_append.mp hx with hx | hx
    · exact he.called x hx
    · rw [List.mem_singleton.mp hx]; exact ⟨t, op, hin⟩
  · intro c t' op' hc
    by_cases e : i = c
    · subst e
      rw [huniq t' op' hc, partsOf_append_self, List.map_append]
      exact hparts
    · rw [partsOf_append_ne e]; exact he.parts c t' op' hc
  · intro c x hx
    by_cases e : i = c
    · subst e
      rw [partsOf_append_self, List.dropLast_concat] at hx
      exact hgo x hx
    · rw [partsOf_append_ne e] at hx; exact he.stops c x hx
  · intro c t' out' hc
    have e : i ≠ c := by rintro rfl; exact hpend _ _ hc
    rw [partsOf_append_ne e]
    exact he.returned c t' out' hc
  · intro c t1 out1 c' t2 op2 hb
    obtain ⟨l₁, l₂, h1, h2, h3⟩ := he.realTime c t1 out1 c' t2 op2 hb
    refine ⟨l₁, l₂ ++ [(i, o, out)], by rw [h1, List.append_assoc], h2, ?_⟩
    intro x hx
    rcases List.mem_append.mp hx with hx | hx
    · exact h3 x hx
    · rw [List.mem_singleton.mp hx]
      rintro rfl
      exact hpend _ _ (before_mem hb).1
  · intro l₁ x l₂ y l₃ hl hxy z hz hm
    rcases split_append hl with ⟨l₃', hl'⟩ | ⟨rfl, hl'⟩
    · exact he.together l₁ x l₂ y l₃' hl' hxy z hz hm
    · rcases htail with hn | ht
      · exact absurd hxy (partsOf_nil hn x (by rw [hl']; simp))
      · rw [hxy]
        exact ht.after hl' hxy z hz hm

/-- The invariant. -/
structure PartsInv (S : Split Op Out) (own : Call μ κ σ Op Out → Prop) (I : σ → (μ → Mu) → σ → Prop)
    (A : List (Op × Out) → σ → σ → Call μ κ σ Op Out → Prop) (seq : σ → Op → σ × Out) (s : σ)
    (c : Cfg μ κ σ Op Out) (lin : List (Nat × Op × Out)) (st : Nat → List (Op × Out)) : Prop where
  legal : Legal seq s lin
  explains : ExplainsParts S lin c.hist
  fresh : ∀ i t op, Ev.inv i t op ∈ c.hist → i < c.next
  uniq : ∀ i t op t' op', Ev.inv i t op ∈ c.hist → Ev.inv i t' op' ∈ c.hist → op' = op
  old : ∀ i t out, Ev.res i t out ∈ c.hist → i < c.next
  invoked : ∀ t k, c.calls t = some k → Ev.inv k.id t k.op ∈ c.hist
  pending : ∀ t k, c.calls t = some k → ∀ t' out, Ev.res k.id t' out ∉ c.hist
  distinct : ∀ t t' k k', c.calls t = some k → c.calls t' = some k' → k.id = k'.id → t = t'
  glob : I c.data c.mus (final seq s lin)
  status : ∀ t k, c.calls t = some k → partsOf k.id lin = st t
  tail : ∀ t k, c.calls t = some k → own k → Tail S.main k.id lin
  call : ∀ t k, c.calls t = some k → A (st t) c.data (final seq s lin) k

/-- Linearizability in parts from an invariant that every micro-step keeps. -/
theorem parts_linearizable {S : Split Op Out} {own : Call μ κ σ Op Out → Prop} {I : σ → (μ → Mu) → σ → Prop}
    {A : List (Op × Out) → σ → σ → Call μ κ σ Op Out → Prop}
    {prog : Op → Prog μ κ σ Out} {seq : σ → Op → σ × Out} {allowed : Op → Prop} {s : σ}
    (hinit : I s (fun _ => .init) s)
    (hcall : ∀ n op d G, allowed op → A [] d G ⟨n, op, prog op, fun _ => .init⟩ ∧ ¬ own ⟨n, op, prog op, fun _ => .init⟩)
    (hret : ∀ st d G k r, k.prog = .ret r → A st d G k → S.result k.op (st.map fun x => x.2) r)
    (htau : ∀ (c : Cfg μ κ σ Op Out) (t : Nat) (k k' : Call μ κ σ Op Out) mus d G (st : Nat → List (Op × Out)),
      Reach prog allowed s c → c.calls t = some k → micro c k = some (k', mus, d) → I c.data c.mus G →
      (∀ t k, c.calls t = some k → A (st t) c.data G k) →
      (own k' → own k ∨ st t = []) ∧
      ((A (st t) d G k' ∧ I d mus G ∧ ∀ t' q, t' ≠ t → c.calls t' = some q → A (st t') d G q) ∨
       (∃ o, (st t).map (fun x => x.1) ++ [o] <+: S.parts k.op ∧ (∀ x ∈ st t, S.goesOn x.2) ∧
        (st t = [] ∨ own k) ∧ (S.main o → ∀ t' q, t' ≠ t → c.calls t' = some q → ¬ own q) ∧
        A (st t ++ [(o, (seq G o).2)]) d (seq G o).1 k' ∧ I d mus (seq G o).1 ∧
        ∀ t' q, t' ≠ t → c.calls t' = some q → A (st t') d (seq G o).1 q)))
    {c : Cfg μ κ σ Op Out} (hr : Reach prog allowed s c) : LinearizableInParts S seq s c.hist := by
  suffices h : ∃ lin st, PartsInv S own I A seq s c lin st by
    obtain ⟨lin, st, h⟩ := h
    exact ⟨lin, h.legal, h.explains⟩
  induction hr with
  | init =>
    refine ⟨[], fun _ => [], trivial, ⟨?_, ?_, ?_, ?_, ?_, ?_⟩, ?_, ?_, ?_, ?_, ?_, ?_, hinit, ?_, ?_, ?_⟩
    · intro _ h; cases h
    · intro _ _ _ h; cases h
    · intro _ _ h; cases h
    · intro _ _ _ h; cases h
    · rintro _ _ _ _ _ _ ⟨a, b, d, h⟩
      cases a <;> cases h
    · intro l₁ _ _ _ _ h
      cases l₁ <;> cases h
    · intro _ _ _ h; cases h
    · intro _ _ _ _ _ h; cases h
    · intro _ _ _ h; cases h
    · intro _ _ h; cases h
    · intro _ _ h; cases h
    · intro _ _ _ _ h; cases h
    · intro _ _ h; cases h
    · intro _ _ h; cases h
    · intro _ _ h; cases h
  | step c c' a hrc ha hst ih =>
    obtain ⟨lin, st, hi⟩ := ih
    cases a with
    | tau t =>
      unfold Conc.step at hst
      cases hc : c.calls t with
      | none => simp only [hc, reduceCtorEq] at hst
      | some k =>
        simp only [hc] at hst
        cases hm : Conc.micro c k with
        | none => simp only [hm, reduceCtorEq] at hst
        | some r =>
          obtain ⟨k', mus, d⟩ := r
          simp only [hm, Option.some.injEq] at hst
          subst hst
          have hid : k'.id = k.id ∧ k'.op = k.op := by
            unfold micro at hm
            cases hp : k.prog <;> simp only [hp] at hm
            case ret => cases hm
            case read => cases hm; exact ⟨rfl, rfl⟩
            case write => cases hm; exact ⟨rfl, rfl⟩
            all_goals
              split at hm
              · cases hm; exact ⟨rfl, rfl⟩
              · cases hm
          have others : ∀ t' q, t' ≠ t → upd c.calls t (some k') t' = some q → c.calls t' = some q := by
            intro t' q e h
            rwa [upd_ne _ _ e] at h
          have was : ∀ tt q, upd c.calls t (some k') tt = some q → ∃ p, c.calls tt = some p ∧ p.id = q.id ∧ p.op = q.op := by
            intro tt q h
            by_cases e : tt = t
            · subst e
              simp only [upd_self, Option.some.injEq] at h
              subst h
              exact ⟨k, hc, hid.1.symm, hid.2.symm⟩
            · exact ⟨q, others tt q e h, rfl, rfl⟩
          have mk : ∀ lin' (st' : Nat → List (Op × Out)), Legal seq s lin' → ExplainsParts S lin' c.hist →
              I d mus (final seq s lin') → partsOf k.id lin' = st' t → A (st' t) d (final seq s lin') k' →
              (own k' → Tail S.main k.id lin') →
              (∀ t' q, t' ≠ t → c.calls t' = some q → partsOf q.id lin' = st' t' ∧
                A (st' t') d (final seq s lin') q ∧ (own q → Tail S.main q.id lin')) →
              ∃ lin st, PartsInv S own I A seq s { c with data := d, mus := mus, calls := upd c.calls t (some k') } lin st := by
            intro lin' st' h1 h2 h3 h4 h5 h6 h7
            refine ⟨lin', st', h1, h2, hi.fresh, hi.uniq, hi.old, ?_, ?_, ?_, h3, ?_, ?_, ?_⟩
            · intro t' q hq
              obtain ⟨p, hp, e1, e2⟩ := was t' q hq
              rw [← e1, ← e2]
              exact hi.invoked t' p hp
            · intro t' q hq
              obtain ⟨p, hp, e1, _⟩ := was t' q hq
              rw [← e1]
              exact hi.pending t' p hp
            · intro t1 t2 q1 q2 h1 h2 he
              obtain ⟨p1, g1, e1, _⟩ := was t1 q1 h1
              obtain ⟨p2, g2, e2, _⟩ := was t2 q2 h2
              exact hi.distinct t1 t2 p1 p2 g1 g2 (by rw [e1, e2, he])
            · intro t' q hq
              by_cases e : t' = t
              · subst e
                simp only [upd_self, Option.some.injEq] at hq
                subst hq
                rw [hid.1]; exact h4
              · exact (h7 t' q e (others t' q e hq)).1
            · intro t' q hq
              by_cases e : t' = t
              · subst e
                simp only [upd_self, Option.some.injEq] at hq
                subst hq
                rw [hid.1]; exact h6
              · exact (h7 t' q e (others t' q e hq)).2.2
            · intro t' q hq
              by_cases e : t' = t
              · subst e
                simp only [upd_self, Option.some.injEq] at hq
                subst hq
                exact h5
              · exact (h7 t' q e (others t' q e hq)).2.1
          obtain ⟨hown, hcase⟩ := htau c t k k' mus d _ st hrc hc hm hi.glob hi.call
          have htl : own k' → Tail S.main k.id lin := by
            intro ho
            rcases hown ho with ho | he
            · exact hi.tail t k hc ho
            · have := hi.status t k hc
              rw [he] at this
              exact ⟨lin, [], by simp, partsOf_nil this, fun x hx => by cases hx⟩
          rcases hcase with ⟨h1, h2, h3⟩ | ⟨o, g1, g2, g3, g4, h1, h2, h3⟩
          · exact mk lin st hi.legal hi.explains h2 (hi.status t k hc) h1 htl
              (fun t' q e hq => ⟨hi.status t' q hq, h3 t' q e hq, hi.tail t' q hq⟩)
          · have hs := hi.status t k hc
            have hfin := final_append seq (k.id, o, (seq (final seq s lin) o).2) lin s
            refine mk (lin ++ [(k.id, o, (seq (final seq s lin) o).2)])
              (upd st t (st t ++ [(o, (seq (final seq s lin) o).2)])) (legal_append seq _ lin s hi.legal rfl)
              (explainsParts_append hi.explains (hi.invoked t k hc)
                (fun t' op' h => hi.uniq _ _ _ t' op' (hi.invoked t k hc) h) (hi.pending t k hc) (by rw [hs]; exact g1)
                (by rw [hs]; exact g2) (g3.imp (fun e => by rw [hs]; exact e) (hi.tail t k hc)))
              (by rw [hfin]; exact h2) ?_ ?_ ?_ ?_
            · rw [upd_self, partsOf_append_self, hs]
            · rw [upd_self, hfin]; exact h1
            · intro ho
              obtain ⟨l₁, l₂, e, t1, t2⟩ := htl ho
              refine ⟨l₁, l₂ ++ [(k.id, o, (seq (final seq s lin) o).2)], by rw [e, List.append_assoc], t1, ?_⟩
              intro x hx hxm
              rcases List.mem_append.mp hx with hx | hx
              · exact t2 x hx hxm
              · rw [List.mem_singleton.mp hx]
            · intro t' q e hq
              have hne : k.id ≠ q.id := fun he => e (hi.distinct t' t q k hq hc he.symm)
              rw [upd_ne _ _ e, hfin]
              refine ⟨(partsOf_append_ne hne _ _).trans (hi.status t' q hq), h3 t' q e hq, fun ho => ?_⟩
              obtain ⟨l₁, l₂, el, t1, t2⟩ := hi.tail t' q hq ho
              refine ⟨l₁, l₂ ++ [(k.id, o, (seq (final seq s lin) o).2)], by rw [el, List.append_assoc], t1, ?_⟩
              intro x hx hxm
              rcases List.mem_append.mp hx with hx | hx
              · exact t2 x hx hxm
              · rw [List.mem_singleton.mp hx] at hxm ⊢
                exact absurd ho (g4 hxm t' q e hq)
    | call t op =>
      unfold Conc.step at hst
      cases hc : c.calls t with
      | some k => simp only [hc, reduceCtorEq] at hst
      | none =>
        simp only [hc, Option.some.injEq] at hst
        subst hst
        obtain ⟨hA, hno⟩ := hcall c.next op c.data (final seq s lin) (ha t op rfl)
        have hin : ∀ {e : Ev Op Out}, e ∈ c.hist ++ [Ev.inv c.next t op] →
            e ∈ c.hist ∨ e = Ev.inv c.next t op := fun h => by simpa using h
        have hidlt : ∀ t' k, c.calls t' = some k → k.id < c.next := fun t' k hk =>
          hi.fresh _ _ _ (hi.invoked t' k hk)
        have hlinlt : ∀ x ∈ lin, x.1 < c.next := by
          intro x hx
          obtain ⟨t', op', h⟩ := hi.explains.called x hx
          exact hi.fresh _ _ _ h
        have hnone : partsOf c.next lin = [] := partsOf_none fun x hx => Nat.ne_of_lt (hlinlt x hx)
        refine ⟨lin, upd st t [], hi.legal, ⟨?_, ?_, hi.explains.stops, ?_, ?_, hi.explains.together⟩, ?_, ?_, ?_, ?_,
          ?_, ?_, hi.glob, ?_, ?_, ?_⟩
        · intro x hx
          obtain ⟨t', op', h⟩ := hi.explains.called x hx
          exact ⟨t', op', List.mem_append_left _ h⟩
        · intro i t' op' hx
          rcases hin hx with hx | hx
          · exact hi.explains.parts i t' op' hx
          · cases hx; rw [hnone]; exact List.nil_prefix
        · intro i t' out hx
          rcases hin hx with hx | hx
          · obtain ⟨op', h1, h2⟩ := hi.explains.returned i t' out hx
            exact ⟨op', List.mem_append_left _ h1, h2⟩
          · cases hx
        · intro i t1 out i' t2 op' hb
          rcases before_of_append hb with hb | ⟨_, hb⟩
          · exact hi.explains.realTime i t1 out i' t2 op' hb
          · cases hb
            exact ⟨lin, [], by simp, fun x hx => Nat.ne_of_lt (hlinlt x hx), fun x hx => by cases hx⟩
        · intro i t' op' hx
          rcases hin hx with hx | hx
          · exact Nat.lt_succ_of_lt (hi.fresh i t' op' hx)
          · cases hx; exact Nat.lt_succ_self _
        · intro i t1 op1 t2 op2 h1 h2
          rcases hin h1 with h1 | h1
          · rcases hin h2 with h2 | h2
            · exact hi.uniq i t1 op1 t2 op2 h1 h2
            · cases h2; exact absurd (hi.fresh _ _ _ h1) (Nat.lt_irrefl _)
          · cases h1
            rcases hin h2 with h2 | h2
            · exact absurd (hi.fresh _ _ _ h2) (Nat.lt_irrefl _)
            · cases h2; rfl
        · intro i t' out hx
          rcases hin hx with hx | hx
          · exact Nat.lt_succ_of_lt (hi.old i t' out hx)
          · cases hx
        · intro t' k hk
          by_cases e : t' = t
          · subst e
            simp only [upd_self, Option.some.injEq] at hk
            subst hk
            exact List.mem_append_right _ (List.mem_singleton.mpr rfl)
          · simp only [upd_ne _ _ e] at hk
            exact List.mem_append_left _ (hi.invoked t' k hk)
        · intro t' k hk t'' out hx0
          rcases hin hx0 with hx | hx
          · by_cases e : t' = t
            · subst e
              simp only [upd_self, Option.some.injEq] at hk
              subst hk
              exact absurd (hi.old _ _ _ hx) (Nat.lt_irrefl _)
            · simp only [upd_ne _ _ e] at hk
              exact hi.pending t' k hk t'' out hx
          · cases hx
        · intro t1 t2 k1 k2 h1 h2 he
          by_cases e1 : t1 = t
          · subst e1
            simp only [upd_self, Option.some.injEq] at h1
            subst h1
            by_cases e2 : t2 = t1
            · exact e2.symm
            · simp only [upd_ne _ _ e2] at h2
              exact absurd he.symm (Nat.ne_of_lt (hidlt t2 k2 h2))
          · simp only [upd_ne _ _ e1] at h1
            by_cases e2 : t2 = t
            · subst e2
              simp only [upd_self, Option.some.injEq] at h2
              subst h2
              exact absurd he (Nat.ne_of_lt (hidlt t1 k1 h1))
            · simp only [upd_ne _ _ e2] at h2
              exact hi.distinct t1 t2 k1 k2 h1 h2 he
        · intro t' k hk
          by_cases e : t' = t
          · subst e
            simp only [upd_self, Option.some.injEq] at hk
            subst hk
            rw [upd_self]
            exact hnone
          · simp only [upd_ne _ _ e] at hk
            rw [upd_ne _ _ e]
            exact hi.status t' k hk
        · intro t' k hk ho
          by_cases e : t' = t
          · subst e
            simp only [upd_self, Option.some.injEq] at hk
            subst hk
            exact absurd ho hno
          · simp only [upd_ne _ _ e] at hk
            exact hi.tail t' k hk ho
        · intro t' k hk
          by_cases e : t' = t
          · subst e
            simp only [upd_self, Option.some.injEq] at hk
            subst hk
            rw [upd_self]
            exact hA
          · simp only [upd_ne _ _ e] at hk
            rw [upd_ne _ _ e]
            exact hi.call t' k hk
    | ret t =>
      unfold Conc.step at hst
      cases hc : c.calls t with
      | none => simp only [hc, reduceCtorEq] at hst
      | some k =>
        cases hp : k.prog with
        | ret r =>
          simp only [hc, hp, Option.some.injEq] at hst
          subst hst
          have old : ∀ t' q, upd c.calls t none t' = some q → t' ≠ t ∧ c.calls t' = some q := by
            intro t' q h
            by_cases e : t' = t
            · subst e; rw [upd_self] at h; cases h
            · rw [upd_ne _ _ e] at h; exact ⟨e, h⟩
          have hin : ∀ {e : Ev Op Out}, e ∈ c.hist ++ [Ev.res k.id t r] →
              e ∈ c.hist ∨ e = Ev.res k.id t r := fun h => by simpa using h
          have hinv : ∀ {i t' op'}, Ev.inv i t' op' ∈ c.hist ++ [Ev.res k.id t r] → Ev.inv i t' op' ∈ c.hist := by
            intro i t' op' h
            rcases hin h with h | h
            · exact h
            · cases h
          refine ⟨lin, st, hi.legal, ⟨?_, ?_, hi.explains.stops, ?_, ?_, hi.explains.together⟩, ?_, ?_, ?_, ?_, ?_, ?_,
            hi.glob, ?_, ?_, ?_⟩
          · intro x hx
            obtain ⟨t', op', h⟩ := hi.explains.called x hx
            exact ⟨t', op', List.mem_append_left _ h⟩
          · intro i t' op' hx
            exact hi.explains.parts i t' op' (hinv hx)
          · intro i t' out hx
            rcases hin hx with hx | hx
            · obtain ⟨op', h1, h2⟩ := hi.explains.returned i t' out hx
              exact ⟨op', List.mem_append_left _ h1, h2⟩
            · cases hx
              refine ⟨k.op, List.mem_append_left _ (hi.invoked t k hc), ?_⟩
              rw [hi.status t k hc]
              exact hret _ _ _ k r hp (hi.call t k hc)
          · intro i t1 out i' t2 op' hb
            rcases before_of_append hb with hb | ⟨_, hb⟩
            · exact hi.explains.realTime i t1 out i' t2 op' hb
            · cases hb
          · intro i t' op' hx
            exact hi.fresh i t' op' (hinv hx)
          · intro i t1 op1 t2 op2 h1 h2
            exact hi.uniq i t1 op1 t2 op2 (hinv h1) (hinv h2)
          · intro i t' out hx
            rcases hin hx with hx | hx
            · exact hi.old i t' out hx
            · cases hx; exact hi.fresh _ _ _ (hi.invoked t k hc)
          · intro t' q hq
            exact List.mem_append_left _ (hi.invoked t' q (old t' q hq).2)
          · intro t' q hq t'' out hx
            obtain ⟨hne, hq⟩ := old t' q hq
            rcases hin hx with hx | hx
            · exact hi.pending t' q hq t'' out hx
            · injection hx with e1
              exact hne (hi.distinct t' t q k hq hc e1)
          · intro t1 t2 k1 k2 h1 h2 he
            exact hi.distinct t1 t2 k1 k2 (old t1 k1 h1).2 (old t2 k2 h2).2 he
          · exact fun t' q hq => hi.status t' q (old t' q hq).2
          · exact fun t' q hq => hi.tail t' q (old t' q hq).2
          · exact fun t' q hq => hi.call t' q (old t' q hq).2
        | lock m' p => simp only [hc, hp, reduceCtorEq] at hst
        | acquire m' p => simp only [hc, hp, reduceCtorEq] at hst
        | unlock m' p => simp only [hc, hp, reduceCtorEq] at hst
        | rlock m' p => simp only [hc, hp, reduceCtorEq] at hst
        | runlock m' p => simp only [hc, hp, reduceCtorEq] at hst
        | read l p => simp only [hc, hp, reduceCtorEq] at hst
        | write l f p => simp only [hc, hp, reduceCtorEq] at hst

end Netscrape.Conc
