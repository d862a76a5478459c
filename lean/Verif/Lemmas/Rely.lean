import Verif.Lemmas.Conc
import Verif.Spec.Linearizable

/-!
# Rely and guarantee for programs without locks

Every access keeps an invariant of the shared state and moves it along a relation; between its accesses a call relies
on the others doing so.
-/

namespace Netscrape.Conc
open Netscrape.Spec

variable {μ κ σ Op Out : Type} [DecidableEq μ]

/-- From the state `s₀` on, `p` keeps `Inv`, moves along `R` and returns something in `Q`. -/
def RG (Inv : σ → Prop) (R : σ → σ → Prop) (Q : Out → Prop) : Prog μ κ σ Out → σ → Prop
  | .ret r, _ => Q r
  | .read _ k, s₀ => ∀ s, R s₀ s → Inv s → RG Inv R Q (k s) s
  | .write _ f k, s₀ => ∀ s, R s₀ s → Inv s → Inv (f s) ∧ R s (f s) ∧ RG Inv R Q (k s) (f s)
  | _, _ => False

structure RGInv (Inv : σ → Prop) (R : σ → σ → Prop) (Post : Op → Out → Prop) (c : Cfg μ κ σ Op Out) : Prop where
  data : Inv c.data
  calls : ∀ t k, c.calls t = some k → Ev.inv k.id t k.op ∈ c.hist ∧
    ∃ s₀, R s₀ c.data ∧ RG Inv R (Post k.op) k.prog s₀
  res : ∀ i t out, Ev.res i t out ∈ c.hist → ∃ op, Ev.inv i t op ∈ c.hist ∧ Post op out

theorem rgInv {Inv : σ → Prop} {R : σ → σ → Prop} {Post : Op → Out → Prop} {prog : Op → Prog μ κ σ Out}
    {allowed : Op → Prop} {s : σ} (hrefl : ∀ a, R a a) (htrans : ∀ a b d, R a b → R b d → R a d) (hs : Inv s)
    (hp : ∀ op, allowed op → ∀ s₀, Inv s₀ → RG Inv R (Post op) (prog op) s₀) {c : Cfg μ κ σ Op Out}
    (hr : Reach prog allowed s c) : RGInv Inv R Post c := by
  induction hr with
  | init =>
    refine ⟨hs, ?_, ?_⟩
    · intro t k h; cases h
    · intro i t out h; cases h
  | step c c' a _ ha hst ih =>
    cases a with
    | call t op =>
      simp only [step] at hst
      cases hc : c.calls t with
      | some k => simp only [hc, reduceCtorEq] at hst
      | none =>
        simp only [hc, Option.some.injEq] at hst
        subst hst
        refine ⟨ih.data, ?_, ?_⟩
        · intro t' k hk
          by_cases e : t' = t
          · subst e
            simp only [upd_self, Option.some.injEq] at hk
            subst hk
            exact ⟨by simp, c.data, hrefl _, hp op (ha t' op rfl) _ ih.data⟩
          · simp only [upd_ne _ _ e] at hk
            obtain ⟨h1, h2⟩ := ih.calls t' k hk
            exact ⟨by simp [h1], h2⟩
        · intro i t' out h
          simp only [List.mem_append, List.mem_singleton, reduceCtorEq, or_false] at h
          obtain ⟨op', h1, h2⟩ := ih.res i t' out h
          exact ⟨op', by simp [h1], h2⟩
    | tau t =>
      simp only [step] at hst
      cases hc : c.calls t with
      | none => simp only [hc, reduceCtorEq] at hst
      | some k =>
        simp only [hc] at hst
        cases hm : micro c k with
        | none => simp only [hm, reduceCtorEq] at hst
        | some x =>
          obtain ⟨k', mus, d⟩ := x
          simp only [hm, Option.some.injEq] at hst
          subst hst
          obtain ⟨h1, s₀, h2, h3⟩ := ih.calls t k hc
          have key : Inv d ∧ R c.data d ∧ k'.id = k.id ∧ k'.op = k.op ∧ RG Inv R (Post k.op) k'.prog d := by
            unfold micro at hm
            cases hpk : k.prog with
            | ret r => simp only [hpk, reduceCtorEq] at hm
            | read l q =>
              rw [hpk] at h3
              simp only [hpk, Option.some.injEq, Prod.mk.injEq] at hm
              obtain ⟨rfl, rfl, rfl⟩ := hm
              exact ⟨ih.data, hrefl _, rfl, rfl, h3 _ h2 ih.data⟩
            | write l f q =>
              rw [hpk] at h3
              simp only [hpk, Option.some.injEq, Prod.mk.injEq] at hm
              obtain ⟨rfl, rfl, rfl⟩ := hm
              obtain ⟨a1, a2, a3⟩ := h3 _ h2 ih.data
              exact ⟨a1, a2, rfl, rfl, a3⟩
            | lock m q => rw [hpk] at h3; exact h3.elim
            | acquire m q => rw [hpk] at h3; exact h3.elim
            | unlock m q => rw [hpk] at h3; exact h3.elim
            | rlock m q => rw [hpk] at h3; exact h3.elim
            | runlock m q => rw [hpk] at h3; exact h3.elim
          obtain ⟨k1, k2, k3, k4, k5⟩ := key
          refine ⟨k1, ?_, ih.res⟩
          intro t' q hq
          by_cases e : t' = t
          · subst e
            simp only [upd_self, Option.some.injEq] at hq
            subst hq
            rw [k3, k4]
            exact ⟨h1, d, hrefl _, k5⟩
          · simp only [upd_ne _ _ e] at hq
            obtain ⟨a1, s1, a2, a3⟩ := ih.calls t' q hq
            exact ⟨a1, s1, htrans _ _ _ a2 k2, a3⟩
    | ret t =>
      simp only [step] at hst
      cases hc : c.calls t with
      | none => simp only [hc, reduceCtorEq] at hst
      | some k =>
        obtain ⟨h1, s₀, h2, h3⟩ := ih.calls t k hc
        cases hpk : k.prog with
        | ret r =>
          simp only [hc, hpk, Option.some.injEq] at hst
          subst hst
          rw [hpk] at h3
          refine ⟨ih.data, ?_, ?_⟩
          · intro t' q hq
            by_cases e : t' = t
            · subst e
              simp only [upd_self, reduceCtorEq] at hq
            · simp only [upd_ne _ _ e] at hq
              obtain ⟨a1, a2⟩ := ih.calls t' q hq
              exact ⟨by simp [a1], a2⟩
          · intro i t' out h
            simp only [List.mem_append, List.mem_singleton, Ev.res.injEq] at h
            rcases h with h | ⟨rfl, rfl, rfl⟩
            · obtain ⟨op', a1, a2⟩ := ih.res i t' out h
              exact ⟨op', by simp [a1], a2⟩
            · exact ⟨k.op, by simp [h1], h3⟩
        | _ => simp only [hc, hpk, reduceCtorEq] at hst

end Netscrape.Conc
