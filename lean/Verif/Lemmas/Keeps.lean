import Verif.Lemmas.Conc
import Verif.Spec.Linearizable

/-!
# Invariants of the shared state that every access keeps, whoever holds which lock
-/

namespace Netscrape.Conc
open Netscrape.Spec

variable {μ ν κ σ Op Out α β : Type} [DecidableEq μ]

/-- `p` keeps `I` and returns something in `Q`. -/
def Keeps {μ κ σ Out : Type} (I : σ → Prop) (Q : Out → Prop) : Prog μ κ σ Out → Prop
  | .ret r => Q r
  | .lock _ k => Keeps I Q k
  | .acquire _ k => Keeps I Q k
  | .unlock _ k => Keeps I Q k
  | .rlock _ k => Keeps I Q k
  | .runlock _ k => Keeps I Q k
  | .read _ k => ∀ s, I s → Keeps I Q (k s)
  | .write _ f k => ∀ s, I s → I (f s) ∧ Keeps I Q (k s)

omit [DecidableEq μ] in
theorem keeps_bind {I : σ → Prop} {Q : α → Prop} {R : β → Prop} {f : α → Prog μ κ σ β}
    (hf : ∀ a, Q a → Keeps I R (f a)) {p : Prog μ κ σ α} (hp : Keeps I Q p) : Keeps I R (p.bind f) := by
  induction p with
  | ret a => exact hf a hp
  | lock m k ih => exact ih hp
  | acquire m k ih => exact ih hp
  | unlock m k ih => exact ih hp
  | rlock m k ih => exact ih hp
  | runlock m k ih => exact ih hp
  | read l k ih => exact fun s hs => ih s (hp s hs)
  | write l g k ih => exact fun s hs => ⟨(hp s hs).1, ih s (hp s hs).2⟩

structure KeepsInv (I : σ → Prop) (Post : Op → Out → Prop) (c : Cfg μ κ σ Op Out) : Prop where
  data : I c.data
  calls : ∀ t k, c.calls t = some k → Ev.inv k.id t k.op ∈ c.hist ∧ Keeps I (Post k.op) k.prog
  res : ∀ i t out, Ev.res i t out ∈ c.hist → ∃ op, Ev.inv i t op ∈ c.hist ∧ Post op out

theorem keepsInv {I : σ → Prop} {Post : Op → Out → Prop} {prog : Op → Prog μ κ σ Out} {allowed : Op → Prop} {s : σ}
    (hs : I s) (hp : ∀ op, allowed op → Keeps I (Post op) (prog op)) {c : Cfg μ κ σ Op Out}
    (hr : Reach prog allowed s c) : KeepsInv I Post c := by
  induction hr with
  | init =>
    refine ⟨hs, ?_, ?_⟩
    · intro t k h; cases h
    · intro i t out h; cases h
  | step c c' a _ ha hst ih =>
    cases a with
    | call t op =>
      simp only [step] at hst
      cases hc : c.calls t with
      | some k => simp only [hc, reduceCtorEq] at hst
      | none =>
        simp only [hc, Option.some.injEq] at hst
        subst hst
        refine ⟨ih.data, ?_, ?_⟩
        · intro t' k hk
          by_cases e : t' = t
          · subst e
            simp only [upd_self, Option.some.injEq] at hk
            subst hk
            exact ⟨by simp, hp op (ha t' op rfl)⟩
          · simp only [upd_ne _ _ e] at hk
            obtain ⟨h1, h2⟩ := ih.calls t' k hk
            exact ⟨by simp [h1], h2⟩
        · intro i t' out h
          simp only [List.mem_append, List.mem_singleton, reduceCtorEq, or_false] at h
          obtain ⟨op', h1, h2⟩ := ih.res i t' out h
          exact ⟨op', by simp [h1], h2⟩
    | tau t =>
      simp only [step] at hst
      cases hc : c.calls t with
      | none => simp only [hc, reduceCtorEq] at hst
      | some k =>
        simp only [hc] at hst
        cases hm : micro c k with
        | none => simp only [hm, reduceCtorEq] at hst
        | some x =>
          obtain ⟨k', mus, d⟩ := x
          simp only [hm, Option.some.injEq] at hst
          subst hst
          obtain ⟨h1, h3⟩ := ih.calls t k hc
          have key : I d ∧ k'.id = k.id ∧ k'.op = k.op ∧ Keeps I (Post k.op) k'.prog := by
            unfold micro at hm
            cases hpk : k.prog with
            | ret r => simp only [hpk, reduceCtorEq] at hm
            | read l q =>
              rw [hpk] at h3
              simp only [hpk, Option.some.injEq, Prod.mk.injEq] at hm
              obtain ⟨rfl, rfl, rfl⟩ := hm
              exact ⟨ih.data, rfl, rfl, h3 _ ih.data⟩
            | write l f q =>
              rw [hpk] at h3
              simp only [hpk, Option.some.injEq, Prod.mk.injEq] at hm
              obtain ⟨rfl, rfl, rfl⟩ := hm
              obtain ⟨a1, a3⟩ := h3 _ ih.data
              exact ⟨a1, rfl, rfl, a3⟩
            | lock m q =>
              rw [hpk] at h3
              simp only [hpk] at hm
              split at hm
              · simp only [Option.some.injEq, Prod.mk.injEq] at hm
                obtain ⟨rfl, rfl, rfl⟩ := hm
                exact ⟨ih.data, rfl, rfl, h3⟩
              · cases hm
            | acquire m q =>
              rw [hpk] at h3
              simp only [hpk] at hm
              split at hm
              · simp only [Option.some.injEq, Prod.mk.injEq] at hm
                obtain ⟨rfl, rfl, rfl⟩ := hm
                exact ⟨ih.data, rfl, rfl, h3⟩
              · cases hm
            | unlock m q =>
              rw [hpk] at h3
              simp only [hpk] at hm
              split at hm
              · simp only [Option.some.injEq, Prod.mk.injEq] at hm
                obtain ⟨rfl, rfl, rfl⟩ := hm
                exact ⟨ih.data, rfl, rfl, h3⟩
              · cases hm
            | rlock m q =>
              rw [hpk] at h3
              simp only [hpk] at hm
              split at hm
              · simp only [Option.some.injEq, Prod.mk.injEq] at hm
                obtain ⟨rfl, rfl, rfl⟩ := hm
                exact ⟨ih.data, rfl, rfl, h3⟩
              · cases hm
            | runlock m q =>
              rw [hpk] at h3
              simp only [hpk] at hm
              split at hm
              · simp only [Option.some.injEq, Prod.mk.injEq] at hm
                obtain ⟨rfl, rfl, rfl⟩ := hm
                exact ⟨ih.data, rfl, rfl, h3⟩
              · cases hm
          obtain ⟨k1, k3, k4, k5⟩ := key
          refine ⟨k1, ?_, ih.res⟩
          intro t' q hq
          by_cases e : t' = t
          · subst e
            simp only [upd_self, Option.some.injEq] at hq
            subst hq
            rw [k3, k4]
            exact ⟨h1, k5⟩
          · simp only [upd_ne _ _ e] at hq
            exact ih.calls t' q hq
    | ret t =>
      simp only [step] at hst
      cases hc : c.calls t with
      | none => simp only [hc, reduceCtorEq] at hst
      | some k =>
        obtain ⟨h1, h3⟩ := ih.calls t k hc
        simp only [hc] at hst
        cases hpk : k.prog with
        | ret r =>
          rw [hpk] at h3
          simp only [hpk, Option.some.injEq] at hst
          subst hst
          refine ⟨ih.data, ?_, ?_⟩
          · intro t' q hq
            by_cases e : t' = t
            · subst e
              simp only [upd_self, reduceCtorEq] at hq
            · simp only [upd_ne _ _ e] at hq
              obtain ⟨a1, a2⟩ := ih.calls t' q hq
              exact ⟨by simp [a1], a2⟩
          · intro i t' out hh
            simp only [List.mem_append, List.mem_singleton, Ev.res.injEq] at hh
            rcases hh with hh | ⟨rfl, rfl, rfl⟩
            · obtain ⟨op', h4, h5⟩ := ih.res i t' out hh
              exact ⟨op', by simp [h4], h5⟩
            · exact ⟨k.op, by simp [h1], h3⟩
        | read l q => simp only [hpk, reduceCtorEq] at hst
        | write l f q => simp only [hpk, reduceCtorEq] at hst
        | lock m q => simp only [hpk, reduceCtorEq] at hst
        | acquire m q => simp only [hpk, reduceCtorEq] at hst
        | unlock m q => simp only [hpk, reduceCtorEq] at hst
        | rlock m q => simp only [hpk, reduceCtorEq] at hst
        | runlock m q => simp only [hpk, reduceCtorEq] at hst

end Netscrape.Conc
