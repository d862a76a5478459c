import Verif.Lemmas.Conc
import Verif.Spec.Linearizable

/-!
# Rely and guarantee for programs with locks

As in `Lemmas.Rely`, but locks are passed through, results are described together with the state in which they are
returned, and with the states the call has seen.
-/

namespace Netscrape.Conc
open Netscrape.Spec

variable {μ κ σ Op Out : Type} [DecidableEq μ]

/-- A state of the memory, and states it has been in since a call began. -/
structure Moment (σ : Type) where
  st : σ
  past : σ → Prop

/-- From one moment to a later one. -/
structure Moment.Later (R : σ → σ → Prop) (m m' : Moment σ) : Prop where
  rel : R m.st m'.st
  past : ∀ x, m.past x → m'.past x

/-- From the moment `m` on, `p` keeps `Inv`, moves along `R` and returns something in `Q`. -/
def RGM (Inv : σ → Prop) (R : σ → σ → Prop) (Q : Out → Moment σ → Prop) : Prog μ κ σ Out → Moment σ → Prop
  | .ret r, m => Q r m
  | .read _ k, m => ∀ m' : Moment σ, m.Later R m' → Inv m'.st → m'.past m'.st → RGM Inv R Q (k m'.st) m'
  | .write _ f k, m => ∀ m' : Moment σ, m.Later R m' → Inv m'.st → m'.past m'.st →
      Inv (f m'.st) ∧ R m'.st (f m'.st) ∧ RGM Inv R Q (k m'.st) ⟨f m'.st, m'.past⟩
  | .lock _ k, m => RGM Inv R Q k m
  | .acquire _ k, m => RGM Inv R Q k m
  | .unlock _ k, m => RGM Inv R Q k m
  | .rlock _ k, m => RGM Inv R Q k m
  | .runlock _ k, m => RGM Inv R Q k m

/-- The configurations of a run so far, the present one included, newest first. -/
inductive Trace (prog : Op → Prog μ κ σ Out) (allowed : Op → Prop) (s : σ) :
    Cfg μ κ σ Op Out → List (Cfg μ κ σ Op Out) → Prop
  | init : Trace prog allowed s (.init s) [.init s]
  | step (c c' : Cfg μ κ σ Op Out) (l : List (Cfg μ κ σ Op Out)) (a : Act Op) : Trace prog allowed s c l →
      (∀ t op, a = .call t op → allowed op) → Conc.step prog c a = some c' → Trace prog allowed s c' (c' :: l)

/-- The memory was in state `x` at some point of the run, while call `i` was in progress. -/
def During (l : List (Cfg μ κ σ Op Out)) (i : Nat) (x : σ) : Prop :=
  ∃ c ∈ l, c.data = x ∧ ∃ t k, c.calls t = some k ∧ k.id = i

omit [DecidableEq μ] in
theorem During.cons {l : List (Cfg μ κ σ Op Out)} {i : Nat} {x : σ} (c : Cfg μ κ σ Op Out) (h : During l i x) :
    During (c :: l) i x := by
  obtain ⟨c', h1, h2⟩ := h
  exact ⟨c', List.mem_cons_of_mem _ h1, h2⟩

theorem Trace.head {prog : Op → Prog μ κ σ Out} {allowed : Op → Prop} {s : σ} {c : Cfg μ κ σ Op Out}
    {l : List (Cfg μ κ σ Op Out)} (h : Trace prog allowed s c l) : c ∈ l := by
  cases h <;> exact List.mem_cons_self

theorem trace_exec {prog : Op → Prog μ κ σ Out} {allowed : Op → Prop} {s : σ} (as : List (Act Op)) :
    ∀ {c : Cfg μ κ σ Op Out}, (∀ t op, Act.call t op ∈ as → allowed op) → exec prog (.init s) as = some c →
      ∃ l, Trace prog allowed s c l ∧ ∀ c₁ ∈ l, ∃ n, exec prog (.init s) (as.take n) = some c₁ := by
  suffices H : ∀ (done : List (Act Op)) (c₀ : Cfg μ κ σ Op Out) (l₀ : List (Cfg μ κ σ Op Out)) {c : Cfg μ κ σ Op Out},
      Trace prog allowed s c₀ l₀ → (∀ c₁ ∈ l₀, ∃ n, n ≤ done.length ∧ exec prog (.init s) (done.take n) = some c₁) →
      exec prog (.init s) done = some c₀ → (∀ t op, Act.call t op ∈ as → allowed op) → exec prog c₀ as = some c →
      ∃ l, Trace prog allowed s c l ∧ ∀ c₁ ∈ l, ∃ n, exec prog (.init s) ((done ++ as).take n) = some c₁ by
    intro c ha he
    refine H [] _ _ .init ?_ rfl ha he
    intro c₁ h1
    rw [List.mem_singleton] at h1
    subst h1
    exact ⟨0, Nat.le_refl _, rfl⟩
  induction as with
  | nil =>
    intro done c₀ l₀ c h1 h2 _ _ h5
    cases h5
    refine ⟨l₀, h1, fun c₁ hc => ?_⟩
    obtain ⟨n, _, hn⟩ := h2 c₁ hc
    exact ⟨n, by rw [List.append_nil]; exact hn⟩
  | cons a as ih =>
    intro done c₀ l₀ c h1 h2 h3 h4 h5
    rw [exec] at h5
    cases hst : step prog c₀ a with
    | none => rw [hst] at h5; cases h5
    | some c' =>
      rw [hst] at h5
      have happ : ∀ (xs ys : List (Act Op)) (c₀ : Cfg μ κ σ Op Out) {c₁ : Cfg μ κ σ Op Out},
          exec prog c₀ xs = some c₁ → exec prog c₀ (xs ++ ys) = exec prog c₁ ys := by
        intro xs ys
        induction xs with
        | nil => intro c₀ c₁ h; cases h; rfl
        | cons x xs ihx =>
          intro c₀ c₁ h
          rw [exec] at h
          rw [List.cons_append, exec]
          cases hx : step prog c₀ x with
          | none => rw [hx] at h; cases h
          | some c₂ => rw [hx] at h; exact ihx c₂ h
      have hdone : exec prog (.init s) (done ++ [a]) = some c' := by
        rw [happ done [a] _ h3, exec, hst]; rfl
      have := ih (done ++ [a]) c' (c' :: l₀) (.step c₀ c' l₀ a h1 (fun t op e => h4 t op (by simp [e])) hst) ?_ hdone
        (fun t op hm => h4 t op (List.mem_cons_of_mem _ hm)) h5
      · rw [List.append_assoc] at this
        exact this
      · intro c₁ hc
        rcases List.mem_cons.mp hc with rfl | hc
        · exact ⟨(done ++ [a]).length, Nat.le_refl _, by rw [List.take_length]; exact hdone⟩
        · obtain ⟨n, hn1, hn2⟩ := h2 c₁ hc
          refine ⟨n, Nat.le_trans hn1 (by simp), ?_⟩
          rw [List.take_append_of_le_length hn1]
          exact hn2

structure RGMInv (Inv : σ → Prop) (R : σ → σ → Prop) (Post : Op → Out → Moment σ → Prop) (c : Cfg μ κ σ Op Out)
    (l : List (Cfg μ κ σ Op Out)) : Prop where
  data : Inv c.data
  calls : ∀ t k, c.calls t = some k → Ev.inv k.id t k.op ∈ c.hist ∧
    ∃ m : Moment σ, (∀ x, m.past x → During l k.id x) ∧ R m.st c.data ∧ RGM Inv R (Post k.op) k.prog m
  res : ∀ i t out, Ev.res i t out ∈ c.hist → ∃ op, Ev.inv i t op ∈ c.hist ∧
    ∃ P, (∀ x, P x → During l i x) ∧ Post op out ⟨c.data, P⟩

theorem rgmInv {Inv : σ → Prop} {R : σ → σ → Prop} {Post : Op → Out → Moment σ → Prop} {prog : Op → Prog μ κ σ Out}
    {allowed : Op → Prop} {s : σ} (hrefl : ∀ a, R a a) (htrans : ∀ a b d, R a b → R b d → R a d) (hs : Inv s)
    (hstable : ∀ op out a b P, Post op out ⟨a, P⟩ → R a b → Post op out ⟨b, P⟩)
    (hp : ∀ op, allowed op → ∀ m : Moment σ, Inv m.st → RGM Inv R (Post op) (prog op) m) {c : Cfg μ κ σ Op Out}
    {l : List (Cfg μ κ σ Op Out)} (hr : Trace prog allowed s c l) : RGMInv Inv R Post c l := by
  induction hr with
  | init =>
    refine ⟨hs, ?_, ?_⟩
    · intro t k h; cases h
    · intro i t out h; cases h
  | step c c' l a hrc ha hst ih =>
    have hhead := hrc.head
    cases a with
    | call t op =>
      simp only [step] at hst
      cases hc : c.calls t with
      | some k => simp only [hc, reduceCtorEq] at hst
      | none =>
        simp only [hc, Option.some.injEq] at hst
        subst hst
        refine ⟨ih.data, ?_, ?_⟩
        · intro t' k hk
          by_cases e : t' = t
          · subst e
            simp only [upd_self, Option.some.injEq] at hk
            subst hk
            exact ⟨by simp, ⟨c.data, fun _ => False⟩, fun _ h => h.elim, hrefl _, hp op (ha t' op rfl) _ ih.data⟩
          · simp only [upd_ne _ _ e] at hk
            obtain ⟨h1, h2⟩ := ih.calls t' k hk
            obtain ⟨m, h3, h4⟩ := h2
            exact ⟨by simp [h1], m, fun x hx => (h3 x hx).cons _, h4⟩
        · intro i t' out h
          simp only [List.mem_append, List.mem_singleton, reduceCtorEq, or_false] at h
          obtain ⟨op', h1, P, h2, h3⟩ := ih.res i t' out h
          exact ⟨op', by simp [h1], P, fun x hx => (h2 x hx).cons _, h3⟩
    | tau t =>
      simp only [step] at hst
      cases hc : c.calls t with
      | none => simp only [hc, reduceCtorEq] at hst
      | some k =>
        simp only [hc] at hst
        cases hm : micro c k with
        | none => simp only [hm, reduceCtorEq] at hst
        | some x =>
          obtain ⟨k', mus, d⟩ := x
          simp only [hm, Option.some.injEq] at hst
          subst hst
          obtain ⟨h1, m, hpast, h2, h3⟩ := ih.calls t k hc
          have key : Inv d ∧ R c.data d ∧ k'.id = k.id ∧ k'.op = k.op ∧
              ∃ m : Moment σ, (∀ x, m.past x → During l k.id x) ∧ R m.st d ∧ RGM Inv R (Post k.op) k'.prog m := by
            have hnow : ∀ x, m.past x ∨ x = c.data → During l k.id x := by
              rintro x (hx | rfl)
              · exact hpast x hx
              · exact ⟨c, hhead, rfl, t, k, hc, rfl⟩
            unfold micro at hm
            cases hpk : k.prog with
            | ret r => simp only [hpk, reduceCtorEq] at hm
            | read l q =>
              rw [hpk] at h3
              simp only [hpk, Option.some.injEq, Prod.mk.injEq] at hm
              obtain ⟨rfl, rfl, rfl⟩ := hm
              exact ⟨ih.data, hrefl _, rfl, rfl, ⟨c.data, fun x => m.past x ∨ x = c.data⟩, hnow, hrefl _,
                h3 ⟨c.data, fun x => m.past x ∨ x = c.data⟩ ⟨h2, fun _ => .inl⟩ ih.data (.inr rfl)⟩
            | write l f q =>
              rw [hpk] at h3
              simp only [hpk, Option.some.injEq, Prod.mk.injEq] at hm
              obtain ⟨rfl, rfl, rfl⟩ := hm
              obtain ⟨a1, a2, a3⟩ := h3 ⟨c.data, fun x => m.past x ∨ x = c.data⟩ ⟨h2, fun _ => .inl⟩ ih.data (.inr rfl)
              exact ⟨a1, a2, rfl, rfl, ⟨f c.data, fun x => m.past x ∨ x = c.data⟩, hnow, hrefl _, a3⟩
            | lock _ q | acquire _ q | unlock _ q | rlock _ q | runlock _ q =>
              rw [hpk] at h3
              simp only [hpk] at hm
              split at hm
              · simp only [Option.some.injEq, Prod.mk.injEq] at hm
                obtain ⟨rfl, rfl, rfl⟩ := hm
                exact ⟨ih.data, hrefl _, rfl, rfl, m, hpast, h2, h3⟩
              · cases hm
          obtain ⟨k1, k2, k3, k4, k5⟩ := key
          refine ⟨k1, ?_, ?_⟩
          · intro t' q hq
            by_cases e : t' = t
            · subst e
              simp only [upd_self, Option.some.injEq] at hq
              subst hq
              rw [k3, k4]
              obtain ⟨m', a1, a2⟩ := k5
              exact ⟨h1, m', fun x hx => (a1 x hx).cons _, a2⟩
            · simp only [upd_ne _ _ e] at hq
              obtain ⟨a1, m', a2, a3, a4⟩ := ih.calls t' q hq
              exact ⟨a1, m', fun x hx => (a2 x hx).cons _, htrans _ _ _ a3 k2, a4⟩
          · intro i t' out h
            obtain ⟨op', a1, P, a2, a3⟩ := ih.res i t' out h
            exact ⟨op', a1, P, fun x hx => (a2 x hx).cons _, hstable _ _ _ _ _ a3 k2⟩
    | ret t =>
      simp only [step] at hst
      cases hc : c.calls t with
      | none => simp only [hc, reduceCtorEq] at hst
      | some k =>
        obtain ⟨h1, m, hpast, h2, h3⟩ := ih.calls t k hc
        cases hpk : k.prog with
        | ret r =>
          simp only [hc, hpk, Option.some.injEq] at hst
          subst hst
          rw [hpk] at h3
          refine ⟨ih.data, ?_, ?_⟩
          · intro t' q hq
            by_cases e : t' = t
            · subst e
              simp only [upd_self, reduceCtorEq] at hq
            · simp only [upd_ne _ _ e] at hq
              obtain ⟨a1, m', a2, a3⟩ := ih.calls t' q hq
              exact ⟨by simp [a1], m', fun x hx => (a2 x hx).cons _, a3⟩
          · intro i t' out h
            simp only [List.mem_append, List.mem_singleton, Ev.res.injEq] at h
            rcases h with h | ⟨rfl, rfl, rfl⟩
            · obtain ⟨op', a1, P, a2, a3⟩ := ih.res i t' out h
              exact ⟨op', by simp [a1], P, fun x hx => (a2 x hx).cons _, a3⟩
            · exact ⟨k.op, by simp [h1], m.past, fun x hx => (hpast x hx).cons _, hstable _ _ _ _ _ h3 h2⟩
        | _ => simp only [hc, hpk, reduceCtorEq] at hst

end Netscrape.Conc
