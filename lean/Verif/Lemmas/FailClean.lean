import Verif.Lemmas.Conc
import Verif.Lemmas.GraphAttrs
import Verif.Spec.FailClean

/-!
# Calls that fail change nothing
-/

namespace Netscrape.Conc
open Netscrape.Spec

variable {μ κ σ Op Out α β : Type} [DecidableEq μ]

/-- Whatever happens, `p` returns something in `B`. -/
def Only {μ κ σ Out : Type} (B : Out → Prop) : Prog μ κ σ Out → Prop
  | .ret r => B r
  | .lock _ k => Only B k
  | .acquire _ k => Only B k
  | .unlock _ k => Only B k
  | .rlock _ k => Only B k
  | .runlock _ k => Only B k
  | .read _ k => ∀ s, Only B (k s)
  | .write _ _ k => ∀ s, Only B (k s)

/-- Once `p` has changed something, it returns something in `B`. -/
def Clean {μ κ σ Out : Type} (same : σ → σ → Prop) (B : Out → Prop) : Prog μ κ σ Out → Prop
  | .ret _ => True
  | .lock _ k => Clean same B k
  | .acquire _ k => Clean same B k
  | .unlock _ k => Clean same B k
  | .rlock _ k => Clean same B k
  | .runlock _ k => Clean same B k
  | .read _ k => ∀ s, Clean same B (k s)
  | .write _ f k => ∀ s, (same s (f s) ∧ Clean same B (k s)) ∨ Only B (k s)

omit [DecidableEq μ] in
theorem Only.clean {same : σ → σ → Prop} {B : Out → Prop} {p : Prog μ κ σ Out} (h : Only B p) : Clean same B p := by
  induction p with
  | ret a => trivial
  | lock m k ih => exact ih h
  | acquire m k ih => exact ih h
  | unlock m k ih => exact ih h
  | rlock m k ih => exact ih h
  | runlock m k ih => exact ih h
  | read l k ih => exact fun s => ih s (h s)
  | write l g k ih => exact fun s => .inr (h s)

omit [DecidableEq μ] in
theorem Only.bind {B : α → Prop} {B' : β → Prop} {f : α → Prog μ κ σ β} (hf : ∀ a, B a → Only B' (f a))
    {p : Prog μ κ σ α} (hp : Only B p) : Only B' (p.bind f) := by
  induction p with
  | ret a => exact hf a hp
  | lock m k ih => exact ih hp
  | acquire m k ih => exact ih hp
  | unlock m k ih => exact ih hp
  | rlock m k ih => exact ih hp
  | runlock m k ih => exact ih hp
  | read l k ih => exact fun s => ih s (hp s)
  | write l g k ih => exact fun s => ih s (hp s)

omit [DecidableEq μ] in
theorem Clean.bind {same : σ → σ → Prop} {B : α → Prop} {B' : β → Prop} {f : α → Prog μ κ σ β}
    (hc : ∀ a, Clean same B' (f a)) (hf : ∀ a, B a → Only B' (f a))
    {p : Prog μ κ σ α} (hp : Clean same B p) : Clean same B' (p.bind f) := by
  induction p with
  | ret a => exact hc a
  | lock m k ih => exact ih hp
  | acquire m k ih => exact ih hp
  | unlock m k ih => exact ih hp
  | rlock m k ih => exact ih hp
  | runlock m k ih => exact ih hp
  | read l k ih => exact fun s => ih s (hp s)
  | write l g k ih =>
    intro s
    rcases hp s with ⟨h1, h2⟩ | h
    · exact .inl ⟨h1, ih s h2⟩
    · exact .inr (h.bind hf)

omit [DecidableEq μ] in
theorem Clean.mono {same same' : σ → σ → Prop} (h : ∀ s s', same s s' → same' s s') {B : Out → Prop} {p : Prog μ κ σ Out}
    (hp : Clean same B p) : Clean same' B p := by
  induction p with
  | ret a => trivial
  | lock m k ih => exact ih hp
  | acquire m k ih => exact ih hp
  | unlock m k ih => exact ih hp
  | rlock m k ih => exact ih hp
  | runlock m k ih => exact ih hp
  | read l k ih => exact fun s => ih s (hp s)
  | write l g k ih => exact fun s => (hp s).imp (fun x => ⟨h _ _ x.1, ih s x.2⟩) id

omit [DecidableEq μ] in
theorem Clean.map {same : σ → σ → Prop} {B : α → Prop} {B' : β → Prop} {f : α → β} (hf : ∀ a, B a → B' (f a))
    {p : Prog μ κ σ α} (hp : Clean same B p) : Clean same B' (p.bind fun a => .ret (f a)) :=
  Clean.bind (f := fun a => .ret (f a)) (fun _ => True.intro) hf hp

omit [DecidableEq μ] in
theorem Clean.excl {same : σ → σ → Prop} {B : Out → Prop} {p : Prog μ κ σ Out} (m : μ) (hp : Clean same B p) :
    Clean same B (p.excl m) :=
  Clean.bind (f := fun r => .unlock m (.ret r)) (fun _ => True.intro) (fun _ h => h) hp

omit [DecidableEq μ] in
theorem Clean.shared {same : σ → σ → Prop} {B : Out → Prop} {p : Prog μ κ σ Out} (m : μ) (hp : Clean same B p) :
    Clean same B (p.shared m) :=
  Clean.bind (f := fun r => .runlock m (.ret r)) (fun _ => True.intro) (fun _ h => h) hp

omit [DecidableEq μ] in
theorem Only.eval {B : Out → Prop} {p : Prog μ κ σ Out} (hp : Only B p) : ∀ s, B (p.eval s).2 := by
  induction p with
  | ret a => exact fun _ => hp
  | lock m k ih => exact ih hp
  | acquire m k ih => exact ih hp
  | unlock m k ih => exact ih hp
  | rlock m k ih => exact ih hp
  | runlock m k ih => exact ih hp
  | read l k ih => exact fun s => ih s (hp s) s
  | write l g k ih => exact fun s => ih s (hp s) (g s)

omit [DecidableEq μ] in
theorem Clean.eval {same : σ → σ → Prop} (h1 : ∀ s, same s s) (h2 : ∀ a b c, same a b → same b c → same a c)
    {B : Out → Prop} {p : Prog μ κ σ Out} (hp : Clean same B p) : ∀ s, same s (p.eval s).1 ∨ B (p.eval s).2 := by
  induction p with
  | ret a => exact fun s => .inl (h1 s)
  | lock m k ih => exact ih hp
  | acquire m k ih => exact ih hp
  | unlock m k ih => exact ih hp
  | rlock m k ih => exact ih hp
  | runlock m k ih => exact ih hp
  | read l k ih => exact fun s => ih s (hp s) s
  | write l g k ih =>
    intro s
    rcases hp s with ⟨h3, h4⟩ | h
    · rcases ih s h4 (g s) with h | h
      · exact .inl (h2 _ _ _ h3 h)
      · exact .inr h
    · exact .inr (h.eval (g s))

/-- One step of a call. -/
theorem micro_clean {same : σ → σ → Prop} (hsame : ∀ s, same s s) {B : Out → Prop} {c : Cfg μ κ σ Op Out}
    {k k' : Call μ κ σ Op Out} {mus : μ → Mu} {d : σ} (hm : micro c k = some (k', mus, d)) :
    k'.id = k.id ∧ k'.op = k.op ∧ (Only B k.prog → Only B k'.prog) ∧
    (Clean same B k.prog → (same c.data d ∧ Clean same B k'.prog) ∨ Only B k'.prog) := by
  unfold micro at hm
  cases hpk : k.prog with
  | ret r => simp only [hpk, reduceCtorEq] at hm
  | read l q =>
    simp only [hpk, Option.some.injEq, Prod.mk.injEq] at hm
    obtain ⟨rfl, rfl, rfl⟩ := hm
    exact ⟨rfl, rfl, fun h => h _, fun h => .inl ⟨hsame _, h _⟩⟩
  | write l f q =>
    simp only [hpk, Option.some.injEq, Prod.mk.injEq] at hm
    obtain ⟨rfl, rfl, rfl⟩ := hm
    exact ⟨rfl, rfl, fun h => h _, fun h => h _⟩
  | lock m q =>
    simp only [hpk] at hm
    split at hm
    · simp only [Option.some.injEq, Prod.mk.injEq] at hm
      obtain ⟨rfl, rfl, rfl⟩ := hm
      exact ⟨rfl, rfl, fun h => h, fun h => .inl ⟨hsame _, h⟩⟩
    · cases hm
  | acquire m q =>
    simp only [hpk] at hm
    split at hm
    · simp only [Option.some.injEq, Prod.mk.injEq] at hm
      obtain ⟨rfl, rfl, rfl⟩ := hm
      exact ⟨rfl, rfl, fun h => h, fun h => .inl ⟨hsame _, h⟩⟩
    · cases hm
  | unlock m q =>
    simp only [hpk] at hm
    split at hm
    · simp only [Option.some.injEq, Prod.mk.injEq] at hm
      obtain ⟨rfl, rfl, rfl⟩ := hm
      exact ⟨rfl, rfl, fun h => h, fun h => .inl ⟨hsame _, h⟩⟩
    · cases hm
  | rlock m q =>
    simp only [hpk] at hm
    split at hm
    · simp only [Option.some.injEq, Prod.mk.injEq] at hm
      obtain ⟨rfl, rfl, rfl⟩ := hm
      exact ⟨rfl, rfl, fun h => h, fun h => .inl ⟨hsame _, h⟩⟩
    · cases hm
  | runlock m q =>
    simp only [hpk] at hm
    split at hm
    · simp only [Option.some.injEq, Prod.mk.injEq] at hm
      obtain ⟨rfl, rfl, rfl⟩ := hm
      exact ⟨rfl, rfl, fun h => h, fun h => .inl ⟨hsame _, h⟩⟩
    · cases hm

/-- What holds of every configuration. -/
structure CleanInv (allowed : Op → Prop) (same : σ → σ → Prop) (B : Out → Prop) (c : Cfg μ κ σ Op Out) : Prop where
  calls : ∀ t k, c.calls t = some k → k.id < c.next ∧ (allowed k.op → Clean same B k.prog) ∧
    ∀ r out, Ev.res k.id r out ∉ c.hist
  uniq : ∀ t t' k k', c.calls t = some k → c.calls t' = some k' → k.id = k'.id → t = t'
  res : ∀ i r out, Ev.res i r out ∈ c.hist → i < c.next

/-- What holds once the call number `i` has changed something. -/
structure DirtyInv (B : Out → Prop) (i : Nat) (c : Cfg μ κ σ Op Out) : Prop where
  old : i < c.next
  calls : ∀ t k, c.calls t = some k → k.id = i → Only B k.prog
  res : ∀ r out, Ev.res i r out ∈ c.hist → B out

theorem dirtyInv_step {prog : Op → Prog μ κ σ Out} {B : Out → Prop} {i : Nat} {c c' : Cfg μ κ σ Op Out} {a : Act Op}
    (h : DirtyInv B i c) (hst : step prog c a = some c') : DirtyInv B i c' := by
  cases a with
  | call t op =>
    simp only [step] at hst
    cases hc : c.calls t with
    | some k => simp only [hc, reduceCtorEq] at hst
    | none =>
      simp only [hc, Option.some.injEq] at hst
      subst hst
      refine ⟨Nat.lt_succ_of_lt h.old, ?_, ?_⟩
      · intro t' k hk hi
        by_cases e : t' = t
        · subst e
          simp only [upd_self, Option.some.injEq] at hk
          subst hk
          exact absurd hi (Nat.ne_of_gt h.old)
        · simp only [upd_ne _ _ e] at hk
          exact h.calls t' k hk hi
      · intro r out hr
        rcases List.mem_append.mp hr with hr | hr
        · exact h.res r out hr
        · simp at hr
  | tau t =>
    simp only [step] at hst
    cases hc : c.calls t with
    | none => simp only [hc, reduceCtorEq] at hst
    | some k =>
      simp only [hc] at hst
      cases hm : micro c k with
      | none => simp only [hm, reduceCtorEq] at hst
      | some x =>
        obtain ⟨k', mus, d⟩ := x
        simp only [hm, Option.some.injEq] at hst
        subst hst
        obtain ⟨h1, -, h3, -⟩ := micro_clean (same := fun _ _ => True) (fun _ => trivial) (B := B) hm
        refine ⟨h.old, ?_, h.res⟩
        intro t' q hq hi
        by_cases e : t' = t
        · subst e
          simp only [upd_self, Option.some.injEq] at hq
          subst hq
          exact h3 (h.calls t' k hc (h1 ▸ hi))
        · simp only [upd_ne _ _ e] at hq
          exact h.calls t' q hq hi
  | ret t =>
    simp only [step] at hst
    cases hc : c.calls t with
    | none => simp only [hc, reduceCtorEq] at hst
    | some k =>
      simp only [hc] at hst
      cases hpk : k.prog with
      | ret r =>
        simp only [hpk, Option.some.injEq] at hst
        subst hst
        refine ⟨h.old, ?_, ?_⟩
        · intro t' q hq hi
          by_cases e : t' = t
          · subst e
            simp only [upd_self, reduceCtorEq] at hq
          · simp only [upd_ne _ _ e] at hq
            exact h.calls t' q hq hi
        · intro r' out hr
          rcases List.mem_append.mp hr with hr | hr
          · exact h.res r' out hr
          · simp only [List.mem_singleton, Ev.res.injEq] at hr
            obtain ⟨e1, -, rfl⟩ := hr
            have := h.calls t k hc e1.symm
            rwa [hpk] at this
      | lock m q => simp only [hpk, reduceCtorEq] at hst
      | acquire m q => simp only [hpk, reduceCtorEq] at hst
      | unlock m q => simp only [hpk, reduceCtorEq] at hst
      | rlock m q => simp only [hpk, reduceCtorEq] at hst
      | runlock m q => simp only [hpk, reduceCtorEq] at hst
      | read l q => simp only [hpk, reduceCtorEq] at hst
      | write l f q => simp only [hpk, reduceCtorEq] at hst

theorem dirtyInv_exec {prog : Op → Prog μ κ σ Out} {B : Out → Prop} {i : Nat} {as : List (Act Op)} :
    ∀ {c c' : Cfg μ κ σ Op Out}, DirtyInv B i c → exec prog c as = some c' → DirtyInv B i c' := by
  induction as with
  | nil =>
    intro c c' h he
    cases he
    exact h
  | cons a as ih =>
    intro c c' h he
    simp only [exec] at he
    cases hst : step prog c a with
    | none => simp only [hst, reduceCtorEq] at he
    | some c1 =>
      simp only [hst] at he
      exact ih (dirtyInv_step h hst) he

theorem cleanInv {prog : Op → Prog μ κ σ Out} {allowed : Op → Prop} {same : σ → σ → Prop} (hsame : ∀ s, same s s)
    {B : Out → Prop} (hp : ∀ op, allowed op → Clean same B (prog op)) {s : σ} {c : Cfg μ κ σ Op Out}
    (hr : Reach prog (fun _ => True) s c) : CleanInv allowed same B c := by
  induction hr with
  | init =>
    refine ⟨?_, ?_, ?_⟩
    · intro t k h; cases h
    · intro t t' k k' h; cases h
    · intro i r out h; cases h
  | step c c' a _ _ hst ih =>
    cases a with
    | call t op =>
      simp only [step] at hst
      cases hc : c.calls t with
      | some k => simp only [hc, reduceCtorEq] at hst
      | none =>
        simp only [hc, Option.some.injEq] at hst
        subst hst
        have hres : ∀ i r out, Ev.res i r out ∈ c.hist ++ [Ev.inv c.next t op] → Ev.res i r out ∈ c.hist := by
          intro i r out h
          rcases List.mem_append.mp h with h | h
          · exact h
          · simp at h
        refine ⟨?_, ?_, ?_⟩
        · intro t' k hk
          by_cases e : t' = t
          · subst e
            simp only [upd_self, Option.some.injEq] at hk
            subst hk
            exact ⟨Nat.lt_succ_self _, hp op, fun r out h => Nat.lt_irrefl _ (ih.res _ r out (hres _ r out h))⟩
          · simp only [upd_ne _ _ e] at hk
            obtain ⟨h1, h2, h3⟩ := ih.calls t' k hk
            exact ⟨Nat.lt_succ_of_lt h1, h2, fun r out h => h3 r out (hres _ r out h)⟩
        · intro t1 t2 k1 k2 hk1 hk2 hi
          by_cases e1 : t1 = t <;> by_cases e2 : t2 = t
          · rw [e1, e2]
          · subst e1
            simp only [upd_self, Option.some.injEq, upd_ne _ _ e2] at hk1 hk2
            subst hk1
            exact absurd hi (Nat.ne_of_gt (ih.calls t2 k2 hk2).1)
          · subst e2
            simp only [upd_self, Option.some.injEq, upd_ne _ _ e1] at hk1 hk2
            subst hk2
            exact absurd hi (Nat.ne_of_lt (ih.calls t1 k1 hk1).1)
          · simp only [upd_ne _ _ e1, upd_ne _ _ e2] at hk1 hk2
            exact ih.uniq t1 t2 k1 k2 hk1 hk2 hi
        · exact fun i r out h => Nat.lt_succ_of_lt (ih.res i r out (hres i r out h))
    | tau t =>
      simp only [step] at hst
      cases hc : c.calls t with
      | none => simp only [hc, reduceCtorEq] at hst
      | some k =>
        simp only [hc] at hst
        cases hm : micro c k with
        | none => simp only [hm, reduceCtorEq] at hst
        | some x =>
          obtain ⟨k', mus, d⟩ := x
          simp only [hm, Option.some.injEq] at hst
          subst hst
          obtain ⟨h1, h2, -, h4⟩ := micro_clean hsame (B := B) hm
          obtain ⟨g1, g2, g3⟩ := ih.calls t k hc
          refine ⟨?_, ?_, ih.res⟩
          · intro t' q hq
            by_cases e : t' = t
            · subst e
              simp only [upd_self, Option.some.injEq] at hq
              subst hq
              rw [h1, h2]
              refine ⟨g1, fun ha => ?_, g3⟩
              rcases h4 (g2 ha) with h | h
              · exact h.2
              · exact h.clean
            · simp only [upd_ne _ _ e] at hq
              exact ih.calls t' q hq
          · have back : ∀ t' q, upd c.calls t (some k') t' = some q → ∃ q', c.calls t' = some q' ∧ q'.id = q.id := by
              intro t' q hq
              by_cases e : t' = t
              · subst e
                simp only [upd_self, Option.some.injEq] at hq
                subst hq
                exact ⟨k, hc, h1.symm⟩
              · simp only [upd_ne _ _ e] at hq
                exact ⟨q, hq, rfl⟩
            intro t1 t2 k1 k2 hk1 hk2 hi
            obtain ⟨q1, e1, f1⟩ := back t1 k1 hk1
            obtain ⟨q2, e2, f2⟩ := back t2 k2 hk2
            exact ih.uniq t1 t2 q1 q2 e1 e2 (by rw [f1, f2, hi])
    | ret t =>
      simp only [step] at hst
      cases hc : c.calls t with
      | none => simp only [hc, reduceCtorEq] at hst
      | some k =>
        simp only [hc] at hst
        cases hpk : k.prog with
        | ret r =>
          simp only [hpk, Option.some.injEq] at hst
          subst hst
          have back : ∀ t' q, upd c.calls t none t' = some q → t' ≠ t ∧ c.calls t' = some q := by
            intro t' q hq
            by_cases e : t' = t
            · subst e
              simp only [upd_self, reduceCtorEq] at hq
            · simp only [upd_ne _ _ e] at hq
              exact ⟨e, hq⟩
          refine ⟨?_, ?_, ?_⟩
          · intro t' q hq
            obtain ⟨e, hq⟩ := back t' q hq
            obtain ⟨h1, h2, h3⟩ := ih.calls t' q hq
            refine ⟨h1, h2, fun r' out h => ?_⟩
            rcases List.mem_append.mp h with h | h
            · exact h3 r' out h
            · simp only [List.mem_singleton, Ev.res.injEq] at h
              exact e (ih.uniq t' t q k hq hc h.1)
          · intro t1 t2 k1 k2 hk1 hk2 hi
            exact ih.uniq t1 t2 k1 k2 (back t1 k1 hk1).2 (back t2 k2 hk2).2 hi
          · intro i r' out h
            rcases List.mem_append.mp h with h | h
            · exact ih.res i r' out h
            · simp only [List.mem_singleton, Ev.res.injEq] at h
              rw [h.1]
              exact (ih.calls t k hc).1
        | lock m q => simp only [hpk, reduceCtorEq] at hst
        | acquire m q => simp only [hpk, reduceCtorEq] at hst
        | unlock m q => simp only [hpk, reduceCtorEq] at hst
        | rlock m q => simp only [hpk, reduceCtorEq] at hst
        | runlock m q => simp only [hpk, reduceCtorEq] at hst
        | read l q => simp only [hpk, reduceCtorEq] at hst
        | write l f q => simp only [hpk, reduceCtorEq] at hst

theorem failsClean {prog : Op → Prog μ κ σ Out} {allowed : Op → Prop} {same : σ → σ → Prop} (hsame : ∀ s, same s s)
    {fails : Out → Prop} (hp : ∀ op, allowed op → Clean same (fun out => ¬ fails out) (prog op)) :
    FailsClean prog allowed same fails := by
  intro s c c' c'' t k as r out hr hk ha hst hne he hmem
  have hi := cleanInv hsame hp hr
  refine (dirtyInv_exec (i := k.id) (B := fun out => ¬ fails out) ?_ he).res r out hmem
  simp only [step, hk] at hst
  cases hm : micro c k with
  | none => simp only [hm, reduceCtorEq] at hst
  | some x =>
    obtain ⟨k', mus, d⟩ := x
    simp only [hm, Option.some.injEq] at hst
    subst hst
    obtain ⟨h1, h2, h3, h4⟩ := micro_clean hsame (B := fun out => ¬ fails out) hm
    obtain ⟨g1, g2, g3⟩ := hi.calls t k hk
    refine ⟨g1, ?_, fun r out h => absurd h (g3 r out)⟩
    intro t' q hq hid
    by_cases e : t' = t
    · subst e
      simp only [upd_self, Option.some.injEq] at hq
      subst hq
      rcases h4 (g2 ha) with h | h
      · exact absurd h.1 hne
      · exact h
    · simp only [upd_ne _ _ e] at hq
      exact absurd (hi.uniq t' t q k hq hk hid) e

end Netscrape.Conc

namespace Netscrape.Graph
open Netscrape.Conc Netscrape.Spec
open Netscrape.GraphAttrs (attrsOrNew_extends mkNode_extends mkEdge_extends)

variable {μ : Type}

theorem untouched_refl (s : St) : Untouched s s := ⟨rfl, fun _ h => ⟨h, rfl⟩⟩

theorem untouched_trans (a b c : St) (h1 : Untouched a b) (h2 : Untouched b c) : Untouched a c := by
  refine ⟨h2.1.trans h1.1, fun r hr => ?_⟩
  obtain ⟨h3, h4⟩ := h1.2 r hr
  obtain ⟨h5, h6⟩ := h2.2 r h3
  exact ⟨h5, h6.trans h4⟩

theorem untouched_heap {s : St} {h : Heap} (hx : h.Extends s.heap) : Untouched s ⟨h, s.g⟩ :=
  ⟨rfl, fun _ hr => ⟨hx.valid hr, hx.read hr⟩⟩

theorem clean_newNodeN (m : μ) (o : Order (Int × Unit)) (e : NEnt) (opts : List Opt) (B : Res Err Node → Prop) :
    Clean Untouched B (newNodeN m o e opts) := by
  intro s
  dsimp only
  split
  · trivial
  · cases e with
    | ent e =>
      refine fun s => .inl ⟨untouched_heap (mkNode_extends _ _ _ _), fun s' => ?_⟩
      dsimp only
      split <;> trivial
    | nil dot =>
      dsimp only
      split
      · trivial
      · exact fun s => .inl ⟨untouched_heap (attrsOrNew_extends _ _), trivial⟩

theorem clean_addNodeP (m : μ) (n : Node) (opts : List Opt) : Clean Untouched (fun r => r = .ok ()) (addNodeP m n opts) := by
  refine Clean.excl m fun s => ?_
  dsimp only
  split
  · intro s
    dsimp only
    split
    · split
      · trivial
      · exact fun s => .inr fun s => rfl
    · exact fun s => .inr rfl
  · intro s
    dsimp only
    split
    · exact .inl ⟨untouched_refl s, trivial⟩
    · exact .inr fun s => rfl

theorem clean_nodeP (m : μ) (u : Uid) (B : Res Err Node → Prop) : Clean Untouched B (nodeP m u) := by
  refine Clean.shared m fun s => ?_
  dsimp only
  split <;> trivial

theorem clean_nodeN (m : μ) (u : Option Uid) (B : Res Err Node → Prop) : Clean Untouched B (nodeN m u) := by
  cases u with
  | some u => exact clean_nodeP m u B
  | none => exact Clean.shared m trivial

theorem clean_removeNodeN (m : μ) (u : Option Uid) : Clean Untouched (fun r => r = .ok ()) (removeNodeN m u) := by
  cases u with
  | none => trivial
  | some u =>
    intro s
    dsimp only
    split
    · trivial
    · refine Clean.excl m ?_
      exact fun s => .inr fun s => rfl

theorem clean_edgeP (m : μ) (u v : Uid) (B : Res Err Edge → Prop) : Clean Untouched B (edgeP m u v) := by
  refine Clean.shared m fun s => ?_
  dsimp only
  split
  · trivial
  · intro s
    dsimp only
    split
    · trivial
    · intro s
      dsimp only
      split <;> trivial

theorem clean_edgeN (m : μ) (u v : Option Uid) (B : Res Err Edge → Prop) : Clean Untouched B (edgeN m u v) := by
  cases u with
  | none => exact Clean.shared m trivial
  | some u =>
    cases v with
    | some v => exact clean_edgeP m u v B
    | none =>
      refine Clean.shared m fun s => ?_
      dsimp only
      split <;> trivial

theorem clean_linkApplyP (m : μ) (fresh : Uid) (a : Nat) (f t : Node) (opts : List Opt) :
    Clean Untouched (fun r => ∃ e, r = .ok e) (linkApplyP m fresh a f t opts) := by
  refine Clean.excl m fun s => .inl ⟨untouched_heap (mkEdge_extends _ _ _ _ _ _), fun s' => ?_⟩
  dsimp only
  split
  · exact .inl ⟨untouched_refl s', trivial⟩
  · exact .inr ⟨_, rfl⟩

theorem clean_linkP (m : μ) (fresh : Uid) (a : Nat) (f t : Uid) (opts : List Opt) :
    Clean Untouched (fun r => ∃ e, r = .ok e) (linkP m fresh a f t opts) := by
  refine Clean.bind (B := fun _ => False) (fun r => ?_) (fun _ (h : False) => h.elim) (clean_edgeP m f t _)
  split
  · trivial
  · intro s
    dsimp only
    split
    · trivial
    · intro s
      dsimp only
      split
      · trivial
      · exact clean_linkApplyP m fresh a _ _ opts
  · trivial
  · trivial

theorem clean_linkN (m : μ) (fresh : Uid) (a : Nat) (f t : Option Uid) (opts : List Opt) :
    Clean Untouched (fun r => ∃ e, r = .ok e) (linkN m fresh a f t opts) := by
  unfold linkN
  split
  · exact clean_linkP m fresh a _ _ opts
  · refine Clean.bind (B := fun _ => False) (fun r => ?_) (fun _ (h : False) => h.elim) (clean_edgeN m _ _ _)
    split <;> trivial

theorem clean_unlinkN (m : μ) (f t : Option Uid) : Clean Untouched (fun r => r = .ok ()) (unlinkN m f t) := by
  cases f with
  | none => trivial
  | some f =>
    cases t with
    | none =>
      intro s
      dsimp only
      split <;> trivial
    | some t =>
      intro s
      dsimp only
      split
      · trivial
      · intro s
        dsimp only
        split
        · trivial
        · exact fun s => .inr rfl

theorem linkApply_extends (h : Heap) (g : WG) (fresh : Uid) (a : Nat) (f t : Node) (opts : List Opt) :
    (linkApply h g fresh a f t opts).2.2.Extends h := by
  have := mkEdge_extends h fresh a f t opts
  unfold linkApply
  dsimp only
  split <;> exact this

theorem link_extends (h : Heap) (g : WG) (fresh : Uid) (a : Nat) (f t : Uid) (opts : List Opt) :
    (link h g fresh a f t opts).2.2.Extends h := by
  unfold link
  split
  · exact .refl _
  · exact linkApply_extends _ _ _ _ _ _ _

theorem linkAll_extends (ora : SubOracle) (x y : Uid) (es : List Edge) :
    ∀ (sg : WG) (h : Heap), (linkAll ora x y es sg h).2.Extends h := by
  induction es with
  | nil => exact fun _ h => .refl h
  | cons e es ih =>
    intro sg h
    have hl := link_extends (Attrs.newCopyFrom h (ora.copy h.cells.length) e.attrs).2 sg (ora.edgeUid h.cells.length) 0 x y
      [.withAttrs (some (Attrs.newCopyFrom h (ora.copy h.cells.length) e.attrs).1), .withWeight e.weight]
    have ha : (Attrs.newCopyFrom h (ora.copy h.cells.length) e.attrs).2.Extends h := .alloc _ _
    simp only [linkAll]
    split
    · rename_i heq
      rw [heq] at hl
      exact (ih _ _).trans (hl.trans ha)
    · rename_i heq
      rw [heq] at hl
      exact hl.trans ha
    · rename_i heq
      rw [heq] at hl
      exact hl.trans ha

theorem clean_linkPeersP (ora : SubOracle) (sgNodes : GoMap Int Node) (id : Int) (x : Node) (B : Res Err WG → Prop)
    (ps : List Node) : ∀ (sg : WG) (k : WG → GProg μ (Res Err WG)), (∀ sg, Clean Untouched B (k sg)) →
      Clean Untouched B (linkPeersP ora sgNodes id x ps sg k) := by
  induction ps with
  | nil => exact fun sg k hk => hk sg
  | cons p ps ih =>
    intro sg k hk
    unfold linkPeersP
    split
    · exact ih sg k hk
    · refine fun s s' => .inl ⟨untouched_heap (linkAll_extends _ _ _ _ _ _), ?_⟩
      dsimp only
      split
      · exact ih _ k hk
      · trivial
      · trivial

theorem clean_linkNodesP (ora : SubOracle) (sgNodes : GoMap Int Node) (B : Res Err WG → Prop) (l : List (Int × Node)) :
    ∀ sg : WG, Clean (μ := μ) Untouched B (linkNodesP ora sgNodes l sg) := by
  induction l with
  | nil => exact fun _ => trivial
  | cons x l ih =>
    intro sg s
    exact clean_linkPeersP ora sgNodes x.1 x.2 B _ _ _ ih

theorem clean_subGraphN (m : μ) (ora : SubOracle) (u : Option Uid) (d : Int) (opts : List Opt) (B : Res Err WG → Prop) :
    Clean Untouched B (subGraphN m ora u d opts) := by
  cases u with
  | none => trivial
  | some u =>
    intro s
    dsimp only
    split
    · trivial
    · intro s
      dsimp only
      split
      · trivial
      · split
        · trivial
        · exact clean_linkNodesP ora _ B _ _

theorem clean_fromN (m : μ) (o : Order (Int × Edge)) (u : Option Uid) (B : Option (List Node) → Prop) :
    Clean Untouched B (fromN m o u) := by
  cases u with
  | none => trivial
  | some u =>
    refine Clean.map (f := some) (B := fun _ => False) (fun _ h => h.elim) ?_
    intro s
    dsimp only
    split
    · trivial
    · exact fun _ => trivial

theorem clean_progN (m : μ) (op : NOp) (h : ∀ n, op ≠ .addNil n) :
    Clean Untouched (fun out => ¬ GraphFails out) (progN m op) := by
  have ok : ∀ r : Res Err Unit, r = .ok () → ¬ GraphFails (.of .unit r) := by
    rintro _ rfl h
    exact h () rfl
  cases op with
  | newNode o e opts => exact Clean.map (f := NOut.of .node) (fun _ (h : False) => h.elim) (clean_newNodeN m o e opts fun _ => False)
  | addNode n opts => exact Clean.map (f := NOut.of .unit) ok (clean_addNodeP m n opts)
  | addNil n => exact absurd rfl (h n)
  | addForeign => trivial
  | node u => exact Clean.map (f := NOut.of .node) (fun _ (h : False) => h.elim) (clean_nodeN m u fun _ => False)
  | nodes o => exact fun _ => trivial
  | removeNode u => exact Clean.map (f := NOut.of .unit) ok (clean_removeNodeN m u)
  | link fresh a f t opts =>
    refine Clean.map (f := NOut.of .edge) ?_ (clean_linkN m fresh a f t opts)
    rintro _ ⟨e, rfl⟩ h
    exact h e rfl
  | edge u v => exact Clean.map (f := NOut.of .edge) (fun _ (h : False) => h.elim) (clean_edgeN m u v fun _ => False)
  | edges o => exact fun _ => trivial
  | from' o u =>
    refine Clean.bind (fun r => ?_) (fun _ (h : False) => h.elim) (clean_fromN m o u fun _ => False)
    cases r <;> trivial
  | unlink f t => exact Clean.map (f := NOut.of .unit) ok (clean_unlinkN m f t)
  | subGraph ora u d opts =>
    exact Clean.map (f := NOut.of .graph) (fun _ (h : False) => h.elim) (clean_subGraphN m ora u d opts fun _ => False)
  | dot => exact fun _ => trivial

theorem oneMore {n : Node} {s : St} {b : Gonum.Builder} (h : s.g.b.addNode n = some b) :
    OneMore n s ⟨s.heap, { s.g with b := b }⟩ := by
  unfold Gonum.Builder.addNode at h
  split at h
  · cases h
  · rename_i hn
    cases h
    refine ⟨hn, fun i => ?_, rfl, rfl, rfl, rfl, rfl⟩
    dsimp only
    rw [GoMap.get?_set]

theorem clean_addNilP (m : μ) (n : Node) (B : Res Err Unit → Prop) :
    Clean (fun s s' => Untouched s s' ∨ ∃ n, OneMore n s s') B (addNilP m n) := by
  refine Clean.excl m fun s => ?_
  dsimp only
  split
  · trivial
  · intro s
    refine .inl ⟨?_, trivial⟩
    dsimp only
    split
    · exact .inl (untouched_refl s)
    · rename_i h
      exact .inr ⟨n, oneMore h⟩

theorem clean_all (m : μ) (op : NOp) :
    Clean (fun s s' => Untouched s s' ∨ ∃ n, OneMore n s s') (fun out => ¬ GraphFails out) (progN m op) := by
  by_cases h : ∃ n, op = .addNil n
  · obtain ⟨n, rfl⟩ := h
    exact Clean.map (f := NOut.of .unit) (fun _ (h : False) => h.elim) (clean_addNilP m n fun _ => False)
  · exact (clean_progN m op fun n e => h ⟨n, e⟩).mono fun _ _ h => .inl h

end Netscrape.Graph

namespace Netscrape.Store
open Netscrape.Conc Netscrape.Spec

theorem clean_addN (o : Order (Int × Unit)) (e : Graph.NEnt) (opts : List SOpt) :
    Clean Untouched (fun r => r = .ok ()) (addN o e opts) := by
  refine Clean.bind (fun r => ?_) (fun _ (h : False) => h.elim) (Graph.clean_newNodeN Mtx.graph o e _ fun _ => False)
  split
  · trivial
  · trivial
  · split
    · refine Clean.bind (fun r => ?_) (fun r h => ?_) (Graph.clean_addNodeP Mtx.graph _ _)
      · split <;> trivial
      · subst h
        exact rfl
    · refine Clean.bind (fun r => ?_) (fun r h => ?_) (Graph.clean_addNodeP Mtx.graph _ _)
      · split <;> trivial
      · subst h
        exact rfl

theorem clean_getN (u : Option Uid) (B : Res Err Graph.Node → Prop) : Clean Untouched B (getN u) := by
  refine Clean.bind (fun r => ?_) (fun _ (h : False) => h.elim) (Graph.clean_nodeN Mtx.graph u fun _ => False)
  split <;> trivial

theorem clean_deleteN (u : Option Uid) : Clean Untouched (fun r => r = .ok ()) (deleteN u) := by
  refine Clean.bind (fun r => ?_) (fun r h => ?_) (Graph.clean_removeNodeN Mtx.graph u)
  · split <;> trivial
  · subst h
    exact rfl

theorem clean_linkN (fresh : Uid) (a : Nat) (f t : Option Uid) (opts : List SOpt) :
    Clean Untouched (fun r => r = .ok ()) (storeLinkN fresh a f t opts) := by
  refine Clean.bind (fun r => ?_) (fun r h => ?_) (Graph.clean_linkN Mtx.graph fresh a f t _)
  · split <;> trivial
  · obtain ⟨e, rfl⟩ := h
    exact rfl

theorem clean_unlinkN (f t : Option Uid) : Clean Untouched (fun r => r = .ok ()) (storeUnlinkN f t) := by
  refine Clean.bind (fun r => ?_) (fun r h => ?_) (Graph.clean_unlinkN Mtx.graph f t)
  · split <;> trivial
  · subst h
    exact rfl

theorem clean_bulkGetN (us : List (Option Uid)) (B : Res Err (List (Option Graph.Node)) → Prop) :
    ∀ l, Clean Untouched B (bulkGetN us l) := by
  induction us with
  | nil => exact fun _ => trivial
  | cons u us ih =>
    intro l
    refine Clean.bind (fun r => ?_) (fun _ (h : False) => h.elim) (clean_getN u fun _ => False)
    split
    · exact ih _
    · trivial
    · trivial

theorem clean_progN (op : NOp) (h : ¬ ManyWrites op) : Clean Untouched (fun out => ¬ StoreFails out) (progN op) := by
  have ok : ∀ r : Res Err Unit, r = .ok () → ¬ StoreFails (.unit r) := by
    rintro _ rfl h
    exact h () rfl
  cases op with
  | add o e opts => exact Clean.excl _ (Clean.map (f := COut.unit) ok (clean_addN o e opts))
  | get u => exact Clean.shared _ (Clean.map (f := COut.ent) (fun _ (h : False) => h.elim) (clean_getN u fun _ => False))
  | delete u => exact Clean.excl _ (Clean.map (f := COut.unit) ok (clean_deleteN u))
  | link fresh a f t opts => exact Clean.excl _ (Clean.map (f := COut.unit) ok (clean_linkN fresh a f t opts))
  | unlink f t => exact Clean.excl _ (Clean.map (f := COut.unit) ok (clean_unlinkN f t))
  | bulkGet us =>
    exact Clean.shared _ (Clean.map (f := COut.ents) (fun _ (h : False) => h.elim) (clean_bulkGetN us (fun _ => False) _))
  | bulkAdd es opts => exact (h trivial).elim
  | bulkDelete us => exact (h trivial).elim
  | bulkLink f us opts => exact (h trivial).elim
  | bulkUnlink f us => exact (h trivial).elim

end Netscrape.Store
