import Verif.Lemmas.CacheConc
import Verif.Lemmas.FailClean
import Verif.Lemmas.PlanConc
import Verif.Props.Linearizable
import Verif.Spec.NilPlan

/-!
# Plans and link caches with nil arguments
-/

namespace Netscrape.Plan
open Netscrape.Conc Netscrape.Spec

/-- One call. -/
def stepN (p : Simple) (op : NOp) : Simple × NOut :=
  match Spec.Plan.plain op with
  | none => (p, .panic)
  | some op => ((step p op).1, .ret (step p op).2)

theorem eval_body (b : Body) (p : Simple) : (bodyN b).eval p = ((b.eval p).1, .ret (b.eval p).2) := by
  unfold bodyN
  rw [eval_bind]
  rfl

theorem eval_progN (op : NOp) (p : Simple) : (progN op).eval p = stepN p op := by
  have h := fun op => eval_prog op p
  cases op with
  | add r =>
    cases r with
    | none => rfl
    | some r =>
      refine (eval_excl _ _ _).trans ?_
      rw [eval_body, (eval_excl _ _ _).symm.trans (h (.add r))]
      rfl
  | get u =>
    cases u with
    | none => rfl
    | some u =>
      refine (eval_shared _ _ _).trans ?_
      rw [eval_body, (eval_shared _ _ _).symm.trans (h (.get u))]
      rfl
  | getAll o =>
    refine (eval_shared _ _ _).trans ?_
    rw [eval_body, (eval_shared _ _ _).symm.trans (h (.getAll o))]
    rfl
  | delete u =>
    cases u with
    | none => rfl
    | some u =>
      refine (eval_excl _ _ _).trans ?_
      rw [eval_body, (eval_excl _ _ _).symm.trans (h (.delete u))]
      rfl

theorem one_progN (op : NOp) : One () (progN op) .pre := by
  cases op with
  | add r =>
    cases r with
    | none => exact one_excl trivial
    | some r => exact one_excl ⟨trivial, fun _ => trivial⟩
  | get u =>
    cases u with
    | none => exact one_shared trivial
    | some u => 
      refine one_shared (Inside.bind (f := fun out => .ret (NOut.ret out)) (fun _ => True.intro) fun p => ?_)
      dsimp only
      split <;> trivial
  | getAll o => 
    exact one_shared (Inside.bind (f := fun out => .ret (NOut.ret out)) (fun _ => True.intro) fun p => inside_range _ _)
  | delete u =>
    cases u with
    | none => exact one_excl trivial
    | some u => exact one_excl ⟨trivial, fun _ => trivial⟩

theorem final_stepN (pre : List (Nat × NOp × NOut)) : ∀ p : Simple,
    final stepN p pre = run p ((pre.map fun y => y.2.1).filterMap Spec.Plan.plain) := by
  induction pre with
  | nil => intro p; rfl
  | cons y pre ih =>
    intro p
    show final stepN (stepN p y.2.1).1 pre = _
    rw [ih, List.map_cons, List.filterMap_cons]
    unfold stepN
    cases Spec.Plan.plain y.2.1 <;> rfl

theorem rightN (pre : List (Nat × NOp × NOut)) (op : NOp) :
    Spec.Plan.RightN (pre.map fun y => y.2.1) op (stepN (final stepN new pre) op).2 := by
  rw [final_stepN]
  unfold Spec.Plan.RightN stepN
  cases hop : Spec.Plan.plain op with
  | none => rfl
  | some op' =>
    refine ⟨_, rfl, ?_⟩
    generalize (pre.map fun y => y.2.1).filterMap Spec.Plan.plain = l
    have h := Props.plan_right (l.map fun op => (0, op, .done)) op'
    rw [List.map_map, show ((fun y => y.2.1) ∘ fun op => ((0 : Nat), op, Out.done)) = (fun op : Op => op) from rfl,
      List.map_id'] at h
    have hf : ∀ (l : List Op) (p : Simple), final step p (l.map fun op => ((0 : Nat), op, Out.done)) = run p l := by
      intro l
      induction l with
      | nil => intro p; rfl
      | cons x l ih => intro p; exact ih _
    rw [hf] at h
    exact h

theorem clean_range (B : NOut → Prop) (ks : List String) : ∀ acc, Clean (· = ·) B (bodyN (rangeBody ks acc)) := by
  induction ks with
  | nil => intro acc; trivial
  | cons k ks ih =>
    intro acc p
    dsimp only [bodyN, Prog.bind]
    split <;> exact ih _

theorem clean_progN (op : NOp) : Clean (· = ·) (fun o => ¬ Spec.Plan.Fails o) (progN op) := by
  cases op with
  | add r =>
    cases r with
    | none => exact Clean.excl () trivial
    | some r => exact fun _ => .inr fun h => h
  | get u =>
    cases u with
    | none => exact Clean.shared () trivial
    | some u =>
      refine Clean.shared () fun p => ?_
      dsimp only
      split <;> trivial
  | getAll o => exact Clean.shared () fun p => clean_range _ _ _
  | delete u =>
    cases u with
    | none => exact Clean.excl () trivial
    | some u => exact fun _ => .inr fun h => h

end Netscrape.Plan

namespace Netscrape.Cache
open Netscrape.Conc Netscrape.Spec

/-- One call. -/
noncomputable def seqN (c : Links) (op : NOp) : Links × NOut :=
  open Classical in
  match Spec.Cache.plain op with
  | none => (c, .panic)
  | some op' => ((seq c op').1, if Spec.Cache.HasNil op then .panic else .ret (seq c op').2)

theorem eval_putAllN (up : Bool) (xs : List (Option Link)) : ∀ c, (putAllN up xs).eval c =
    (bulkPut c (Spec.Cache.beforeNil xs) up, if none ∈ xs then .panic else .ret .done) := by
  induction xs with
  | nil => intro c; rfl
  | cons x xs ih =>
    intro c
    cases x with
    | none => rfl
    | some x =>
      rw [putAllN, eval_bind, eval_put]
      simp only [Prog.eval]
      rw [ih]
      simp only [List.mem_cons, reduceCtorEq, false_or]
      rfl

theorem eval_progN (op : NOp) (c : Links) : (progN op).eval c = seqN c op := by
  cases op with
  | put x up =>
    cases x with
    | none => rfl
    | some x =>
      refine (eval_excl _ _ _).trans ?_
      rw [eval_bind, eval_put]
      simp only [seqN, Spec.Cache.plain, Option.map_some, Spec.Cache.HasNil, reduceCtorEq, if_false]
      rfl
  | bulkPut xs up =>
    refine (eval_excl _ _ _).trans ?_
    rw [eval_putAllN]
    simp only [seqN, Spec.Cache.plain, Spec.Cache.HasNil]
    by_cases h : none ∈ xs <;> simp only [h, if_true, if_false] <;> rfl
  | other op =>
    show ((prog op).bind fun out => Prog.ret (NOut.ret out)).eval c = _
    rw [eval_bind, eval_prog]
    exact Prod.ext rfl (if_neg (show ¬ Spec.Cache.HasNil (.other op) from fun h => h)).symm

theorem inside_putAllN (up : Bool) (xs : List (Option Link)) : Inside () True (putAllN up xs) := by
  induction xs with
  | nil => trivial
  | cons x xs ih =>
    cases x with
    | none => trivial
    | some x => exact Inside.bind (fun _ => ih) (inside_put x up _ trivial)

theorem one_map {μ κ σ α β : Type} [DecidableEq μ] {m : μ} {f : α → β} {p : Prog μ κ σ α} :
    ∀ {ph}, One m p ph → One m (p.bind fun a => .ret (f a)) ph := by
  induction p with
  | ret a => exact fun h => h
  | lock m' k ih =>
    intro ph h
    simp only [Conc.One, Prog.bind] at h ⊢
    split <;> rename_i e <;> simp only [e, if_true, if_false] at h <;> exact ⟨h.1, ih h.2⟩
  | acquire m' k ih =>
    intro ph h
    simp only [Conc.One, Prog.bind] at h ⊢
    split <;> rename_i e <;> simp only [e, if_true, if_false] at h <;> exact ⟨h.1, ih h.2⟩
  | unlock m' k ih =>
    intro ph h
    simp only [Conc.One, Prog.bind] at h ⊢
    split <;> rename_i e <;> simp only [e, if_true, if_false] at h <;> exact ⟨h.1, ih h.2⟩
  | rlock m' k ih =>
    intro ph h
    simp only [Conc.One, Prog.bind] at h ⊢
    split <;> rename_i e <;> simp only [e, if_true, if_false] at h <;> exact ⟨h.1, ih h.2⟩
  | runlock m' k ih =>
    intro ph h
    simp only [Conc.One, Prog.bind] at h ⊢
    split <;> rename_i e <;> simp only [e, if_true, if_false] at h <;> exact ⟨h.1, ih h.2⟩
  | read l k ih => exact fun h => ⟨h.1, fun s => ih s (h.2 s)⟩
  | write l g k ih => exact fun h => ⟨h.1, fun s => ih s (h.2 s)⟩

theorem one_progN (op : NOp) : One () (progN op) .pre := by
  cases op with
  | put x up =>
    cases x with
    | none => exact one_excl trivial
    | some x => 
      exact one_excl (Inside.bind (f := fun out => .ret (NOut.ret out)) (fun _ => True.intro) (inside_put x up _ trivial))
  | bulkPut xs up => exact one_excl (inside_putAllN up xs)
  | other op => exact one_map (one_prog op)

theorem final_seqN (pre : List (Nat × NOp × NOut)) : ∀ c : Links,
    final seqN c pre = ((pre.map fun y => y.2.1).filterMap Spec.Cache.plain).foldl (fun c op => (seq c op).1) c := by
  induction pre with
  | nil => intro p; rfl
  | cons y pre ih =>
    intro c
    show final seqN (seqN c y.2.1).1 pre = _
    rw [ih, List.map_cons, List.filterMap_cons]
    unfold seqN
    cases Spec.Cache.plain y.2.1 <;> rfl

theorem rightN (pre : List (Nat × NOp × NOut)) (op : NOp) :
    Spec.Cache.RightN (pre.map fun y => y.2.1) op (seqN (final seqN new pre) op).2 := by
  rw [final_seqN]
  generalize (pre.map fun y => y.2.1) = l
  refine ⟨fun hn => ?_, fun hn => ?_⟩
  · unfold seqN
    cases hop : Spec.Cache.plain op with
    | none => rfl
    | some op' => simp only [hn, if_true]
  · unfold seqN
    cases hop : Spec.Cache.plain op with
    | none =>
      cases op with
      | put x up =>
        cases x with
        | none => exact absurd rfl hn
        | some x => cases hop
      | bulkPut xs up => cases hop
      | other op => cases hop
    | some op' =>
      simp only [hn, if_false]
      refine ⟨op', _, rfl, rfl, ?_⟩
      have h := Props.cache_right ((l.filterMap Spec.Cache.plain).map fun op => (0, op, .done)) op'
      rw [List.map_map, show ((fun y => y.2.1) ∘ fun op => ((0 : Nat), op, COut.done)) = (fun op : COp => op) from rfl,
        List.map_id'] at h
      have hf : ∀ (l : List COp) (c : Links), final seq c (l.map fun op => ((0 : Nat), op, COut.done)) =
          l.foldl (fun c op => (seq c op).1) c := by
        intro l
        induction l with
        | nil => intro p; rfl
        | cons x l ih => intro p; exact ih _
      rw [hf] at h
      exact h

theorem only_ret {p : Prog Unit Loc Links COut} : Only (fun o => ¬ Spec.Cache.Fails o) (p.bind fun out => .ret (NOut.ret out)) := by
  induction p with
  | ret a => exact fun h => h
  | lock m k ih => exact ih
  | acquire m k ih => exact ih
  | unlock m k ih => exact ih
  | rlock m k ih => exact ih
  | runlock m k ih => exact ih
  | read l k ih => exact fun s => ih s
  | write l g k ih => exact fun s => ih s

theorem clean_progN (op : NOp) (h : ∀ xs up, op ≠ .bulkPut xs up) : Clean (· = ·) (fun o => ¬ Spec.Cache.Fails o) (progN op) := by
  cases op with
  | put x up =>
    cases x with
    | none => exact Clean.excl () trivial
    | some x => exact Clean.excl () only_ret.clean
  | bulkPut xs up => exact absurd rfl (h xs up)
  | other op => exact only_ret.clean

end Netscrape.Cache
