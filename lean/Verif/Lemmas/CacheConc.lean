import Verif.Lemmas.Linearizable
import Verif.Model.CacheConc

/-!
# The cache's method bodies, run alone, compute what the sequential model says
-/

namespace Netscrape.Cache
open Netscrape.Conc

theorem eval_reset (l : Loc) (a b : Uid) (k : Body COut) (c : Links) :
    (resetBody l a b k).eval c = k.eval (l.put (reset (l.of c) a b) c) := by
  simp only [resetBody, reset, Prog.eval]
  cases (inner (l.of c) a).get? b with
  | none => rfl
  | some _ => cases l <;> rfl

theorem eval_assign (l : Loc) (a b : Uid) (x : Link) (k : Body COut) (c : Links) :
    (assignBody l a b x k).eval c = k.eval (l.put (assign (l.of c) a b x) c) := rfl

theorem eval_assignIfAbsent (l : Loc) (a b : Uid) (x : Link) (k : Body COut) (c : Links) :
    (assignIfAbsentBody l a b x k).eval c = k.eval (l.put (assignIfAbsent (l.of c) a b x) c) := by
  simp only [assignIfAbsentBody, assignIfAbsent, Prog.eval]
  cases (inner (l.of c) a).get? b with
  | none => rfl
  | some _ => cases l <;> rfl

theorem eval_put (x : Link) (up : Bool) (k : Body COut) (c : Links) :
    (putBody x up k).eval c = k.eval (put c x up) := by
  unfold putBody
  rw [eval_reset, eval_reset]
  cases up
  · simp only [Bool.false_eq_true, if_false]
    rw [eval_assignIfAbsent, eval_assignIfAbsent]
    rfl
  · simp only [if_true]
    rw [eval_assign, eval_assign]
    rfl

theorem eval_putAll (up : Bool) (xs : List Link) :
    ∀ c, (putAllBody up xs).eval c = (bulkPut c xs up, .done) := by
  induction xs with
  | nil => intro c; rfl
  | cons x xs ih => intro c; rw [putAllBody, eval_put, ih]; rfl

theorem eval_deleteAll (us : List Uid) :
    ∀ c, (deleteAllBody us).eval c = (bulkDelete c us, .done) := by
  induction us with
  | nil => intro c; rfl
  | cons u us ih => intro c; exact ih (delete c u)

theorem eval_range (l : Loc) (u : Uid) (c : Links) (k : List Link → Body COut)
    (es : List (Uid × Link)) : (∀ e ∈ es, (inner (l.of c) u).get? e.1 = some e.2) → ∀ acc,
    (rangeBody l u (es.map Prod.fst) acc k).eval c = (k (acc ++ es.map Prod.snd)).eval c := by
  induction es with
  | nil => intro _ acc; simp only [List.map_nil, rangeBody, List.append_nil]
  | cons e es ih =>
    intro h acc
    simp only [List.map_cons, rangeBody, Prog.eval, h e (by simp)]
    rw [ih (fun x hx => h x (by simp [hx]))]
    simp

theorem eval_inner (l : Loc) (o : Order (Uid × Link)) (u : Uid) (c : Links) (m : GoMap Uid Link)
    (h : (l.of c).get? u = some m) (k : List Link → Body COut) :
    (rangeBody l u ((o.run m.entries).map Prod.fst) [] k).eval c = (k (get o m)).eval c := by
  rw [eval_range]
  · rfl
  · intro e he
    simp only [inner, h, Option.getD_some]
    exact (GoMap.get?_eq_some _ _ _).mpr ((Order.mem_run _ _ _).mp he)

theorem eval_bulkGet (l : Loc) (os : Nat → Order (Uid × Link)) (c : Links) (us : List Uid) :
    ∀ i m, (bulkGetBody l os i us m).eval c = (c, .bulk (bulkGetLoop (l.of c) os i us m)) := by
  induction us with
  | nil => intro i m; rfl
  | cons u us ih =>
    intro i m
    simp only [bulkGetBody, bulkGetLoop, Prog.eval]
    cases h : (l.of c).get? u with
    | none => exact ih _ _
    | some inn =>
      dsimp only
      rw [eval_inner l (os i) u c inn h]
      exact ih _ _

theorem eval_prog (op : COp) (c : Links) : (prog op).eval c = seq c op := by
  cases op with
  | write op =>
    cases op with
    | put x up => exact (eval_excl _ _ _).trans (eval_put _ _ _ _)
    | delete u => exact eval_excl _ _ _
    | clear => exact eval_excl _ _ _
    | bulkPut xs up => exact (eval_excl _ _ _).trans (eval_putAll _ _ _)
    | bulkDelete us => exact (eval_excl _ _ _).trans (eval_deleteAll _ _)
  | getFrom o u =>
    refine (eval_shared _ _ _).trans ?_
    simp only [getBody, Prog.eval, seq, getFrom]
    cases h : (Loc.of .fr c).get? u with
    | none =>
      have h' : c.fr.get? u = none := h
      simp only [h', Prog.eval]
    | some m =>
      have h' : c.fr.get? u = some m := h
      simp only [h']
      rw [eval_inner .fr o u c m h]
      rfl
  | getTo o u =>
    refine (eval_shared _ _ _).trans ?_
    simp only [getBody, Prog.eval, seq, getTo]
    cases h : (Loc.of .to c).get? u with
    | none =>
      have h' : c.to.get? u = none := h
      simp only [h', Prog.eval]
    | some m =>
      have h' : c.to.get? u = some m := h
      simp only [h']
      rw [eval_inner .to o u c m h]
      rfl
  | bulkGetFrom os us => exact (eval_shared _ _ _).trans (eval_bulkGet _ _ _ _ _ _)
  | bulkGetTo os us => exact (eval_shared _ _ _).trans (eval_bulkGet _ _ _ _ _ _)

theorem inside_put (x : Link) (up : Bool) (k : Body COut) (hk : Inside () True k) :
    Inside () True (putBody x up k) := by
  have hassign : ∀ l a b k, Inside () True k → Inside () True (assignBody l a b x k) :=
    fun _ _ _ _ h => ⟨trivial, fun _ => h⟩
  have hreset : ∀ l a b k, Inside () True k → Inside () True (resetBody l a b k) := by
    intro l a b k h c
    dsimp only
    split
    · exact ⟨trivial, fun _ => h⟩
    · exact h
  have habs : ∀ l a b k, Inside () True k → Inside () True (assignIfAbsentBody l a b x k) := by
    intro l a b k h c
    dsimp only
    split
    · exact ⟨trivial, fun _ => h⟩
    · exact h
  refine hreset _ _ _ _ (hreset _ _ _ _ ?_)
  split
  · exact hassign _ _ _ _ (hassign _ _ _ _ hk)
  · exact habs _ _ _ _ (habs _ _ _ _ hk)

theorem inside_putAll (up : Bool) (xs : List Link) : Inside () True (putAllBody up xs) := by
  induction xs with
  | nil => trivial
  | cons x xs ih => exact inside_put x up _ ih

theorem inside_deleteAll (us : List Uid) : Inside () True (deleteAllBody us) := by
  induction us with
  | nil => trivial
  | cons u us ih => exact ⟨trivial, fun _ => ⟨trivial, fun _ => ih⟩⟩

theorem inside_range (l : Loc) (u : Uid) (k : List Link → Body COut)
    (hk : ∀ ls, Inside () False (k ls)) (vs : List Uid) :
    ∀ acc, Inside () False (rangeBody l u vs acc k) := by
  induction vs with
  | nil => exact fun acc => hk acc
  | cons v vs ih =>
    intro acc c
    dsimp only
    split <;> exact ih _

theorem inside_get (l : Loc) (o : Order (Uid × Link)) (u : Uid) : Inside () False (getBody l o u) := by
  intro c
  dsimp only
  split
  · refine inside_range _ _ _ ?_ _ _
    exact fun _ => trivial
  · trivial

theorem inside_bulkGet (l : Loc) (os : Nat → Order (Uid × Link)) (us : List Uid) :
    ∀ i m, Inside () False (bulkGetBody l os i us m) := by
  induction us with
  | nil => intro i m; trivial
  | cons u us ih =>
    intro i m c
    dsimp only
    split
    · exact ih _ _
    · exact inside_range _ _ _ (fun _ => ih _ _) _ _

theorem one_prog (op : COp) : One () (prog op) .pre := by
  cases op with
  | write op =>
    cases op with
    | put x up => exact one_excl (inside_put _ _ _ trivial)
    | delete u => exact one_excl ⟨trivial, fun _ => ⟨trivial, fun _ => trivial⟩⟩
    | clear => exact one_excl ⟨trivial, fun _ => ⟨trivial, fun _ => trivial⟩⟩
    | bulkPut xs up => exact one_excl (inside_putAll _ _)
    | bulkDelete us => exact one_excl (inside_deleteAll _)
  | getFrom o u => exact one_shared (inside_get _ _ _)
  | getTo o u => exact one_shared (inside_get _ _ _)
  | bulkGetFrom os us => exact one_shared (inside_bulkGet _ _ _ _ _)
  | bulkGetTo os us => exact one_shared (inside_bulkGet _ _ _ _ _)

end Netscrape.Cache
