import Verif.Lemmas.Linearizable
import Verif.Model.PlanConc

/-!
# The plan's method bodies, run alone, compute what the sequential model says
-/

namespace Netscrape.Plan
open Netscrape.Conc

theorem eval_range (p : Simple) (es : List (String × Resource)) :
    (∀ e ∈ es, p.index.get? e.1 = some e.2) → ∀ acc,
    (rangeBody (es.map Prod.fst) acc).eval p = (p, .all (acc ++ es.map Prod.snd)) := by
  induction es with
  | nil => intro _ acc; simp only [List.map_nil, rangeBody, Prog.eval, List.append_nil]
  | cons e es ih =>
    intro h acc
    simp only [List.map_cons, rangeBody, Prog.eval, h e (by simp)]
    rw [ih (fun x hx => h x (by simp [hx]))]
    simp

theorem eval_prog (op : Op) (p : Simple) : (prog op).eval p = step p op := by
  cases op with
  | add r => exact eval_excl _ _ _
  | get u =>
    refine (eval_shared _ _ _).trans ?_
    simp only [getBody, Prog.eval, step, get]
    cases p.index.get? u.str <;> rfl
  | getAll o =>
    refine (eval_shared _ _ _).trans ?_
    simp only [getAllBody, Prog.eval, step, getAll]
    rw [eval_range]
    · rfl
    · intro e he
      exact (GoMap.get?_eq_some _ _ _).mpr ((Order.mem_run _ _ _).mp he)
  | delete u => exact eval_excl _ _ _

theorem inside_range (ks : List String) : ∀ acc, Inside () False (rangeBody ks acc) := by
  induction ks with
  | nil => intro acc; trivial
  | cons k ks ih =>
    intro acc p
    dsimp only
    split <;> exact ih _

theorem one_prog (op : Op) : One () (prog op) .pre := by
  cases op with
  | add r => exact one_excl ⟨trivial, fun _ => trivial⟩
  | get u => exact one_shared (fun p => by dsimp only; split <;> trivial)
  | getAll o => exact one_shared (fun p => inside_range _ _)
  | delete u => exact one_excl ⟨trivial, fun _ => trivial⟩

end Netscrape.Plan
