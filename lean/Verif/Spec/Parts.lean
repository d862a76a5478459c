import Verif.Spec.Linearizable

/-!
# Calls that are made up of other calls
-/

namespace Netscrape.Spec
open Netscrape.Conc

variable {Op Out : Type}

/-- How calls are made up of parts, which are calls as well. -/
structure Split (Op Out : Type) where
  /-- The parts of a call, in order. -/
  parts : Op → List Op
  /-- The next part is executed after a part that returned this. -/
  goesOn : Out → Prop
  /-- What the call returns when the parts that were executed returned `outs`. -/
  result : Op → List Out → Out → Prop
  /-- Calls of this kind do not get between the parts of a call. -/
  main : Op → Prop

/-- The parts of call `c` in a sequential run, with what they returned. -/
def partsOf (c : Nat) (lin : List (Nat × Op × Out)) : List (Op × Out) :=
  (lin.filter fun x => x.1 = c).map fun x => x.2

/-- The sequential run `lin`, of parts, explains the concurrent history `h`: it consists of parts of calls that were
made, those of each call in order up to the last that was executed; a call that returned gave the result that
belongs to what its parts returned; if a call returned before another was made, its parts come first; and between
two parts of a call there are no main calls. -/
structure ExplainsParts (S : Split Op Out) (lin : List (Nat × Op × Out)) (h : List (Ev Op Out)) : Prop where
  called : ∀ x ∈ lin, ∃ t op, Ev.inv x.1 t op ∈ h
  parts : ∀ c t op, Ev.inv c t op ∈ h → (partsOf c lin).map (fun x => x.1) <+: S.parts op
  stops : ∀ c, ∀ x ∈ (partsOf c lin).dropLast, S.goesOn x.2
  returned : ∀ c t out, Ev.res c t out ∈ h →
    ∃ op, Ev.inv c t op ∈ h ∧ S.result op ((partsOf c lin).map fun x => x.2) out
  realTime : ∀ c t out c' t' op', Before (Ev.res c t out) (Ev.inv c' t' op') h →
    ∃ l₁ l₂, lin = l₁ ++ l₂ ∧ (∀ x ∈ l₁, x.1 ≠ c') ∧ ∀ x ∈ l₂, x.1 ≠ c
  together : ∀ l₁ x l₂ y l₃, lin = l₁ ++ x :: (l₂ ++ y :: l₃) → x.1 = y.1 → ∀ z ∈ l₂, S.main z.2.1 → z.1 = x.1

/-- The history could have been produced by executing the parts of the calls one at a time, starting in `s`. -/
def LinearizableInParts {σ : Type} (S : Split Op Out) (seq : σ → Op → σ × Out) (s : σ) (h : List (Ev Op Out)) : Prop :=
  ∃ lin, Legal seq s lin ∧ ExplainsParts S lin h

end Netscrape.Spec
