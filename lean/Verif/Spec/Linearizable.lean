import Verif.Go.RWMutex

/-!
# Linearizability, data races, deadlock
-/

namespace Netscrape.Spec
open Netscrape.Conc

/-- `x` occurs before `y` in `l`. -/
def Before {α : Type} (x y : α) (l : List α) : Prop := ∃ a b d, l = a ++ x :: (b ++ y :: d)

/-- A sequential run: the calls one after the other, each with its number and what it returns. -/
def Legal {σ Op Out : Type} (seq : σ → Op → σ × Out) : σ → List (Nat × Op × Out) → Prop
  | _, [] => True
  | s, (_, op, out) :: l => (seq s op).2 = out ∧ Legal seq (seq s op).1 l

/-- The sequential run `lin` explains the concurrent history `h`: it consists of calls that were made,
each once, including every call that returned, with the results that were returned; and if a call
returned before another was made, it comes first. (Calls still in progress may be included or
left out.) -/
structure Explains {Op Out : Type} (lin : List (Nat × Op × Out)) (h : List (Ev Op Out)) : Prop where
  once : (lin.map fun x => x.1).Nodup
  called : ∀ c op out, (c, op, out) ∈ lin → ∃ t, Ev.inv c t op ∈ h
  returned : ∀ c t out, Ev.res c t out ∈ h → ∃ op, (c, op, out) ∈ lin
  realTime : ∀ c t out c' t' op', Before (Ev.res c t out) (Ev.inv c' t' op') h →
    ∀ x', x' ∈ lin → x'.1 = c' → ∃ x, x ∈ lin ∧ x.1 = c ∧ Before x x' lin

/-- The history could have been produced by making the calls one at a time, starting in `s`. -/
def Linearizable {σ Op Out : Type} (seq : σ → Op → σ × Out) (s : σ) (h : List (Ev Op Out)) : Prop :=
  ∃ lin, Legal seq s lin ∧ Explains lin h

variable {μ κ σ Op Out : Type}

/-- The location a call is about to access, and whether it will write. -/
def access (k : Call μ κ σ Op Out) : Option (κ × Bool) :=
  match k.prog with
  | .read l _ => some (l, false)
  | .write l _ _ => some (l, true)
  | _ => none

/-- Two goroutines are about to access `l`, at least one of them to write. -/
def Race (c : Cfg μ κ σ Op Out) (l : κ) : Prop :=
  ∃ t t' k k' w, t ≠ t' ∧ c.calls t = some k ∧ c.calls t' = some k' ∧
    access k = some (l, true) ∧ access k' = some (l, w)

variable [DecidableEq μ]

/-- Calls are in progress and none of them can make a step or return. -/
def Deadlock (prog : Op → Prog μ κ σ Out) (c : Cfg μ κ σ Op Out) : Prop :=
  (∃ t k, c.calls t = some k) ∧ ∀ t, step prog c (.tau t) = none ∧ step prog c (.ret t) = none

/-- A scheduler decision that does not start a new call. -/
def Inner : Act Op → Prop
  | .call _ _ => False
  | _ => True

/-- The calls in progress in `c` run to completion, whatever the scheduler does: if no new calls are
made there is no infinite run, and a run only stops when every call has returned. -/
structure Completes (prog : Op → Prog μ κ σ Out) (c : Cfg μ κ σ Op Out) : Prop where
  finite : ¬ ∃ f : Nat → Cfg μ κ σ Op Out, f 0 = c ∧
    ∀ n, ∃ a, Inner a ∧ step prog (f n) a = some (f (n + 1))
  idle : ∀ (as : List (Act Op)) (c' : Cfg μ κ σ Op Out), (∀ a ∈ as, Inner a) →
    exec prog c as = some c' → (∀ a, Inner a → step prog c' a = none) → ∀ t, c'.calls t = none

end Netscrape.Spec
