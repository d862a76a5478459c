import Verif.Spec.Broker

/-!
# What is said about calls and goroutines of the broker
-/

namespace Netscrape.Spec.Broker
open Netscrape.Broker

/-- Is this a step of goroutine `i` itself? -/
def mine (i : Nat) : Act → Bool
  | .step j _ => i == j
  | .ret j => i == j
  | _ => false

/-- How many steps of its own a call needs at most, including the one in which it returns. -/
def bound : Op → Nat
  | .open _ => 3
  | .close => 2
  | .pub _ _ _ => 6
  | .sub _ _ => 3
  | .receive _ _ => 4
  | .unsubscribe _ => 5

/-- An execution without end in which goroutine `i` is treated fairly: if from some moment on it could always
make a step, it makes one. That includes that timers expire and handlers return. -/
structure FairTo (i : Nat) (f : Nat → St) (acts : Nat → Act) : Prop where
  step : ∀ n, Broker.step (f n) (acts n) = some (f (n + 1))
  fair : ∀ n, (∀ m, n ≤ m → ∃ a, mine i a = true ∧ (Broker.step (f m) a).isSome = true) →
    ∃ m, n ≤ m ∧ mine i (acts m) = true

/-- Goroutine `j` can end without anybody else doing anything. -/
def CanEnd (s : St) (j : Nat) : Prop := ∃ acts s',
  (∀ a ∈ acts, mine j a = true) ∧ exec s acts = some s' ∧ s'.calls j = none

end Netscrape.Spec.Broker
