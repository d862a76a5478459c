import Verif.Spec.Linearizable

/-!
# Fair executions

Executions without end, in which calls may keep arriving, under a scheduler and mutexes that pass nobody over for
ever.
-/

namespace Netscrape.Spec
open Netscrape.Conc

variable {μ κ σ Op Out : Type} [DecidableEq μ]

/-- Goroutine `t`, which is in a call, can make a step or return. -/
def CanGo (prog : Op → Prog μ κ σ Out) (c : Cfg μ κ σ Op Out) (t : Nat) : Prop :=
  (step prog c (.tau t)).isSome = true ∨ (step prog c (.ret t)).isSome = true

omit [DecidableEq μ] in
/-- Goroutine `t` is about to call `RLock` or `Lock`. -/
def Asks (c : Cfg μ κ σ Op Out) (t : Nat) : Prop :=
  ∃ k m p, c.calls t = some k ∧ (k.prog = .lock m p ∨ k.prog = .rlock m p)

/-- In its call, goroutine `t` makes a step or returns. -/
def Goes (t : Nat) (a : Option (Act Op)) : Prop := a = some (.tau t) ∨ a = some (.ret t)

/-- An execution without end (`none`: nothing happens) that calls methods that satisfy `allowed`, under a fair
scheduler and mutexes that starve nobody. `turn`: a goroutine that from some moment on can always go on in its call does
so. `mutex`: one that waits to lock a mutex while it again and again could goes on. -/
structure FairExec (prog : Op → Prog μ κ σ Out) (allowed : Op → Prop) (f : Nat → Cfg μ κ σ Op Out)
    (acts : Nat → Option (Act Op)) : Prop where
  idle : ∀ n, acts n = none → f (n + 1) = f n
  step : ∀ n a, acts n = some a → (∀ t op, a = .call t op → allowed op) ∧ Conc.step prog (f n) a = some (f (n + 1))
  turn : ∀ t n, (∀ m, n ≤ m → CanGo prog (f m) t) → ∃ m, n ≤ m ∧ Goes t (acts m)
  mutex : ∀ t n, (∀ m, n ≤ m → Asks (f m) t ∧ ∃ k, m ≤ k ∧ CanGo prog (f k) t) → ∃ m, n ≤ m ∧ Goes t (acts m)

/-- Every call returns: whenever call `i` has been made, some time later it has returned. -/
def AllReturn (f : Nat → Cfg μ κ σ Op Out) : Prop :=
  ∀ n i t op, Ev.inv i t op ∈ (f n).hist → ∃ m out, Ev.res i t out ∈ (f m).hist

end Netscrape.Spec
