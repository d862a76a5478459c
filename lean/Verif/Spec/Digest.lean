import Verif.Model.Digest
import Verif.Spec.Broker

/-!
# What is said about `Digest`
-/

namespace Netscrape.Digest
open Netscrape.Broker

/-- Somebody's call of `Unsubscribe` on subscription `x` has returned. -/
def Ended (x : Nat) (s : St) : Prop := ∃ u v, s.ops u = some (.unsubscribe x) ∧ Ev.ret u v ∈ s.log

open Classical in
/-- How many of the steps are made by the goroutine that called `Digest`. -/
noncomputable def ownSteps (ctx x : Nat) (d : DSt) : List DAct → Nat
  | [] => 0
  | a :: as =>
    match dstep ctx x d a with
    | none => 0
    | some d' => (if own d a then 1 else 0) + ownSteps ctx x d' as

/-- An execution without end in which the goroutine that called `Digest` makes steps again and again until
`Digest` returns. -/
structure Fair (ctx x : Nat) (f : Nat → DSt) (acts : Nat → DAct) : Prop where
  step : ∀ n, dstep ctx x (f n) (acts n) = some (f (n + 1))
  fair : ∀ n, (∃ v, (f n).pos = .returned v) ∨ ∃ m, n ≤ m ∧ own (f m) (acts m)

/-- Nothing makes a `Receive` with context `ctx` on subscription `x` return without a message: the context is not
cancelled, nobody called `Unsubscribe`, and the exit channel the subscription was given is not closed. -/
def Undisturbed (ctx x : Nat) (s : St) : Prop := s.b.done ctx = false ∧ (∀ u, s.ops u ≠ some (.unsubscribe x)) ∧
  ∀ o, s.b.sub x = some o → s.b.isClosed o.queue.exit = false

/-- The `Pub` calls whose message waits on channel `ch`, the next one first. -/
def waiting (ch : Nat) (l : List Ev) : List Nat :=
  (Spec.Broker.sentOn ch l).drop (Spec.Broker.tookFrom ch l).length

/-- The message of `Pub` call `p` was taken: by a call that gave it to its handler, or by somebody else's call. -/
def Delivered (p : Nat) (d : DSt) : Prop :=
  ∃ r, r ∈ Spec.Broker.takers p d.s.log ∧ (Spec.Broker.handledBy r d.s.log ≠ [] ∨ r ∉ d.recvs)

end Netscrape.Digest
