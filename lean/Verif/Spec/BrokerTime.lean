import Verif.Model.BrokerTime
import Verif.Spec.Broker

/-!
# What broker options mean

The last option of a kind counts; a timeout of zero is as good as none.
-/

namespace Netscrape.Spec.Broker
open Netscrape.Broker

/-- The capacity asked for, if any. -/
def capOf (opts : List Opt) : Option Int :=
  (opts.filterMap fun | .withCap c => some c | _ => none).getLast?

/-- The sink asked for, if any. -/
def sinkOf (opts : List Opt) : Option Int :=
  (opts.filterMap fun | .withSink s => some s | _ => none).getLast?

/-- The publish timeout asked for, if any. -/
def pubTimeoutOf (opts : List Opt) : Option Int :=
  ((opts.filterMap fun | .withPubTimeout d => some d | _ => none).getLast?).filter (· ≠ 0)

/-- The receive timeout asked for, if any. -/
def recvTimeoutOf (opts : List Opt) : Option Int :=
  ((opts.filterMap fun | .withSubTimeout d => some d | _ => none).getLast?).filter (· ≠ 0)

/-- Five seconds, in nanoseconds. -/
def fiveSeconds : Int := 5 * 1000 * 1000 * 1000

/-- How long `Pub` waits: what the call asks for, else what the broker was made with, else five seconds. -/
def pubWait (broker call : List Opt) : Int := (pubTimeoutOf call).getD ((pubTimeoutOf broker).getD fiveSeconds)

/-- How long `Receive` waits: what the call asks for, else five seconds. -/
def recvWait (call : List Opt) : Int := (recvTimeoutOf call).getD fiveSeconds

/-- Call `i` timed out, at least `d` after it was made. -/
def NotBefore (t : TSt) (i : Nat) (d : Int) : Prop := ∀ τ τ', (τ, Ev.call i) ∈ t.log → (τ', Ev.ret i .timeout) ∈ t.log →
  τ + d ≤ τ'

/-- `t'` is a later state than `t`. -/
inductive Later (t : TSt) : TSt → Prop
  | refl : Later t t
  | step (t1 t2 : TSt) (a : TAct) : Later t t1 → tstep t1 a = some t2 → Later t t2

/-- Call `i` can return by time `τ` without anybody else doing anything. -/
def ReturnsBy (t : TSt) (os : Nat → List Opt) (i : Nat) (τ : Int) : Prop := ∃ as y,
  (∀ a ∈ as, (∃ d, a = .wait d) ∨ a = .act (.ret i) ∨ ∃ alt, a = .act (.step i alt)) ∧ texec (t, os) as = some y ∧
  ∃ τ' r, (τ', Ev.ret i r) ∈ y.1.log ∧ τ' ≤ τ

end Netscrape.Spec.Broker
