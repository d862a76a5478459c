import Verif.Model.Broker

/-!
# pkg/broker/memory with a clock

`Model/Broker.lean` lets timers expire at any time. Here the same steps are made by the clock: options configure
durations, `time.After` starts a timer, and the `select` case of a timer can be taken only when its time has come. Time
passes only between steps, by any amount. Times and durations are in nanoseconds; durations are `int64` in Go and
unbounded here.
-/

namespace Netscrape.Broker
open Netscrape.Conc (upd)

/-- `broker.Options` (pkg/broker/options.go:16-25); a `Sink` is 0 for `FanIn` and 1 for `FanOut` (:6-13). -/
structure Options where
  cap : Int := 0
  sink : Int := 0
  pubTimeout : Int := 0
  recvTimeout : Int := 0
deriving DecidableEq

/-- `WithCap`, `WithSink`, `WithPubTimeout` and `WithSubTimeout` (pkg/broker/options.go:31-56). -/
inductive Opt where
  | withCap (c : Int)
  | withSink (s : Int)
  | withPubTimeout (d : Int)
  | withSubTimeout (d : Int)
deriving DecidableEq

/-- Calling one option on the options struct. -/
def Opt.apply (o : Options) : Opt → Options
  | .withCap c => { o with cap := c }
  | .withSink s => { o with sink := s }
  | .withPubTimeout d => { o with pubTimeout := d }
  | .withSubTimeout d => { o with recvTimeout := d }

/-- `for _, apply := range opts { apply(&o) }` (pkg/broker/memory/memory.go:45-48, 135-138,
pkg/broker/memory/subscriber.go:55-58). -/
def Opt.all (opts : List Opt) : Options := opts.foldl Opt.apply {}

/-- `DefaultTimeout` (pkg/broker/memory/memory.go:16). -/
def defaultTimeout : Int := 5000000000

/-- The broker with a clock. `pubTimeout` is the field of `Memory` (pkg/broker/memory/memory.go:36); `timeout i` is the
local variable `pubTimeout` or `recvTimeout` of call `i`; `timer i` is when the timer of call `i` expires; the history
has times. -/
structure TSt where
  s : St
  now : Int
  pubTimeout : Int
  timeout : Nat → Int
  timer : Nat → Option Int
  log : List (Int × Ev)

/-- `New` (pkg/broker/memory/memory.go:44-67). -/
def TSt.new (opts : List Opt) : TSt :=
  let o := Opt.all opts
  { s := .init o.cap, now := 0, pubTimeout := if o.pubTimeout = 0 then defaultTimeout else o.pubTimeout,
    timeout := fun _ => 0, timer := fun _ => none, log := [] }

/-- The timeout of a call: `Pub` (pkg/broker/memory/memory.go:135-143), `Receive`
(pkg/broker/memory/subscriber.go:55-63). The other calls do not look at their options. -/
def TSt.timeoutOf (t : TSt) (op : Op) (opts : List Opt) : Int :=
  match op with
  | .pub _ _ _ => if (Opt.all opts).pubTimeout = 0 then t.pubTimeout else (Opt.all opts).pubTimeout
  | .receive _ _ => if (Opt.all opts).recvTimeout = 0 then defaultTimeout else (Opt.all opts).recvTimeout
  | _ => 0

/-- What happens next: time passes, somebody makes a call with options, or a step other than a call. -/
inductive TAct where
  | wait (d : Nat)
  | call (op : Op) (opts : List Opt)
  | act (a : Act)

/-- Is this position right before the `select` whose `time.After` starts the timer
(pkg/broker/memory/memory.go:112-121, pkg/broker/memory/subscriber.go:65-90)? -/
def startsTimer : PC → Bool
  | .pubRead _ _ _ => true
  | .recvChk _ _ => true
  | _ => false

/-- The timer of `i` has expired. -/
def TSt.expired (t : TSt) (i : Nat) : Bool :=
  match t.timer i with
  | some e => decide (e ≤ t.now)
  | none => false

/-- The timers after step `a`: a goroutine about to enter its `select` starts its timer
(`time.After(timeout)`, pkg/broker/memory/memory.go:117, pkg/broker/memory/subscriber.go:75). In `Receive` the timer is
started together with the test of `s.active` right before it. -/
def TSt.timers (t : TSt) (a : Act) : Nat → Option Int :=
  match a with
  | .step i _ =>
    match t.s.calls i with
    | some pc => if startsTimer pc then upd t.timer i (some (t.now + t.timeout i)) else t.timer
    | none => t.timer
  | _ => t.timer

/-- Can step `a` be made now? A call is made with options; the case of a timer needs an expired timer. -/
def TSt.can (t : TSt) (a : Act) : Bool :=
  match a with
  | .call _ => false
  | .step i .timeout => t.expired i
  | _ => true

/-- The events of a step, with the time. -/
def TSt.stamp (t : TSt) (s' : St) : List (Int × Ev) := (s'.log.drop t.s.log.length).map fun e => (t.now, e)

/-- One step. -/
def tstep (t : TSt) : TAct → Option TSt
  | .wait d => some { t with now := t.now + d }
  | .call op opts =>
    match step t.s (.call op) with
    | none => none
    | some s' => some { t with s := s', timeout := upd t.timeout t.s.next (t.timeoutOf op opts),
                               log := t.log ++ t.stamp s' }
  | .act a =>
    if t.can a then
      match step t.s a with
      | none => none
      | some s' => some { t with s := s', timer := t.timers a, log := t.log ++ t.stamp s' }
    else none

/-- The states a broker made with these options can get into; beside each the options the calls were made with. -/
inductive TReach (opts : List Opt) : TSt → (Nat → List Opt) → Prop
  | init : TReach opts (.new opts) (fun _ => [])
  | wait (t : TSt) (os : Nat → List Opt) (d : Nat) (t' : TSt) : TReach opts t os → tstep t (.wait d) = some t' →
      TReach opts t' os
  | call (t : TSt) (os : Nat → List Opt) (op : Op) (o : List Opt) (t' : TSt) : TReach opts t os →
      tstep t (.call op o) = some t' → TReach opts t' (upd os t.s.next o)
  | act (t : TSt) (os : Nat → List Opt) (a : Act) (t' : TSt) : TReach opts t os → tstep t (.act a) = some t' →
      TReach opts t' os

/-- A sequence of steps, with the options of the calls. -/
def texec (x : TSt × (Nat → List Opt)) : List TAct → Option (TSt × (Nat → List Opt))
  | [] => some x
  | a :: as =>
    match tstep x.1 a with
    | none => none
    | some t' => texec (t', match a with | .call _ o => upd x.2 x.1.s.next o | _ => x.2) as

end Netscrape.Broker
