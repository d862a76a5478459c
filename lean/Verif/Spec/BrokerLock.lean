import Verif.Model.BrokerLock
import Verif.Spec.BrokerRace

/-!
# What is said about the statement-level broker
-/

namespace Netscrape.Spec.BrokerLock
open Netscrape.BrokerLock
open Netscrape.Broker (Mem Sub Loc Op PC Ev)

/-- Two goroutines are about to access the same field, and one of them to write it. -/
def RaceOn (s : St) (l : Loc) : Prop := ∃ i j p q v w, i ≠ j ∧ s.calls i = some p ∧ s.calls j = some q ∧
  (l, v) ∈ touches p ∧ (l, w) ∈ touches q ∧ (v = true ∨ w = true)

/-- A field has the same value in both memories. -/
def Same (b b' : Mem) : Loc → Prop
  | .connected => b.connected = b'.connected
  | .exit => b.exit = b'.exit
  | .ctl => b.ctl = b'.ctl
  | .subs => b.subs = b'.subs
  | .topics => b.topics = b'.topics
  | .active x => (b.sub x).map Sub.active = (b'.sub x).map Sub.active

/-- Everything but the fields has the same value in both memories: channels, contexts, and what never changes. -/
structure SameRest (b b' : Mem) : Prop where
  size : b.size = b'.size
  closed : b.closed = b'.closed
  buf : b.buf = b'.buf
  ctlBuf : b.ctlBuf = b'.ctlBuf
  done : b.done = b'.done
  crashed : b.crashed = b'.crashed
  sub : ∀ x, (b.sub x).map (fun o => (o.id, o.topic, o.queue, o.ctl)) = (b'.sub x).map (fun o => (o.id, o.topic, o.queue, o.ctl))

/-- Is this an action of goroutine `i` alone? -/
def mine (i : Nat) : Act → Bool
  | .step j _ => i == j
  | .lock j => i == j
  | .stmt j _ => i == j
  | .ret j => i == j
  | _ => false

/-- A step in a critical section, or one that gets in or out of one. -/
def inside : Act → Bool
  | .lock _ => true
  | .stmt _ _ => true
  | _ => false

/-- Does goroutine `i` take part in this action? -/
def takesPart (i : Nat) : Act → Bool
  | .meet p r => i == p || i == r
  | a => mine i a

/-- Nobody calls `Unsubscribe`. -/
def NoUnsubscribe (_ : St) (a : Act) : Prop := ∀ x, a ≠ .call (.unsubscribe x)

/-- No `Unsubscribe` is called while another one on the same subscription is in progress. -/
def OneAtATime (s : St) (a : Act) : Prop := ∀ x, a = .call (.unsubscribe x) →
  ∀ i, (s.calls i).isSome = true → s.ops i ≠ some (.unsubscribe x)

/-- Is this a position in `Open`, before it unlocks, or in the goroutine it starts, before that closes the session? -/
def InSession : Pos → Prop
  | .out pc => Spec.Broker.InSession pc
  | .wait pc => Spec.Broker.InSession pc
  | .chk pc => Spec.Broker.InSession pc
  | .rEnd pc => Spec.Broker.InSession pc
  | .open1 _ => True
  | .open2 _ => True
  | .open3 _ _ => True
  | .open4 _ _ => True
  | .close1 pc => Spec.Broker.InSession pc
  | .close2 pc => Spec.Broker.InSession pc
  | .del1 _ _ _ => True
  | .del2 _ _ _ => True
  | .wEnd pc => Spec.Broker.InSession pc
  | _ => False

/-- `Open` is called only when no other `Open` call and no goroutine of an earlier session is in progress. -/
def SoloOpen (s : St) (a : Act) : Prop := ∀ ctx, a = .call (.open ctx) → ∀ j p, s.calls j = some p → ¬ InSession p

/-- Is this a position in `Pub`? -/
def InPub : Pos → Prop
  | .out pc => Spec.Broker.InPub pc
  | .wait pc => Spec.Broker.InPub pc
  | .chk pc => Spec.Broker.InPub pc
  | .rEnd pc => Spec.Broker.InPub pc
  | .pub1 _ _ _ => True
  | .pub2 _ _ _ => True
  | .pub3 _ _ _ _ => True
  | .close1 pc => Spec.Broker.InPub pc
  | .close2 pc => Spec.Broker.InPub pc
  | .wEnd pc => Spec.Broker.InPub pc
  | _ => False

/-- `Open` is called only when no other `Open` call, no goroutine of an earlier session and no `Pub` call is in
progress. -/
def QuietOpen (s : St) (a : Act) : Prop := ∀ ctx, a = .call (.open ctx) → ∀ j p, s.calls j = some p →
  ¬ InSession p ∧ ¬ InPub p

/-- Nobody calls `Receive` or `Unsubscribe` on a subscription while somebody else is in `Unsubscribe` on it,
nor `Unsubscribe` while somebody is in `Receive`. -/
def AloneUnsub (s : St) (a : Act) : Prop := ∀ x,
  (a = .call (.unsubscribe x) → ∀ i, (s.calls i).isSome = true →
    s.ops i ≠ some (.unsubscribe x) ∧ ∀ ctx, s.ops i ≠ some (.receive ctx x)) ∧
  ((∃ ctx, a = .call (.receive ctx x)) → ∀ i, (s.calls i).isSome = true → s.ops i ≠ some (.unsubscribe x))

/-- Whenever somebody in `Close` finds the broker open, or is about to close its exit channel, every topic has had a
subscriber, and no `Pub` or `Sub` is between finding the broker open and locking to look up its topic. -/
def TidyClose (s : St) (a : Act) : Prop := ∀ i key pc, a = .stmt i key →
  (s.calls i = some (.close1 pc) ∨ s.calls i = some (.close2 pc)) → s.b.connected = true →
  (∀ t, (s.b.topics.get? t).isSome = true → (s.b.subs.get? t).isSome = true) ∧
  (∀ j ctx t m, s.calls j ≠ some (.out (.pubGet ctx t m))) ∧ ∀ j t u, s.calls j ≠ some (.out (.subMake t u))

/-- An execution without end under a fair scheduler and a mutex that starves nobody. `turn`: a goroutine that from some
moment on can always make a step makes one (this includes that timers expire and handlers return). `mutex`: one that waits
to lock while it again and again could gets the lock. -/
structure FairRun (f : Nat → St) (acts : Nat → Act) : Prop where
  step : ∀ n, BrokerLock.step (f n) (acts n) = some (f (n + 1))
  turn : ∀ i n, (∀ m, n ≤ m → ∃ a, mine i a = true ∧ (BrokerLock.step (f m) a).isSome = true) →
    ∃ m, n ≤ m ∧ takesPart i (acts m) = true
  mutex : ∀ i n, (∀ m, n ≤ m → ∃ k, m ≤ k ∧ (BrokerLock.step (f k) (.lock i)).isSome = true) →
    ∃ k, n ≤ k ∧ acts k = .lock i

end Netscrape.Spec.BrokerLock
