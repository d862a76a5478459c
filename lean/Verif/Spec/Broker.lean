import Verif.Model.Broker
import Verif.Spec.Linearizable

/-!
# What the history of a broker says

All these are read off the history of calls, returns, hand-overs and handler calls.
-/

namespace Netscrape.Spec.Broker
open Netscrape.Broker

/-- The `Pub` calls whose message was put on channel `ch`, in order. -/
def sentOn (ch : Nat) (l : List Ev) : List Nat :=
  l.filterMap fun | .sent p c => if c = ch then some p else none | _ => none

/-- The `Pub` calls whose message was taken off channel `ch`, in order. -/
def tookFrom (ch : Nat) (l : List Ev) : List Nat :=
  l.filterMap fun | .took _ c p => if c = ch then some p else none | _ => none

/-- The channels the message of `Pub` call `p` was put on. -/
def sentBy (p : Nat) (l : List Ev) : List Nat :=
  l.filterMap fun | .sent p' c => if p' = p then some c else none | _ => none

/-- The receivers that took the message of `Pub` call `p`. -/
def takers (p : Nat) (l : List Ev) : List Nat :=
  l.filterMap fun | .took r _ p' => if p' = p then some r else none | _ => none

/-- The `Pub` calls whose message was taken by `r`. -/
def tookBy (r : Nat) (l : List Ev) : List Nat :=
  l.filterMap fun | .took r' _ p => if r' = r then some p else none | _ => none

/-- The messages the handler of `r` was called with. -/
def handledBy (r : Nat) (l : List Ev) : List Msg :=
  l.filterMap fun | .handle r' m => if r' = r then some m else none | _ => none

/-- Is the broker open after this history? -/
def isOpen : List Ev → Bool :=
  List.foldl (fun o e => match e with | .opened _ => true | .closed _ => false | _ => o) false

/-- Somebody opened the broker. -/
def Opens (l : List Ev) : Prop := ∃ i, Ev.opened i ∈ l

/-- Somebody closed the broker. -/
def Closes (l : List Ev) : Prop := ∃ i, Ev.closed i ∈ l

/-- Channel `ch` was made for topic `t`: by a `Pub` or `Sub` call on `t`. -/
def OnTopic (ops : Nat → Option Op) (ch : Nat) (t : String) : Prop :=
  (∃ ctx m, ops ch = some (.pub ctx t m)) ∨ ∃ u, ops ch = some (.sub t u)

/-- The broker was closed after call `i` was made. -/
def ClosedAfter (i : Nat) (l : List Ev) : Prop := ∃ j, Before (.call i) (.closed j) l

/-- How many undelivered messages a topic may hold: the configured capacity, 100 if that is negative. -/
def capacity (cap : Int) : Int := if 0 ≤ cap then cap else 100

/-- Call `i` can return without anybody else doing anything. -/
def Finishes (s : St) (i : Nat) : Prop := ∃ acts s',
  (∀ a ∈ acts, a = .ret i ∨ ∃ alt, a = .step i alt) ∧ exec s acts = some s' ∧ ∃ r, Ev.ret i r ∈ s'.log

/-! ## Restrictions on what callers do -/

/-- Nobody calls `Unsubscribe`. -/
def NoUnsubscribe (_ : St) (a : Act) : Prop := ∀ x, a ≠ .call (.unsubscribe x)

/-- No `Unsubscribe` is called while another one on the same subscription is in progress. -/
def OneAtATime (s : St) (a : Act) : Prop := ∀ x, a = .call (.unsubscribe x) →
  ∀ i, (s.calls i).isSome = true → s.ops i ≠ some (.unsubscribe x)

/-- Is this a position in `Close`, where the session is about to be closed? -/
def AtClose : PC → Prop
  | .closing => True
  | .pubClose => True
  | .runClose => True
  | _ => False

/-- Whenever the broker is closed, every topic has had a subscriber, and no `Pub` or `Sub` is between finding
the broker open and looking up its topic. -/
def TidyClose (s : St) (a : Act) : Prop := ∀ i pc, a = .step i .go → s.calls i = some pc → AtClose pc →
  s.b.connected = true →
  (∀ t, (s.b.topics.get? t).isSome = true → (s.b.subs.get? t).isSome = true) ∧
  (∀ j ctx t m, s.calls j ≠ some (.pubGet ctx t m)) ∧ ∀ j t u, s.calls j ≠ some (.subMake t u)

/-- Is this a position in `Open` or in the goroutine it starts? -/
def InSession : PC → Prop
  | .openChk _ => True
  | .openSet _ => True
  | .run _ => True
  | .runCtl _ _ => True
  | .runSel _ _ _ => True
  | .runDel _ _ _ => True
  | .runClose => True
  | _ => False

/-- `Open` is called only when no other `Open` call and no goroutine of an earlier session is in progress. -/
def SoloOpen (s : St) (a : Act) : Prop := ∀ ctx, a = .call (.open ctx) →
  ∀ j pc, s.calls j = some pc → ¬ InSession pc

end Netscrape.Spec.Broker
