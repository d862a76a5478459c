import Verif.Go.Map
import Verif.Go.RWMutex

/-!
# pkg/broker/memory: the broker as a transition system

Every critical section of a mutex, every channel operation and every unprotected access to a shared field is
one step; steps of different goroutines interleave freely. The choices of `select`, the expiry of timers,
the cancelling of contexts and the outcome of handlers are actions of the environment; timers may expire at
any time.

Channels and subscriptions are named by the number of the call that made them. A message in a channel carries
the number of the `Pub` call it came from; no step depends on it.
-/

namespace Netscrape.Broker
open Netscrape.Conc (upd)

/-- `broker.Message` (pkg/broker/broker.go:36-45). -/
structure Msg where
  uid : String
  typ : Int
  data : String
  attrs : GoMap String String
deriving DecidableEq

/-- `New` (pkg/broker/memory/memory.go:50-53): the capacity of topics. `DefaultSize` is 100 (:14). -/
def sizeOf (cap : Int) : Nat := if cap < 0 then 100 else cap.toNat

/-- The capacity of the control channel (pkg/broker/memory/memory.go:102). -/
def ctlSize : Nat := 100

/-- `queue` (pkg/broker/memory/memory.go:26-29): a message channel and an exit channel (which may be nil). -/
structure Queue where
  msg : Nat
  exit : Option Nat
deriving DecidableEq

/-- `Subscriber` (pkg/broker/memory/subscriber.go:12-20). The exit channel has the same number as the
subscription. -/
structure Sub where
  id : String
  topic : String
  active : Bool
  queue : Queue
  ctl : Option Nat
deriving DecidableEq

/-- The shared memory: the fields of `Memory` (pkg/broker/memory/memory.go:32-41), channels, subscriptions,
contexts. `crashed` says that the process has panicked. `ctlWas` is what `ctl` was before the last `Open`: `Open` is one
step here, although it writes `exit` and `ctl` one after the other and these are read without the lock. A read of `ctl`
in between is modelled as a read of `ctlWas` (C96 proves that this is enough). -/
structure Mem where
  connected : Bool
  size : Nat
  subs : GoMap String (GoMap String Nat)
  topics : GoMap String Queue
  exit : Option Nat
  ctl : Option Nat
  ctlWas : Option Nat
  closed : Nat → Bool
  buf : Nat → List (Nat × Msg)
  ctlBuf : Nat → List (String × String)
  sub : Nat → Option Sub
  done : Nat → Bool
  crashed : Bool

/-- `New` (pkg/broker/memory/memory.go:44-67). -/
def Mem.new (cap : Int) : Mem :=
  { connected := false, size := sizeOf cap, subs := GoMap.empty, topics := GoMap.empty, exit := none,
    ctl := none, ctlWas := none, closed := fun _ => false, buf := fun _ => [], ctlBuf := fun _ => [], sub := fun _ => none,
    done := fun _ => false, crashed := false }

/-- A call of the API. `ctx` is the context passed. The UID of a subscription is what `memuid.New`
returns. -/
inductive Op where
  | open (ctx : Nat)
  | close
  | pub (ctx : Nat) (topic : String) (m : Msg)
  | sub (topic : String) (uid : String)
  | receive (ctx : Nat) (x : Nat)
  | unsubscribe (x : Nat)
deriving DecidableEq

/-- What a call returns; `Sub` returns the subscription with the number of the call. -/
inductive Ret where
  | nil
  | notConnected
  | timeout
  | inactive
  | sub
  /-- An error of the handler. -/
  | fail (e : Nat)
deriving DecidableEq

/-- Where a goroutine is in a call, or in one of the broker's own goroutines. -/
inductive PC where
  | openChk (ctx : Nat)
  | openSet (ctx : Nat)
  | closing
  | pubChk (ctx : Nat) (topic : String) (m : Msg)
  | pubGet (ctx : Nat) (topic : String) (m : Msg)
  | pubRead (ctx : Nat) (q : Queue) (m : Msg)
  | pubSel (ctx : Nat) (q : Queue) (exit : Option Nat) (m : Msg)
  | pubClose
  | subChk (topic uid : String)
  | subMake (topic uid : String)
  | recvChk (ctx x : Nat)
  | recvSel (ctx x : Nat)
  | recvDrop (x : Nat)
  | handling (m : Msg)
  | unsubChk (x : Nat)
  | unsubClose (x : Nat)
  | unsubSet (x : Nat)
  | unsubGo (x : Nat)
  | run (ctx : Nat)
  | runCtl (ctx : Nat) (exit : Option Nat)
  | runSel (ctx : Nat) (exit ctl : Option Nat)
  | runDel (ctx : Nat) (topic uid : String)
  | runClose
  | notify (x : Nat)
  | done (r : Ret)
deriving DecidableEq

/-- What an observer sees. `sent p ch`: the message of `Pub` call `p` was put on channel `ch`. `took r ch p`:
`r` took it off. `handle r m`: the handler of `r` was called with `m`; `handled r e`: it returned. -/
inductive Ev where
  | call (i : Nat)
  | ret (i : Nat) (r : Ret)
  | sent (p ch : Nat)
  | took (r ch p : Nat)
  | handle (r : Nat) (m : Msg)
  | handled (r : Nat) (e : Option Nat)
  | opened (i : Nat)
  | closed (i : Nat)
deriving DecidableEq

/-- Which case of a `select` is taken; `go` where there is no `select`. `stale`: a read of `m.ctl` without the lock
gets what was there before the last `Open` wrote it. -/
inductive Alt where
  | go
  | stale
  | ctx
  | exit
  | timeout
  | unsub
  | msg
  | result (e : Option Nat)
deriving DecidableEq

/-- Is this (possibly nil) channel closed? -/
def Mem.isClosed (b : Mem) : Option Nat → Bool
  | none => false
  | some e => b.closed e

/-- `Close` (pkg/broker/memory/memory.go:200-221), one critical section, run by `i`. -/
def Mem.close (b : Mem) (i : Nat) : Mem × List Ev :=
  if b.connected then
    match b.exit with
    | none => ({ b with crashed := true }, [])
    | some e =>
      if b.closed e then ({ b with crashed := true }, [])
      else ({ b with closed := upd b.closed e true, subs := GoMap.empty,
                     topics := b.subs.entries.foldl (fun t x => t.del x.1) b.topics,
                     connected := false }, [.closed i])
  else (b, [])

/-- `q, ok := m.topics[topic]; if !ok { … }` (pkg/broker/memory/memory.go:146-153 and 173-180), run by
`i`. -/
def Mem.queue (b : Mem) (i : Nat) (topic : String) : Mem × Queue :=
  match b.topics.get? topic with
  | some q => (b, q)
  | none => ({ b with topics := b.topics.set topic ⟨i, b.exit⟩ }, ⟨i, b.exit⟩)

/-- One step of goroutine `i`, which is at `pc`: new memory, new position, what is observed, and a goroutine
it starts. `none` if the step is not possible. -/
def micro (b : Mem) (i : Nat) : PC → Alt → Option (Mem × PC × List Ev × Option PC)
  -- Open (pkg/broker/memory/memory.go:90-95)
  | .openChk ctx, .go => some (b, if b.connected then .done .nil else .openSet ctx, [], none)
  -- Open (pkg/broker/memory/memory.go:97-108)
  | .openSet ctx, .go =>
    some ({ b with connected := true, exit := some i, ctl := some i, ctlWas := b.ctl }, .done .nil, [.opened i], some (.run ctx))
  -- Close (pkg/broker/memory/memory.go:200-221)
  | .closing, .go => some ((b.close i).1, .done .nil, (b.close i).2, none)
  -- Pub (pkg/broker/memory/memory.go:128-133)
  | .pubChk ctx t m, .go => some (b, if b.connected then .pubGet ctx t m else .done .notConnected, [], none)
  -- Pub (pkg/broker/memory/memory.go:145-154)
  | .pubGet ctx t m, .go => some ((b.queue i t).1, .pubRead ctx (b.queue i t).2 m, [], none)
  -- publishMsg (pkg/broker/memory/memory.go:115): m.exit is read without the lock
  | .pubRead ctx q m, .go => some (b, .pubSel ctx q b.exit m, [], none)
  -- publishMsg (pkg/broker/memory/memory.go:112-121)
  | .pubSel ctx _ _ _, .ctx => if b.done ctx then some (b, .pubClose, [], none) else none
  | .pubSel _ _ e _, .exit => if b.isClosed e then some (b, .done .nil, [], none) else none
  | .pubSel _ _ _ _, .timeout => some (b, .done .timeout, [], none)
  | .pubSel _ q _ m, .msg =>
    if (b.buf q.msg).length < b.size then
      some ({ b with buf := upd b.buf q.msg (b.buf q.msg ++ [(i, m)]) }, .done .nil, [.sent i q.msg], none)
    else none
  | .pubClose, .go => some ((b.close i).1, .done .nil, (b.close i).2, none)
  -- Sub (pkg/broker/memory/memory.go:161-166)
  | .subChk t u, .go => some (b, if b.connected then .subMake t u else .done .notConnected, [], none)
  -- Sub (pkg/broker/memory/memory.go:170-196)
  | .subMake t u, .go =>
    let b' := (b.queue i t).1
    let inner := (b'.subs.get? t).getD GoMap.empty
    let inner' := if (inner.get? u).isNone then GoMap.empty else inner
    some ({ b' with sub := upd b'.sub i (some ⟨u, t, true, (b.queue i t).2, b'.ctl⟩),
                    subs := b'.subs.set t (inner'.set u i) }, .done .sub, [], none)
  -- Receive (pkg/broker/memory/subscriber.go:65-70)
  | .recvChk ctx x, .go =>
    match b.sub x with
    | none => none
    | some o => some (b, if o.active then .recvSel ctx x else .done .inactive, [], none)
  -- Receive (pkg/broker/memory/subscriber.go:72-90)
  | .recvSel ctx _, .ctx => if b.done ctx then some (b, .done .nil, [], none) else none
  | .recvSel _ x, .timeout => some (b, .recvDrop x, [], none)
  | .recvSel _ x, .exit =>
    match b.sub x with
    | none => none
    | some o => if b.isClosed o.queue.exit then some (b, .done .nil, [], none) else none
  | .recvSel _ x, .unsub => if b.closed x then some (b, .done .nil, [], none) else none
  | .recvSel _ x, .msg =>
    match b.sub x with
    | none => none
    | some o =>
      match b.buf o.queue.msg with
      | [] => none
      | (p, m) :: r => some ({ b with buf := upd b.buf o.queue.msg r }, .handling m,
          [.took i o.queue.msg p, .handle i m], none)
  -- Receive (pkg/broker/memory/subscriber.go:77-81)
  | .recvDrop x, .go =>
    match b.sub x with
    | none => none
    | some o =>
      match b.buf o.queue.msg with
      | [] => some (b, .done .timeout, [], none)
      | (p, _) :: r => some ({ b with buf := upd b.buf o.queue.msg r }, .done .timeout,
          [.took i o.queue.msg p], none)
  -- Receive (pkg/broker/memory/subscriber.go:87-89)
  | .handling _, .result e =>
    some (b, .done (match e with | none => .nil | some e => .fail e), [.handled i e], none)
  -- Unsubscribe (pkg/broker/memory/subscriber.go:37): under the read lock, which excludes nobody here
  | .unsubChk x, .go =>
    match b.sub x with
    | none => none
    | some o => some (b, if o.active then .unsubClose x else .done .nil, [], none)
  -- Unsubscribe (pkg/broker/memory/subscriber.go:38)
  | .unsubClose x, .go =>
    if b.closed x then some ({ b with crashed := true }, .unsubClose x, [], none)
    else some ({ b with closed := upd b.closed x true }, .unsubSet x, [], none)
  -- Unsubscribe (pkg/broker/memory/subscriber.go:39)
  | .unsubSet x, .go =>
    match b.sub x with
    | none => none
    | some o => some ({ b with sub := upd b.sub x (some { o with active := false }) }, .unsubGo x, [], none)
  -- Unsubscribe (pkg/broker/memory/subscriber.go:41-46)
  | .unsubGo x, .go => some (b, .done .nil, [], some (.notify x))
  -- the goroutine Unsubscribe starts (pkg/broker/memory/subscriber.go:42-45)
  | .notify x, .msg =>
    match b.sub x with
    | none => none
    | some o =>
      match o.ctl with
      | none => none
      | some c =>
        if (b.ctlBuf c).length < ctlSize then
          some ({ b with ctlBuf := upd b.ctlBuf c (b.ctlBuf c ++ [(o.id, o.topic)]) }, .done .nil, [], none)
        else none
  | .notify x, .exit =>
    match b.sub x with
    | none => none
    | some o => if b.isClosed o.queue.exit then some (b, .done .nil, [], none) else none
  -- run (pkg/broker/memory/memory.go:76): m.exit is read without the lock
  | .run ctx, .go => some (b, .runCtl ctx b.exit, [], none)
  -- run (pkg/broker/memory/memory.go:78): m.ctl is read without the lock, perhaps when Open is between :101 and :102
  | .runCtl ctx e, .go => some (b, .runSel ctx e b.ctl, [], none)
  | .runCtl ctx e, .stale => some (b, .runSel ctx e b.ctlWas, [], none)
  | .runSel ctx _ _, .ctx => if b.done ctx then some (b, .runClose, [], none) else none
  | .runSel _ e _, .exit => if b.isClosed e then some (b, .runClose, [], none) else none
  | .runSel ctx _ c, .msg =>
    match c with
    | none => none
    | some c =>
      match b.ctlBuf c with
      | [] => none
      | (u, t) :: r => some ({ b with ctlBuf := upd b.ctlBuf c r }, .runDel ctx t u, [], none)
  -- run (pkg/broker/memory/memory.go:79-83)
  | .runDel ctx t u, .go =>
    match b.subs.get? t with
    | none => some (b, .run ctx, [], none)
    | some inner => some ({ b with subs := b.subs.set t (inner.del u) }, .run ctx, [], none)
  -- run (pkg/broker/memory/memory.go:71)
  | .runClose, .go => some ((b.close i).1, .done .nil, (b.close i).2, none)
  | _, _ => none

/-- A hand-over on an unbuffered channel: `p` is in the `select` of `Pub` and `r` takes from the same
channel, in the `select` of `Receive` or when its timer has expired. New positions and what is observed. -/
def meet (b : Mem) (p r : Nat) : PC → PC → Option (PC × PC × List Ev)
  | .pubSel _ q _ m, .recvSel _ x =>
    match b.sub x with
    | none => none
    | some o => if b.size = 0 ∧ o.queue.msg = q.msg then
        some (.done .nil, .handling m, [.sent p q.msg, .took r q.msg p, .handle r m]) else none
  | .pubSel _ q _ _, .recvDrop x =>
    match b.sub x with
    | none => none
    | some o => if b.size = 0 ∧ o.queue.msg = q.msg then
        some (.done .nil, .done .timeout, [.sent p q.msg, .took r q.msg p]) else none
  | _, _ => none

/-- The whole system: memory, goroutines, which calls were made, the next number, the history (oldest
first). -/
structure St where
  b : Mem
  calls : Nat → Option PC
  ops : Nat → Option Op
  next : Nat
  log : List Ev

/-- A new broker. -/
def St.init (cap : Int) : St := ⟨Mem.new cap, fun _ => none, fun _ => none, 0, []⟩

/-- What happens next. -/
inductive Act where
  /-- Somebody makes a call. -/
  | call (op : Op)
  /-- A context is cancelled (or its deadline passes). -/
  | cancel (ctx : Nat)
  /-- Goroutine `i` makes a step. -/
  | step (i : Nat) (a : Alt)
  /-- A hand-over on an unbuffered channel. -/
  | meet (p r : Nat)
  /-- Call `i` returns, or goroutine `i` ends. -/
  | ret (i : Nat)
deriving DecidableEq

/-- Where a call begins. -/
def PC.start : Op → PC
  | .open ctx => .openChk ctx
  | .close => .closing
  | .pub ctx t m => .pubChk ctx t m
  | .sub t u => .subChk t u
  | .receive ctx x => .recvChk ctx x
  | .unsubscribe x => .unsubChk x

/-- Can the call be made? `Receive` and `Unsubscribe` need a subscription. -/
def Mem.has (b : Mem) : Op → Bool
  | .receive _ x => (b.sub x).isSome
  | .unsubscribe x => (b.sub x).isSome
  | _ => true

/-- One step of the system. -/
def step (s : St) (a : Act) : Option St :=
  if s.b.crashed then none
  else match a with
  | .call op =>
    if s.b.has op then
      some { s with calls := upd s.calls s.next (some (.start op)), ops := upd s.ops s.next (some op),
                    next := s.next + 1, log := s.log ++ [.call s.next] }
    else none
  | .cancel ctx => some { s with b := { s.b with done := upd s.b.done ctx true } }
  | .step i alt =>
    match s.calls i with
    | none => none
    | some pc =>
      match micro s.b i pc alt with
      | none => none
      | some (b', pc', evs, none) =>
        some { s with b := b', calls := upd s.calls i (some pc'), log := s.log ++ evs }
      | some (b', pc', evs, some g) =>
        some { s with b := b', calls := upd (upd s.calls i (some pc')) s.next (some g), next := s.next + 1,
                      log := s.log ++ evs }
  | .meet p r =>
    match s.calls p, s.calls r with
    | some pc, some pc' =>
      match meet s.b p r pc pc' with
      | none => none
      | some (pc1, pc1', evs) =>
        some { s with calls := upd (upd s.calls p (some pc1)) r (some pc1'), log := s.log ++ evs }
    | _, _ => none
  | .ret i =>
    match s.calls i with
    | some (.done r) => some { s with calls := upd s.calls i none, log := s.log ++ [.ret i r] }
    | _ => none

/-- A sequence of steps. -/
def exec (s : St) : List Act → Option St
  | [] => some s
  | a :: as =>
    match step s a with
    | none => none
    | some s' => exec s' as

/-- The states a broker of the given capacity can get into if every step satisfies `allowed` in the state
it is made in. -/
inductive Reach (cap : Int) (allowed : St → Act → Prop) : St → Prop
  | init : Reach cap allowed (.init cap)
  | step (s s' : St) (a : Act) : Reach cap allowed s → allowed s a → step s a = some s' →
      Reach cap allowed s'

/-- No restriction. -/
def Any : St → Act → Prop := fun _ _ => True

end Netscrape.Broker
