import Verif.Model.Broker
import Verif.Model.BrokerRace
import Verif.Go.RWMutex

/-!
# pkg/broker/memory, statement by statement

`Model/Broker.lean` makes each critical section of the broker's mutex one step. Here the mutex is explicit, and
locking, unlocking and every access to a field of `Memory` are steps of their own. What happens outside of critical
sections is as in `Model/Broker.lean`, except that a read of `m.ctl` gets what is there.
-/

namespace Netscrape.BrokerLock
open Netscrape.Conc (upd Mu)
open Netscrape.Broker (Mem Msg Op Ret PC Ev Alt Queue Sub Loc)

/-- The critical section that begins at this position, if any: with `RLock` (true for reading) or `Lock`. -/
def sect : PC → Option Bool
  -- pkg/broker/memory/memory.go:90, 128, 161
  | .openChk _ => some true
  | .pubChk _ _ _ => some true
  | .subChk _ _ => some true
  -- pkg/broker/memory/memory.go:97, 145, 170, 79
  | .openSet _ => some false
  | .pubGet _ _ _ => some false
  | .subMake _ _ => some false
  | .runDel _ _ _ => some false
  -- pkg/broker/memory/memory.go:201
  | .closing => some false
  | .pubClose => some false
  | .runClose => some false
  | _ => none

/-- Where a goroutine is. -/
inductive Pos where
  /-- It does not hold the mutex; where a critical section begins it is about to lock. -/
  | out (pc : PC)
  /-- `m.Lock()` was called and waits for readers; the section is the one of `pc`. -/
  | wait (pc : PC)
  /-- It holds the mutex for reading and is about to read `m.connected` (pkg/broker/memory/memory.go:91, 129, 162). -/
  | chk (pc : PC)
  /-- About to call `m.RUnlock()` (pkg/broker/memory/memory.go:92, 95, 130, 133, 163, 166) and go on at `pc`. -/
  | rEnd (pc : PC)
  /-- `Open`: the three assignments and `go` (pkg/broker/memory/memory.go:100, 101, 102, 106). `n` is the number the new
  goroutine is going to have. -/
  | open1 (ctx : Nat)
  | open2 (ctx : Nat)
  | open3 (ctx n : Nat)
  | open4 (ctx n : Nat)
  /-- `Close`: test, `close(m.exit)` (pkg/broker/memory/memory.go:204, 208). -/
  | close1 (pc : PC)
  | close2 (pc : PC)
  /-- `Close`: the outer `range`, the inner `range` and its `delete`, the two other `delete`s
  (pkg/broker/memory/memory.go:210, 211-212, 214, 215). -/
  | close3
  | close4 (topic : String)
  | close5 (topic : String)
  | close6 (topic : String)
  /-- `Close`: `m.connected = false` (pkg/broker/memory/memory.go:218). -/
  | close7
  /-- `Pub`: lookup, the new queue, its assignment (pkg/broker/memory/memory.go:146, 148-151, 152). -/
  | pub1 (ctx : Nat) (topic : String) (m : Msg)
  | pub2 (ctx : Nat) (topic : String) (m : Msg)
  | pub3 (ctx : Nat) (topic : String) (m : Msg) (q : Queue)
  /-- `Sub`: the same (pkg/broker/memory/memory.go:173, 175-178, 179). -/
  | sub1 (topic uid : String)
  | sub2 (topic uid : String)
  | sub3 (topic uid : String) (q : Queue)
  /-- `Sub`: the new subscription, the test, the two assignments (pkg/broker/memory/memory.go:182-189, 191, 192, 194). -/
  | sub4 (topic uid : String) (q : Queue)
  | sub5 (topic uid : String)
  | sub6 (topic uid : String)
  | sub7 (topic uid : String)
  /-- `run`: test, `delete` (pkg/broker/memory/memory.go:80, 81). -/
  | del1 (ctx : Nat) (topic uid : String)
  | del2 (ctx : Nat) (topic uid : String)
  /-- About to call `m.Unlock()` and go on at `pc`. -/
  | wEnd (pc : PC)
deriving DecidableEq

/-- The first statement of a critical section under `Lock`. -/
def enter : PC → Pos
  | .openSet ctx => .open1 ctx
  | .pubGet ctx t m => .pub1 ctx t m
  | .subMake t u => .sub1 t u
  | .runDel ctx t u => .del1 ctx t u
  | pc => .close1 pc

/-- What the test of `m.connected` decides (pkg/broker/memory/memory.go:91-95, 129-133, 162-166). -/
def check (connected : Bool) : PC → PC
  | .openChk ctx => if connected then .done .nil else .openSet ctx
  | .pubChk ctx t m => if connected then .pubGet ctx t m else .done .notConnected
  | .subChk t u => if connected then .subMake t u else .done .notConnected
  | pc => pc

/-- `RLock`, the two halves of `Lock`, `RUnlock`, `Unlock` (as in `Go/RWMutex.lean`). -/
def lock (mu : Mu) : Pos → Option (Mu × Pos)
  | .out pc =>
    match sect pc with
    | none => none
    | some true => if mu.wr = .free then some ({ mu with readers := mu.readers + 1 }, .chk pc) else none
    | some false => if mu.wr = .free then some ({ mu with wr := .announced }, .wait pc) else none
  | .wait pc => if mu.readers = 0 then some ({ mu with wr := .held }, enter pc) else none
  | .rEnd pc => some ({ mu with readers := mu.readers - 1 }, .out pc)
  | .wEnd pc => some ({ mu with wr := .free }, .out pc)
  | _ => none

/-- One statement of goroutine `i` inside a critical section. `n` is the next unused number, `key` what a `range` picks.
A `range` over a map from which the loop deletes each key it is given ends when the map is empty. -/
def stmt (b : Mem) (i n : Nat) (key : String) : Pos → Option (Mem × Pos × List Ev)
  | .chk pc => some (b, .rEnd (check b.connected pc), [])
  -- Open (pkg/broker/memory/memory.go:100-106)
  | .open1 ctx => some ({ b with connected := true }, .open2 ctx, [])
  | .open2 ctx => some ({ b with exit := some i }, .open3 ctx n, [.opened i])
  | .open3 ctx n => some ({ b with ctl := some i }, .open4 ctx n, [])
  | .open4 _ _ => some (b, .wEnd (.done .nil), [])
  -- Close (pkg/broker/memory/memory.go:204-218)
  | .close1 pc => some (b, if b.connected then .close2 pc else .wEnd (.done .nil), [])
  | .close2 _ =>
    match b.exit with
    | none => some ({ b with crashed := true }, .wEnd (.done .nil), [])
    | some e =>
      if b.closed e then some ({ b with crashed := true }, .wEnd (.done .nil), [])
      else some ({ b with closed := upd b.closed e true }, .close3, [.closed i])
  | .close3 =>
    if b.subs.entries = [] then some (b, .close7, [])
    else if (b.subs.get? key).isSome then some (b, .close4 key, []) else none
  | .close4 t =>
    match b.subs.get? t with
    | none => some (b, .close5 t, [])
    | some inner =>
      if inner.entries = [] then some (b, .close5 t, [])
      else if (inner.get? key).isSome then some ({ b with subs := b.subs.set t (inner.del key) }, .close4 t, [])
      else none
  | .close5 t => some ({ b with subs := b.subs.del t }, .close6 t, [])
  | .close6 t => some ({ b with topics := b.topics.del t }, .close3, [])
  | .close7 => some ({ b with connected := false }, .wEnd (.done .nil), [])
  -- Pub (pkg/broker/memory/memory.go:146-153)
  | .pub1 ctx t m =>
    match b.topics.get? t with
    | some q => some (b, .wEnd (.pubRead ctx q m), [])
    | none => some (b, .pub2 ctx t m, [])
  | .pub2 ctx t m => some (b, .pub3 ctx t m ⟨i, b.exit⟩, [])
  | .pub3 ctx t m q => some ({ b with topics := b.topics.set t q }, .wEnd (.pubRead ctx q m), [])
  -- Sub (pkg/broker/memory/memory.go:173-194)
  | .sub1 t u =>
    match b.topics.get? t with
    | some q => some (b, .sub4 t u q, [])
    | none => some (b, .sub2 t u, [])
  | .sub2 t u => some (b, .sub3 t u ⟨i, b.exit⟩, [])
  | .sub3 t u q => some ({ b with topics := b.topics.set t q }, .sub4 t u q, [])
  | .sub4 t u q => some ({ b with sub := upd b.sub i (some ⟨u, t, true, q, b.ctl⟩) }, .sub5 t u, [])
  | .sub5 t u => some (b, if (((b.subs.get? t).getD GoMap.empty).get? u).isNone then .sub6 t u else .sub7 t u, [])
  | .sub6 t u => some ({ b with subs := b.subs.set t GoMap.empty }, .sub7 t u, [])
  | .sub7 t u =>
    match b.subs.get? t with
    | none => some ({ b with crashed := true }, .wEnd (.done .sub), [])
    | some inner => some ({ b with subs := b.subs.set t (inner.set u i) }, .wEnd (.done .sub), [])
  -- run (pkg/broker/memory/memory.go:80-82)
  | .del1 ctx t u => some (b, if (b.subs.get? t).isSome then .del2 ctx t u else .wEnd (.run ctx), [])
  | .del2 ctx t u =>
    some ({ b with subs := b.subs.set t (((b.subs.get? t).getD GoMap.empty).del u) }, .wEnd (.run ctx), [])
  | _ => none

/-- The whole system. -/
structure St where
  b : Mem
  mu : Mu
  calls : Nat → Option Pos
  ops : Nat → Option Op
  next : Nat
  log : List Ev

/-- A new broker (pkg/broker/memory/memory.go:44-67). -/
def St.init (cap : Int) : St := ⟨Mem.new cap, .init, fun _ => none, fun _ => none, 0, []⟩

/-- What happens next. -/
inductive Act where
  /-- Somebody makes a call. -/
  | call (op : Op)
  /-- A context is cancelled (or its deadline passes). -/
  | cancel (ctx : Nat)
  /-- Goroutine `i` makes a step outside of critical sections. -/
  | step (i : Nat) (a : Alt)
  /-- Goroutine `i` locks or unlocks. -/
  | lock (i : Nat)
  /-- Goroutine `i` executes a statement in a critical section. -/
  | stmt (i : Nat) (key : String)
  /-- A hand-over on an unbuffered channel. -/
  | meet (p r : Nat)
  /-- Call `i` returns, or goroutine `i` ends. -/
  | ret (i : Nat)
deriving DecidableEq

/-- The number `Open` reserves for the goroutine it is going to start: one when it writes `m.exit`. A number is but a
name; this one is given out a little before `go`. -/
def claims : Pos → Nat
  | .open2 _ => 1
  | _ => 0

/-- The goroutine `Open` starts (pkg/broker/memory/memory.go:106). -/
def starts (calls : Nat → Option Pos) : Pos → Nat → Option Pos
  | .open4 ctx n => upd calls n (some (.out (.run ctx)))
  | _ => calls

/-- One step of the system. -/
def step (s : St) (a : Act) : Option St :=
  if s.b.crashed then none
  else match a with
  | .call op =>
    if s.b.has op then
      some { s with calls := upd s.calls s.next (some (.out (.start op))), ops := upd s.ops s.next (some op),
                    next := s.next + 1, log := s.log ++ [.call s.next] }
    else none
  | .cancel ctx => some { s with b := { s.b with done := upd s.b.done ctx true } }
  | .step i alt =>
    match s.calls i with
    | some (.out pc) =>
      if sect pc = none ∧ alt ≠ .stale then
        match Broker.micro s.b i pc alt with
        | none => none
        | some (b', pc', evs, none) =>
          some { s with b := b', calls := upd s.calls i (some (.out pc')), log := s.log ++ evs }
        | some (b', pc', evs, some g) =>
          some { s with b := b', calls := upd (upd s.calls i (some (.out pc'))) s.next (some (.out g)),
                        next := s.next + 1, log := s.log ++ evs }
      else none
    | _ => none
  | .lock i =>
    match s.calls i with
    | none => none
    | some p =>
      match lock s.mu p with
      | none => none
      | some (mu', p') => some { s with mu := mu', calls := upd s.calls i (some p') }
  | .stmt i key =>
    match s.calls i with
    | none => none
    | some p =>
      match stmt s.b i s.next key p with
      | none => none
      | some (b', p', evs) =>
        some { s with b := b', calls := upd (starts s.calls p) i (some p'), next := s.next + claims p,
                      log := s.log ++ evs }
  | .meet p r =>
    match s.calls p, s.calls r with
    | some (.out pc), some (.out pc') =>
      match Broker.meet s.b p r pc pc' with
      | none => none
      | some (pc1, pc1', evs) =>
        some { s with calls := upd (upd s.calls p (some (.out pc1))) r (some (.out pc1')), log := s.log ++ evs }
    | _, _ => none
  | .ret i =>
    match s.calls i with
    | some (.out (.done r)) => some { s with calls := upd s.calls i none, log := s.log ++ [.ret i r] }
    | _ => none

/-- A sequence of steps. -/
def exec (s : St) : List Act → Option St
  | [] => some s
  | a :: as =>
    match step s a with
    | none => none
    | some s' => exec s' as

/-- The states a broker of the given capacity can get into if every step satisfies `allowed` in the state it is made
in. -/
inductive Reach (cap : Int) (allowed : St → Act → Prop) : St → Prop
  | init : Reach cap allowed (.init cap)
  | step (s s' : St) (a : Act) : Reach cap allowed s → allowed s a → step s a = some s' → Reach cap allowed s'

/-- No restriction. -/
def Any : St → Act → Prop := fun _ _ => True

/-- The fields that the next step at a position reads (`false`) or writes (`true`). Fields that never change once the
object is shared are left out, as in `Model/BrokerRace.lean`. -/
def touches : Pos → List (Loc × Bool)
  | .chk _ => [(.connected, false)]
  | .open1 _ => [(.connected, true)]
  | .open2 _ => [(.exit, true)]
  | .open3 _ _ => [(.ctl, true)]
  | .close1 _ => [(.connected, false)]
  | .close2 _ => [(.exit, false)]
  | .close3 => [(.subs, false)]
  | .close4 _ => [(.subs, true)]
  | .close5 _ => [(.subs, true)]
  | .close6 _ => [(.topics, true)]
  | .close7 => [(.connected, true)]
  | .pub1 _ _ _ => [(.topics, false)]
  | .pub2 _ _ _ => [(.exit, false)]
  | .pub3 _ _ _ _ => [(.topics, true)]
  | .sub1 _ _ => [(.topics, false)]
  | .sub2 _ _ => [(.exit, false)]
  | .sub3 _ _ _ => [(.topics, true)]
  | .sub4 _ _ _ => [(.ctl, false)]
  | .sub5 _ _ => [(.subs, false)]
  | .sub6 _ _ => [(.subs, true)]
  | .sub7 _ _ => [(.subs, true)]
  | .del1 _ _ _ => [(.subs, false)]
  | .del2 _ _ _ => [(.subs, true)]
  | .out (.pubRead _ _ _) => [(.exit, false)]
  | .out (.run _) => [(.exit, false)]
  | .out (.runCtl _ _) => [(.ctl, false)]
  | .out (.recvChk _ x) => [(.active x, false)]
  | .out (.unsubChk x) => [(.active x, false)]
  | .out (.unsubSet x) => [(.active x, true)]
  | _ => []

end Netscrape.BrokerLock
