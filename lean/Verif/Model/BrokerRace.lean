import Verif.Model.Broker

/-!
# pkg/broker/memory: which fields each step reads and writes, and under which lock

Fields that never change once the object is shared (`size`, `pubTimeout`; `id`, `topic`, `queue`, `ctl` and
`exit` of a subscription) are left out. Operations on channels are synchronised by Go.
-/

namespace Netscrape.Broker

/-- A field that changes: of `Memory` (pkg/broker/memory/memory.go:32-41) or of a `Subscriber`
(pkg/broker/memory/subscriber.go:12-20). -/
inductive Loc where
  | connected
  | exit
  | ctl
  | subs
  | topics
  | active (x : Nat)
deriving DecidableEq

/-- How the mutex of the object the field belongs to is held. -/
inductive Held where
  | none
  | read
  | write
deriving DecidableEq

/-- An access to a field. -/
structure Access where
  loc : Loc
  write : Bool
  held : Held
deriving DecidableEq

/-- `Close` (pkg/broker/memory/memory.go:200-221), under the lock. -/
def closeAccesses : List Access :=
  [⟨.connected, false, .write⟩, ⟨.exit, false, .write⟩, ⟨.subs, true, .write⟩, ⟨.topics, true, .write⟩,
   ⟨.connected, true, .write⟩]

/-- The accesses a goroutine makes in its next step. -/
def accesses : PC → List Access
  -- Open (pkg/broker/memory/memory.go:90-95)
  | .openChk _ => [⟨.connected, false, .read⟩]
  -- Open (pkg/broker/memory/memory.go:97-102)
  | .openSet _ => [⟨.connected, true, .write⟩, ⟨.exit, true, .write⟩, ⟨.ctl, true, .write⟩]
  | .closing => closeAccesses
  -- Pub (pkg/broker/memory/memory.go:128-133)
  | .pubChk _ _ _ => [⟨.connected, false, .read⟩]
  -- Pub (pkg/broker/memory/memory.go:145-154)
  | .pubGet _ _ _ => [⟨.topics, true, .write⟩, ⟨.exit, false, .write⟩]
  -- publishMsg (pkg/broker/memory/memory.go:115): no lock
  | .pubRead _ _ _ => [⟨.exit, false, .none⟩]
  | .pubSel _ _ _ _ => []
  | .pubClose => closeAccesses
  -- Sub (pkg/broker/memory/memory.go:161-166)
  | .subChk _ _ => [⟨.connected, false, .read⟩]
  -- Sub (pkg/broker/memory/memory.go:170-196); the new subscription is not shared yet
  | .subMake _ _ => [⟨.topics, true, .write⟩, ⟨.exit, false, .write⟩, ⟨.ctl, false, .write⟩,
      ⟨.subs, true, .write⟩]
  -- Receive (pkg/broker/memory/subscriber.go:65-70)
  | .recvChk _ x => [⟨.active x, false, .read⟩]
  | .recvSel _ _ => []
  | .recvDrop _ => []
  | .handling _ => []
  -- Unsubscribe (pkg/broker/memory/subscriber.go:34-39): under the read lock
  | .unsubChk x => [⟨.active x, false, .read⟩]
  | .unsubClose _ => []
  | .unsubSet x => [⟨.active x, true, .read⟩]
  | .unsubGo _ => []
  -- run (pkg/broker/memory/memory.go:76 and 78): no lock
  | .run _ => [⟨.exit, false, .none⟩]
  | .runCtl _ _ => [⟨.ctl, false, .none⟩]
  | .runSel _ _ _ => []
  -- run (pkg/broker/memory/memory.go:79-83)
  | .runDel _ _ _ => [⟨.subs, true, .write⟩]
  | .runClose => closeAccesses
  | .notify _ => []
  | .done _ => []

end Netscrape.Broker
