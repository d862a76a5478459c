import Verif.Model.BrokerRace
import Verif.Spec.Broker

/-!
# Data races
-/

namespace Netscrape.Spec.Broker
open Netscrape.Broker

/-- A `sync.RWMutex` keeps these two from happening at the same time. -/
def Excludes : Held → Held → Prop
  | .write, .write => True
  | .write, .read => True
  | .read, .write => True
  | _, _ => False

/-- Two goroutines are about to access the same field, one of them writes, and no lock keeps them apart. -/
def RaceOn (s : St) (l : Loc) : Prop := ∃ i j pc pc' a a', i ≠ j ∧ s.calls i = some pc ∧
  s.calls j = some pc' ∧ a ∈ accesses pc ∧ a' ∈ accesses pc' ∧ a.loc = l ∧ a'.loc = l ∧
  (a.write = true ∨ a'.write = true) ∧ ¬ Excludes a.held a'.held

/-- A step writes only the fields listed for its position. -/
structure Accounted (b b' : Mem) (pc : PC) : Prop where
  connected : b'.connected ≠ b.connected → ⟨.connected, true, .write⟩ ∈ accesses pc
  exit : b'.exit ≠ b.exit → ⟨.exit, true, .write⟩ ∈ accesses pc
  ctl : b'.ctl ≠ b.ctl → ⟨.ctl, true, .write⟩ ∈ accesses pc
  subs : b'.subs ≠ b.subs → ⟨.subs, true, .write⟩ ∈ accesses pc
  topics : b'.topics ≠ b.topics → ⟨.topics, true, .write⟩ ∈ accesses pc
  active : ∀ x o o', b.sub x = some o → b'.sub x = some o' → o'.active ≠ o.active →
    ⟨.active x, true, .read⟩ ∈ accesses pc

/-- Is this a position in `Pub`? -/
def InPub : PC → Prop
  | .pubChk _ _ _ => True
  | .pubGet _ _ _ => True
  | .pubRead _ _ _ => True
  | .pubSel _ _ _ _ => True
  | .pubClose => True
  | _ => False

/-- `Open` is called only when no other `Open` call, no goroutine of an earlier session and no `Pub` call is in
progress. -/
def QuietOpen (s : St) (a : Act) : Prop := ∀ ctx, a = .call (.open ctx) →
  ∀ j pc, s.calls j = some pc → ¬ InSession pc ∧ ¬ InPub pc

/-- Nobody calls `Receive` or `Unsubscribe` on a subscription while somebody else is in `Unsubscribe` on it,
nor `Unsubscribe` while somebody is in `Receive`. -/
def AloneUnsub (s : St) (a : Act) : Prop := ∀ x,
  (a = .call (.unsubscribe x) → ∀ i, (s.calls i).isSome = true →
    s.ops i ≠ some (.unsubscribe x) ∧ ∀ ctx, s.ops i ≠ some (.receive ctx x)) ∧
  ((∃ ctx, a = .call (.receive ctx x)) → ∀ i, (s.calls i).isSome = true → s.ops i ≠ some (.unsubscribe x))

end Netscrape.Spec.Broker
