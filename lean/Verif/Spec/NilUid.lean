import Verif.Model.NilUid
import Verif.Spec.Graph
import Verif.Spec.Linearizable

/-!
# Using a graph or a store after a call has panicked
-/

namespace Netscrape.Spec
open Netscrape.Conc

variable {μ κ σ Op Out : Type}

/-- Nobody is in a call: all calls made so far have returned, or panicked and the caller has recovered. -/
def Idle (c : Cfg μ κ σ Op Out) : Prop := ∀ t, c.calls t = none

/-- A call `op` ended with `out`. -/
def Did (h : List (Ev Op Out)) (op : Op) (out : Out) : Prop :=
  ∃ i t t', Ev.inv i t op ∈ h ∧ Ev.res i t' out ∈ h

/-- If goroutine `t` now calls `op` and nobody else does anything, the call comes to its end. -/
def EndsAlone [DecidableEq μ] (prog : Op → Prog μ κ σ Out) (c : Cfg μ κ σ Op Out) (t : Nat) (op : Op) : Prop :=
  ∃ n c', exec prog c (.call t op :: (List.replicate n (.tau t) ++ [.ret t])) = some c'

end Netscrape.Spec

namespace Netscrape.Graph

/-- `RemoveNode`, `From`, `SubGraph`, `Link` or `Unlink` with a nil UID. -/
def WithNil : NOp → Prop
  | .removeNode u => u = none
  | .from' _ u => u = none
  | .subGraph _ u _ _ => u = none
  | .link _ _ f t _ => f = none ∨ t = none
  | .unlink f t => f = none ∨ t = none
  | _ => False

/-- An entity without UID and without DOTID, and no DOTID from the options. -/
def Nameless (e : NEnt) (opts : List Opt) : Prop := e = .nil none ∧ Spec.Graph.dotOption opts = ""

end Netscrape.Graph

namespace Netscrape.Store

/-- `Delete`, `Link` or `Unlink`, or one of their bulk forms, with a nil UID. -/
def WithNil : NOp → Prop
  | .delete u => u = none
  | .link _ _ f t _ => f = none ∨ t = none
  | .unlink f t => f = none ∨ t = none
  | .bulkDelete us => none ∈ us
  | .bulkLink f us _ => f = none ∨ none ∈ us.map fun x => x.2.2
  | .bulkUnlink f us => f = none ∨ none ∈ us
  | _ => False

/-- `BulkLink` from a UID that is not nil; it also panics where it would link an entity with itself. -/
def ManyLinks : NOp → Prop
  | .bulkLink (some _) _ _ => True
  | _ => False

/-- `Add` or `BulkAdd`. -/
def Adds : NOp → Prop
  | .add .. => True
  | .bulkAdd .. => True
  | _ => False

/-- A bulk call with an empty list. -/
def Empty : NOp → Prop
  | .bulkAdd es _ => es = []
  | .bulkGet us => us = []
  | .bulkDelete us => us = []
  | .bulkLink _ us _ => us = []
  | .bulkUnlink _ us => us = []
  | _ => False

end Netscrape.Store

namespace Netscrape.Graph

/-- A call without nil. -/
def COp.toN : COp → NOp
  | .newNode o e opts => .newNode o (.ent e) opts
  | .addNode n opts => .addNode n opts
  | .addForeign => .addForeign
  | .node u => .node (some u)
  | .nodes o => .nodes o
  | .removeNode u => .removeNode (some u)
  | .link fresh a f t opts => .link fresh a (some f) (some t) opts
  | .edge u v => .edge (some u) (some v)
  | .edges o => .edges o
  | .from' o u => .from' o (some u)
  | .unlink f t => .unlink (some f) (some t)
  | .subGraph ora u d opts => .subGraph ora (some u) d opts
  | .dot => .dot

/-- Its outcome. -/
def COut.toN : COut → NOut
  | .node .panic => .panic
  | .unit .panic => .panic
  | .edge .panic => .panic
  | .graph .panic => .panic
  | out => .ret out

end Netscrape.Graph

namespace Netscrape.Store

/-- A call without nil. -/
def COp.toN : COp → NOp
  | .add o e opts => .add o (.ent e) opts
  | .get u => .get (some u)
  | .delete u => .delete (some u)
  | .link fresh a f t opts => .link fresh a (some f) (some t) opts
  | .unlink f t => .unlink (some f) (some t)
  | .bulkAdd es opts => .bulkAdd (es.map fun x => (x.1, .ent x.2)) opts
  | .bulkGet us => .bulkGet (us.map some)
  | .bulkDelete us => .bulkDelete (us.map some)
  | .bulkLink f us opts => .bulkLink (some f) (us.map fun x => (x.1, x.2.1, some x.2.2)) opts
  | .bulkUnlink f us => .bulkUnlink (some f) (us.map some)

end Netscrape.Store
