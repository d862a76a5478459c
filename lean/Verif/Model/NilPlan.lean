import Verif.Model.CacheConc
import Verif.Model.PlanConc

/-!
# pkg/plan/simple and pkg/cache/memory with nil arguments

The mutex is always released by a deferred call, also when the method panics. A nil UID is an ordinary key for the link
cache, which never looks at the string; there only nil links matter.
-/

namespace Netscrape.Plan
open Netscrape.Conc

/-- A call on the plan; `none` is a nil UID, or a nil resource, or a resource whose UID is nil. -/
inductive NOp where
  | add (r : Option Resource)
  | get (u : Option Uid)
  | getAll (o : Order (String × Resource))
  | delete (u : Option Uid)

/-- What a call does: it returns, or it panics. -/
inductive NOut where
  | ret (out : Out)
  | panic
deriving DecidableEq

/-- The outcome of a method that does not panic. -/
def bodyN (b : Body) : Prog Unit Unit Simple NOut := b.bind fun out => .ret (.ret out)

/-- The methods (pkg/plan/simple/simple.go:38-42, 56-61, 72-76, 84-88): `r.UID().String()` (line 33) and `uid.String()`
(lines 64 and 79) panic before the map is looked at. -/
def progN : NOp → Prog Unit Unit Simple NOut
  | .add (some r) => (bodyN (addBody r)).excl ()
  | .add none => (Prog.ret .panic).excl ()
  | .get (some u) => (bodyN (getBody u)).shared ()
  | .get none => (Prog.ret .panic).shared ()
  | .getAll o => (bodyN (getAllBody o)).shared ()
  | .delete (some u) => (bodyN (deleteBody u)).excl ()
  | .delete none => (Prog.ret .panic).excl ()

end Netscrape.Plan

namespace Netscrape.Cache
open Netscrape.Conc

/-- A call on the cache; `none` is a nil link. -/
inductive NOp where
  | put (x : Option Link) (upsert : Bool)
  | bulkPut (xs : List (Option Link)) (upsert : Bool)
  | other (op : COp)

/-- What a call does: it returns, or it panics. -/
inductive NOut where
  | ret (out : COut)
  | panic
deriving DecidableEq

/-- The loop of `BulkPut` (pkg/cache/memory/links.go:134-138): `link.From()` (line 36) panics for a nil link. -/
def putAllN (upsert : Bool) : List (Option Link) → Body NOut
  | [] => .ret (.ret .done)
  | none :: _ => .ret .panic
  | some x :: xs => (putBody x upsert (.ret .done)).bind fun _ => putAllN upsert xs

/-- `Put` (pkg/cache/memory/links.go:63-67), `BulkPut` (:130-140) and the other methods. -/
def progN : NOp → Body NOut
  | .put (some x) up => ((putBody x up (.ret .done)).bind fun out => .ret (.ret out)).excl ()
  | .put none _ => (Prog.ret .panic).excl ()
  | .bulkPut xs up => (putAllN up xs).excl ()
  | .other op => (prog op).bind fun out => .ret (.ret out)

end Netscrape.Cache
