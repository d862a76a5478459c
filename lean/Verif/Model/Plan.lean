import Verif.Go.Basic

/-!
# Model of pkg/plan/simple
-/

namespace Netscrape.Plan

/-- `plan.Resource` (pkg/plan/plan.go:10-19): the data its methods return. -/
structure Resource where
  uid : Uid
  group : String
  version : String
  kind : String
deriving DecidableEq, Repr

/-- Errors of pkg/plan/errors.go:5-10 that the code returns. -/
inductive Err where
  | resourceNotFound
deriving DecidableEq, Repr

/-- `Simple` (pkg/plan/simple/simple.go:12-17); the mutex is modelled separately
(`Props/Linearizable.lean`). -/
structure Simple where
  index : GoMap String Resource

/-- `NewSimple` (pkg/plan/simple/simple.go:20-30). `plan.Options` is an empty struct, so options have
no effect. -/
def new : Simple := ⟨GoMap.empty⟩

/-- `Add`/`add` (pkg/plan/simple/simple.go:32-42). -/
def add (p : Simple) (r : Resource) : Simple := ⟨p.index.set r.uid.str r⟩

/-- `Get`/`get` (pkg/plan/simple/simple.go:63-76). -/
def get (p : Simple) (uid : Uid) : Res Err Resource :=
  match p.index.get? uid.str with
  | none => .err .resourceNotFound
  | some r => .ok r

/-- `GetAll`/`getAll` (pkg/plan/simple/simple.go:44-61): values in iteration order. -/
def getAll (p : Simple) (o : Order (String × Resource)) : List Resource :=
  (o.run p.index.entries).map Prod.snd

/-- `Delete`/`delete` (pkg/plan/simple/simple.go:78-88). -/
def delete (p : Simple) (uid : Uid) : Simple := ⟨p.index.del uid.str⟩

/-- A call on the plan. `getAll` carries the iteration order the runtime picks for that call. -/
inductive Op where
  | add (r : Resource)
  | get (uid : Uid)
  | getAll (o : Order (String × Resource))
  | delete (uid : Uid)

/-- What a call returns. -/
inductive Out where
  | done
  | got (r : Res Err Resource)
  | all (l : List Resource)
deriving DecidableEq, Repr

/-- One call: new state and returned value. -/
def step (p : Simple) : Op → Simple × Out
  | .add r => (add p r, .done)
  | .get u => (p, .got (get p u))
  | .getAll o => (p, .all (getAll p o))
  | .delete u => (delete p u, .done)

/-- The state after a history of calls. -/
def run (p : Simple) (ops : List Op) : Simple := ops.foldl (fun p op => (step p op).1) p

end Netscrape.Plan
