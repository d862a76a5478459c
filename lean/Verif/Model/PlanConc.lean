import Verif.Go.RWMutex
import Verif.Model.Plan

/-!
# pkg/plan/simple: the methods with their locking

Each map access is one micro-step; a `range` loop reads one entry at a time. There is one mutex
(`p.mu`) and one location (`p.index`).
-/

namespace Netscrape.Plan
open Netscrape.Conc

abbrev Body := Prog Unit Unit Simple Out

/-- `add` (pkg/plan/simple/simple.go:32-35). -/
def addBody (r : Resource) : Body := .write () (fun p => ⟨p.index.set r.uid.str r⟩) fun _ => .ret .done

/-- `get` (pkg/plan/simple/simple.go:63-69). -/
def getBody (u : Uid) : Body := .read () fun p =>
  match p.index.get? u.str with
  | none => .ret (.got (.err .resourceNotFound))
  | some r => .ret (.got (.ok r))

/-- The loop of `getAll` (pkg/plan/simple/simple.go:48-51) over the keys still to visit; an entry that
is gone when its turn comes is skipped. -/
def rangeBody : List String → List Resource → Body
  | [], acc => .ret (.all acc)
  | k :: ks, acc => .read () fun p =>
    match p.index.get? k with
    | none => rangeBody ks acc
    | some r => rangeBody ks (acc ++ [r])

/-- `getAll` (pkg/plan/simple/simple.go:44-53); the result slice is grown instead of being sized by a
first read of the map. -/
def getAllBody (o : Order (String × Resource)) : Body := .read () fun p =>
  rangeBody ((o.run p.index.entries).map Prod.fst) []

/-- `delete` (pkg/plan/simple/simple.go:78-81). -/
def deleteBody (u : Uid) : Body := .write () (fun p => ⟨p.index.del u.str⟩) fun _ => .ret .done

/-- The methods `Add` (pkg/plan/simple/simple.go:38-42), `Get` (:72-76), `GetAll` (:56-61) and `Delete`
(:84-88). -/
def prog : Op → Body
  | .add r => (addBody r).excl ()
  | .get u => (getBody u).shared ()
  | .getAll o => (getAllBody o).shared ()
  | .delete u => (deleteBody u).excl ()

end Netscrape.Plan
