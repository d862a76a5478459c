import Verif.Go.RWMutex
import Verif.Model.Cache

/-!
# pkg/cache/memory: the methods with their locking

Each map access is one micro-step; a `range` loop reads one entry at a time. There is one mutex (`c.mu`)
and two locations, the maps `c.from` and `c.to` with everything they contain.
-/

namespace Netscrape.Cache
open Netscrape.Conc

/-- A call on the cache. -/
inductive COp where
  | write (op : Op)
  | getFrom (o : Order (Uid × Link)) (u : Uid)
  | getTo (o : Order (Uid × Link)) (u : Uid)
  | bulkGetFrom (os : Nat → Order (Uid × Link)) (us : List Uid)
  | bulkGetTo (os : Nat → Order (Uid × Link)) (us : List Uid)

/-- What a call returns. -/
inductive COut where
  | done
  | links (l : List Link)
  | bulk (m : GoMap Uid (List Link))
deriving DecidableEq

/-- One call made alone: new state and returned value. -/
def seq (c : Links) : COp → Links × COut
  | .write op => (step c op, .done)
  | .getFrom o u => (c, .links (getFrom c o u))
  | .getTo o u => (c, .links (getTo c o u))
  | .bulkGetFrom os us => (c, .bulk (bulkGetFrom c os us))
  | .bulkGetTo os us => (c, .bulk (bulkGetTo c os us))

/-- The locations. -/
inductive Loc where
  | fr
  | to
deriving DecidableEq

/-- The map at a location. -/
def Loc.of : Loc → Links → Index
  | .fr, c => c.fr
  | .to, c => c.to

/-- Replace the map at a location. -/
def Loc.put : Loc → Index → Links → Links
  | .fr, ix, c => { c with fr := ix }
  | .to, ix, c => { c with to := ix }

abbrev Body (ρ : Type) := Prog Unit Loc Links ρ

/-- `if index[a][b] == nil { index[a] = make(...) }` (pkg/cache/memory/links.go:38-44). -/
def resetBody (l : Loc) (a b : Uid) (k : Body COut) : Body COut := .read l fun c =>
  match (inner (l.of c) a).get? b with
  | none => .write l (fun c => l.put ((l.of c).set a GoMap.empty) c) fun _ => k
  | some _ => k

/-- `index[a][b] = link` (pkg/cache/memory/links.go:47-48). -/
def assignBody (l : Loc) (a b : Uid) (x : Link) (k : Body COut) : Body COut :=
  .write l (fun c => l.put (assign (l.of c) a b x) c) fun _ => k

/-- `if _, ok := index[a][b]; !ok { index[a][b] = link }` (pkg/cache/memory/links.go:52-58). -/
def assignIfAbsentBody (l : Loc) (a b : Uid) (x : Link) (k : Body COut) : Body COut := .read l fun c =>
  match (inner (l.of c) a).get? b with
  | none => assignBody l a b x k
  | some _ => k

/-- `put` (pkg/cache/memory/links.go:30-60), then `k`. -/
def putBody (x : Link) (upsert : Bool) (k : Body COut) : Body COut :=
  resetBody .fr x.src x.dst <| resetBody .to x.dst x.src <|
    if upsert then assignBody .fr x.src x.dst x <| assignBody .to x.dst x.src x k
    else assignIfAbsentBody .fr x.src x.dst x <| assignIfAbsentBody .to x.dst x.src x k

/-- The loop of `BulkPut` (pkg/cache/memory/links.go:134-138). -/
def putAllBody (upsert : Bool) : List Link → Body COut
  | [] => .ret .done
  | x :: xs => putBody x upsert (putAllBody upsert xs)

/-- `delete` (pkg/cache/memory/links.go:105-109), then `k`. -/
def deleteBody (u : Uid) (k : Body COut) : Body COut :=
  .write .to (fun c => { c with to := c.to.del u }) fun _ =>
  .write .fr (fun c => { c with fr := c.fr.del u }) fun _ => k

/-- The loop of `BulkDelete` (pkg/cache/memory/links.go:193-197). -/
def deleteAllBody : List Uid → Body COut
  | [] => .ret .done
  | u :: us => deleteBody u (deleteAllBody us)

/-- `Clear` (pkg/cache/memory/links.go:123-124). -/
def clearBody : Body COut :=
  .write .fr (fun c => { c with fr := GoMap.empty }) fun _ =>
  .write .to (fun c => { c with to := GoMap.empty }) fun _ => .ret .done

/-- The loop of `get` (pkg/cache/memory/links.go:73-76) over the keys still to visit in the inner map of
`u`. -/
def rangeBody (l : Loc) (u : Uid) : List Uid → List Link → (List Link → Body COut) → Body COut
  | [], acc, k => k acc
  | v :: vs, acc, k => .read l fun c =>
    match (inner (l.of c) u).get? v with
    | none => rangeBody l u vs acc k
    | some x => rangeBody l u vs (acc ++ [x]) k

/-- `GetFrom` (pkg/cache/memory/links.go:86-90) and `GetTo` (:98-102). -/
def getBody (l : Loc) (o : Order (Uid × Link)) (u : Uid) : Body COut := .read l fun c =>
  match (l.of c).get? u with
  | some m => rangeBody l u ((o.run m.entries).map Prod.fst) [] fun ls => .ret (.links ls)
  | none => .ret (.links [])

/-- The loop of `BulkGetFrom` (pkg/cache/memory/links.go:149-161) and `BulkGetTo` (:172-184). -/
def bulkGetBody (l : Loc) (os : Nat → Order (Uid × Link)) :
    Nat → List Uid → GoMap Uid (List Link) → Body COut
  | _, [], m => .ret (.bulk m)
  | i, u :: us, m => .read l fun c =>
    match (l.of c).get? u with
    | none => bulkGetBody l os (i + 1) us m
    | some inn => rangeBody l u (((os i).run inn.entries).map Prod.fst) [] fun ls =>
        bulkGetBody l os (i + 1) us (m.set u ([] ++ ls))

/-- The methods `Put` (pkg/cache/memory/links.go:63-67), `Delete` (:112-116), `Clear` (:119-127),
`BulkPut` (:130-140), `BulkDelete` (:189-199), `GetFrom` (:82-91), `GetTo` (:94-103), `BulkGetFrom`
(:143-163) and `BulkGetTo` (:166-186). -/
def prog : COp → Body COut
  | .write (.put x up) => (putBody x up (.ret .done)).excl ()
  | .write (.delete u) => (deleteBody u (.ret .done)).excl ()
  | .write .clear => clearBody.excl ()
  | .write (.bulkPut xs up) => (putAllBody up xs).excl ()
  | .write (.bulkDelete us) => (deleteAllBody us).excl ()
  | .getFrom o u => (getBody .fr o u).shared ()
  | .getTo o u => (getBody .to o u).shared ()
  | .bulkGetFrom os us => (bulkGetBody .fr os 0 us GoMap.empty).shared ()
  | .bulkGetTo os us => (bulkGetBody .to os 0 us GoMap.empty).shared ()

end Netscrape.Cache
