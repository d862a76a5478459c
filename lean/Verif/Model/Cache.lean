import Verif.Go.Basic

/-!
# Model of pkg/cache/memory (the link cache)
-/

namespace Netscrape.Cache

/-- `cache.Link` (pkg/cache/cache.go:11-20): the data its methods return. -/
structure Link where
  uid : Uid
  src : Uid
  dst : Uid
  attrs : Ref
deriving DecidableEq, Repr

/-- One index: `map[uuid.UID]map[uuid.UID]cache.Link`. Keys are interface values, compared by
identity. -/
abbrev Index := GoMap Uid (GoMap Uid Link)

/-- `Links` (pkg/cache/memory/links.go:12-19); the mutex is modelled separately. -/
structure Links where
  fr : Index
  to : Index

/-- `NewLinks` (pkg/cache/memory/links.go:22-28). -/
def new : Links := ⟨GoMap.empty, GoMap.empty⟩

/-- `index[a]` as an inner map: a missing entry is a nil map, which reads as empty. -/
def inner (ix : Index) (a : Uid) : GoMap Uid Link := (ix.get? a).getD GoMap.empty

/-- `index[a][b] = l` (the inner map exists when this runs). -/
def assign (ix : Index) (a b : Uid) (l : Link) : Index := ix.set a ((inner ix a).set b l)

/-- `if index[a][b] == nil { index[a] = make(...) }` (pkg/cache/memory/links.go:38-44). -/
def reset (ix : Index) (a b : Uid) : Index :=
  match (inner ix a).get? b with
  | none => ix.set a GoMap.empty
  | some _ => ix

/-- `if _, ok := index[a][b]; !ok { index[a][b] = l }` (pkg/cache/memory/links.go:52-58). -/
def assignIfAbsent (ix : Index) (a b : Uid) (l : Link) : Index :=
  match (inner ix a).get? b with
  | none => assign ix a b l
  | some _ => ix

/-- `put` (pkg/cache/memory/links.go:30-60), `Put` (:63-67). -/
def put (c : Links) (l : Link) (upsert : Bool) : Links :=
  let f := l.src
  let t := l.dst
  let c := { c with fr := reset c.fr f t }
  let c := { c with to := reset c.to t f }
  if upsert then
    { fr := assign c.fr f t l, to := assign c.to t f l }
  else
    { fr := assignIfAbsent c.fr f t l, to := assignIfAbsent c.to t f l }

/-- `get` (pkg/cache/memory/links.go:69-79): the values of an inner map in iteration order. -/
def get (o : Order (Uid × Link)) (m : GoMap Uid Link) : List Link := (o.run m.entries).map Prod.snd

/-- `GetFrom` (pkg/cache/memory/links.go:82-91). -/
def getFrom (c : Links) (o : Order (Uid × Link)) (u : Uid) : List Link :=
  match c.fr.get? u with
  | some m => get o m
  | none => []

/-- `GetTo` (pkg/cache/memory/links.go:94-103). -/
def getTo (c : Links) (o : Order (Uid × Link)) (u : Uid) : List Link :=
  match c.to.get? u with
  | some m => get o m
  | none => []

/-- `delete`, `Delete` (pkg/cache/memory/links.go:105-116). -/
def delete (c : Links) (u : Uid) : Links := { fr := c.fr.del u, to := c.to.del u }

/-- `Clear` (pkg/cache/memory/links.go:119-127). -/
def clear (_ : Links) : Links := ⟨GoMap.empty, GoMap.empty⟩

/-- `BulkPut` (pkg/cache/memory/links.go:130-140); `put` never fails, so the loop runs to the end. -/
def bulkPut (c : Links) (ls : List Link) (upsert : Bool) : Links :=
  ls.foldl (fun c l => put c l upsert) c

/-- The loop shared by `BulkGetFrom` (pkg/cache/memory/links.go:143-163) and `BulkGetTo` (:166-186).
`os` gives the iteration order used for the `i`-th requested UID. -/
def bulkGetLoop (ix : Index) (os : Nat → Order (Uid × Link)) :
    Nat → List Uid → GoMap Uid (List Link) → GoMap Uid (List Link)
  | _, [], m => m
  | i, u :: us, m =>
    match ix.get? u with
    | none => bulkGetLoop ix os (i + 1) us m
    | some inn => bulkGetLoop ix os (i + 1) us (m.set u ([] ++ get (os i) inn))

/-- `BulkGetFrom` (pkg/cache/memory/links.go:143-163). -/
def bulkGetFrom (c : Links) (os : Nat → Order (Uid × Link)) (us : List Uid) :
    GoMap Uid (List Link) := bulkGetLoop c.fr os 0 us GoMap.empty

/-- `BulkGetTo` (pkg/cache/memory/links.go:166-186). -/
def bulkGetTo (c : Links) (os : Nat → Order (Uid × Link)) (us : List Uid) :
    GoMap Uid (List Link) := bulkGetLoop c.to os 0 us GoMap.empty

/-- `BulkDelete` (pkg/cache/memory/links.go:189-199). -/
def bulkDelete (c : Links) (us : List Uid) : Links := us.foldl delete c

/-- A call that changes the cache. -/
inductive Op where
  | put (l : Link) (upsert : Bool)
  | delete (u : Uid)
  | clear
  | bulkPut (ls : List Link) (upsert : Bool)
  | bulkDelete (us : List Uid)
deriving DecidableEq, Repr

def step (c : Links) : Op → Links
  | .put l up => put c l up
  | .delete u => delete c u
  | .clear => clear c
  | .bulkPut ls up => bulkPut c ls up
  | .bulkDelete us => bulkDelete c us

/-- The cache after a history of calls on a new cache. -/
def run (hist : List Op) : Links := hist.foldl step new

end Netscrape.Cache
