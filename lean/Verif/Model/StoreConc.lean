import Verif.Model.GraphConc
import Verif.Model.Store

/-!
# pkg/store/memory: the methods with their locking

The store's mutex is held around calls of the graph, which uses its own mutex. The graph is reached only
through the store here.
-/

namespace Netscrape.Store
open Netscrape.Conc
open Netscrape.Graph (Ent Node Edge WG St Opt GProg newNodeP addNodeP nodeP removeNodeP linkP unlinkP)

/-- The two mutexes: `Memory.mu` and `WG.mu`. -/
inductive Mtx where
  | store
  | graph
deriving DecidableEq

abbrev SProg (ρ : Type) := GProg Mtx ρ

/-- `add` (pkg/store/memory/store.go:68-92). -/
def addP (o : Order (Int × Unit)) (e : Ent) (opts : List SOpt) : SProg (Res Err Unit) :=
  (newNodeP .graph o e [.withAttrs (applyAll opts).attrs]).bind fun r =>
    match r with
    | .panic => .ret .panic
    | .err x => .ret (.err (.graph x))
    | .ok n =>
      if (applyAll opts).upsert = false then
        (addNodeP .graph n []).bind fun r =>
          match r with
          | .ok () => .ret (.ok ())
          | .err .duplicateNode => .ret (.err .alreadyExists)
          | .err x => .ret (.err (.graph x))
          | .panic => .ret .panic
      else
        (addNodeP .graph n [.withUpsert]).bind fun r =>
          match r with
          | .ok () => .ret (.ok ())
          | .err x => .ret (.err (.graph x))
          | .panic => .ret .panic

/-- `get` (pkg/store/memory/store.go:102-117). -/
def getP (u : Uid) : SProg (Res Err Node) :=
  (nodeP .graph u).bind fun r =>
    match r with
    | .ok n => .ret (.ok n)
    | .err .nodeNotFound => .ret (.err .entityNotFound)
    | .err x => .ret (.err (.graph x))
    | .panic => .ret .panic

/-- `delete` (pkg/store/memory/store.go:127-134). -/
def deleteP (u : Uid) : SProg (Res Err Unit) :=
  (removeNodeP .graph u).bind fun r =>
    match r with
    | .ok () => .ret (.ok ())
    | .err x => .ret (.err (.graph x))
    | .panic => .ret .panic

/-- `link` (pkg/store/memory/store.go:144-155). -/
def storeLinkP (fresh : Uid) (newAddr : Nat) (from' to : Uid) (opts : List SOpt) : SProg (Res Err Unit) :=
  (linkP .graph fresh newAddr from' to [.withAttrs (applyAll opts).attrs]).bind fun r =>
    match r with
    | .ok _ => .ret (.ok ())
    | .err .nodeNotFound => .ret (.err .entityNotFound)
    | .err x => .ret (.err (.graph x))
    | .panic => .ret .panic

/-- `unlink` (pkg/store/memory/store.go:165-175). -/
def storeUnlinkP (from' to : Uid) : SProg (Res Err Unit) :=
  (unlinkP .graph from' to).bind fun r =>
    match r with
    | .ok () => .ret (.ok ())
    | .err x => .ret (.err (.graph x))
    | .panic => .ret .panic

/-- The loop of the bulk writers (pkg/store/memory/store.go:190-195, 221-226, 234-239, 247-252). -/
def loopP {α : Type} (f : α → SProg (Res Err Unit)) : List α → SProg (Res Err Unit)
  | [] => .ret (.ok ())
  | x :: xs => (f x).bind fun r =>
    match r with
    | .ok () => loopP f xs
    | .err e => .ret (.err e)
    | .panic => .ret .panic

/-- The loop of `BulkGet` (pkg/store/memory/store.go:205-212). -/
def bulkGetP : List Uid → List (Option Node) → SProg (Res Err (List (Option Node)))
  | [], ents => .ret (.ok ents)
  | u :: us, ents => (getP u).bind fun r =>
    match r with
    | .ok n => bulkGetP us (ents.set 0 (some n))
    | .err x => .ret (.err x)
    | .panic => .ret .panic

/-! ## Calls -/

/-- A call on the store, with the choices the runtime makes during it. -/
inductive COp where
  | add (o : Order (Int × Unit)) (e : Ent) (opts : List SOpt)
  | get (u : Uid)
  | delete (u : Uid)
  | link (fresh : Uid) (newAddr : Nat) (from' to : Uid) (opts : List SOpt)
  | unlink (from' to : Uid)
  | bulkAdd (ents : List (Order (Int × Unit) × Ent)) (opts : List SOpt)
  | bulkGet (us : List Uid)
  | bulkDelete (us : List Uid)
  | bulkLink (from' : Uid) (us : List (Uid × Nat × Uid)) (opts : List SOpt)
  | bulkUnlink (from' : Uid) (us : List Uid)

/-- What a call returns. -/
inductive COut where
  | unit (r : Res Err Unit)
  | ent (r : Res Err Node)
  | ents (r : Res Err (List (Option Node)))
deriving DecidableEq

/-- Run a body and wrap its result. -/
def out {ρ : Type} (f : ρ → COut) (p : SProg ρ) : SProg COut := p.bind fun r => .ret (f r)

/-- The methods `Add` (pkg/store/memory/store.go:95-100), `Get` (:120-125), `Delete` (:137-142), `Link`
(:158-163), `Unlink` (:178-183), `BulkAdd` (:186-196), `BulkGet` (:199-214), `BulkDelete` (:217-227),
`BulkLink` (:230-240) and `BulkUnlink` (:243-253). -/
def prog : COp → SProg COut
  | .add o e opts => .excl .store <| out .unit <| addP o e opts
  | .get u => .shared .store <| out .ent <| getP u
  | .delete u => .excl .store <| out .unit <| deleteP u
  | .link fresh a f t opts => .excl .store <| out .unit <| storeLinkP fresh a f t opts
  | .unlink f t => .excl .store <| out .unit <| storeUnlinkP f t
  | .bulkAdd es opts => .excl .store <| out .unit <| loopP (fun x => addP x.1 x.2 opts) es
  | .bulkGet us => .shared .store <| out .ents <| bulkGetP us (List.replicate us.length none)
  | .bulkDelete us => .excl .store <| out .unit <| loopP deleteP us
  | .bulkLink f us opts => .excl .store <| out .unit <| loopP (fun x => storeLinkP x.1 x.2.1 f x.2.2 opts) us
  | .bulkUnlink f us => .excl .store <| out .unit <| loopP (storeUnlinkP f) us

/-- One call made alone: new state and returned value. -/
def seq (s : St) : COp → St × COut
  | .add o e opts => ((add s o e opts).2, .unit (add s o e opts).1)
  | .get u => (s, .ent (get s u))
  | .delete u => ((delete s u).2, .unit (delete s u).1)
  | .link fresh a f t opts => ((link s fresh a f t opts).2, .unit (link s fresh a f t opts).1)
  | .unlink f t => ((unlink s f t).2, .unit (unlink s f t).1)
  | .bulkAdd es opts => ((bulkAdd s es opts).2, .unit (bulkAdd s es opts).1)
  | .bulkGet us => (s, .ents (bulkGet s us))
  | .bulkDelete us => ((bulkDelete s us).2, .unit (bulkDelete s us).1)
  | .bulkLink f us opts => ((bulkLink s f us opts).2, .unit (bulkLink s f us opts).1)
  | .bulkUnlink f us => ((bulkUnlink s f us).2, .unit (bulkUnlink s f us).1)

end Netscrape.Store
