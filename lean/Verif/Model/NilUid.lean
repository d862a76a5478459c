import Verif.Model.StoreConc

/-!
# Graph and store: calls that panic, with nil UIDs

A UID is an interface value and may be nil, and so may the UID of an entity. The methods call `String()` on it while
they hold the mutex, and that panics. Unlocks that the code defers run during the panic, others do not; if the caller
recovers, what was not unlocked stays locked. Here `none` is the nil UID. The rest of a call is as in
`GraphConc` and `StoreConc`.
-/

namespace Netscrape.Graph
open Netscrape.Conc
open Netscrape.Gonum (EdgeOrder)

variable {μ : Type}

/-- An entity given to `NewNode` or `Add`: one that has a UID, or one whose UID is nil, such as `&entity.Entity{}`
(pkg/space/entity/entity.go:15-20); for that, what `DOTID()` returns if the type has it (pkg/graph/graph.go:32-38).
The nil entity behaves like one with a nil UID and no `DOTID`. -/
inductive NEnt where
  | ent (e : Ent)
  | nil (dot : Option String)

/-- `WG.NewNode` (pkg/graph/memory/wg.go:71-94). If the ID allocator panics, line 79 is not reached. For an entity
with a nil UID `memory.NewNode` panics in pkg/graph/memory/node.go:33 if it needs the UID for want of a DOTID; else line
87 panics, and neither line 88 nor 91 is reached. -/
def newNodeN (m : μ) (o : Order (Int × Unit)) (e : NEnt) (opts : List Opt) : GProg μ (Res Err Node) :=
  .lock m <| .read .builder fun s =>
    match s.g.b.newNodeID o with
    | none => .ret .panic
    | some id => .unlock m <|
      match e with
      | .ent e =>
        .write .heap (fun s => ⟨(mkNode s.heap id e opts).2, s.g⟩) fun s =>
          .lock m <| .read .nodes fun s' =>
            match s'.g.nodes.get? (mkNode s.heap id e opts).1.key with
            | some n => .unlock m <| .ret (.ok n)
            | none => .unlock m <| .ret (.ok (mkNode s.heap id e opts).1)
      | .nil dot =>
        if (applyAll opts).dotid = "" ∧ dot = none then .ret .panic
        else .write .heap (fun s => ⟨(attrsOrNew s.heap (applyAll opts).attrs).2, s.g⟩) fun _ => .lock m <| .ret .panic

/-- `WG.AddNode` (pkg/graph/memory/wg.go:102-133) for a node whose entity has a nil UID: line 117, or 130 after the
node has been given to the gonum graph, panics; the unlock is deferred. The UID of `n` stands for nil and is not looked
at. -/
def addNilP (m : μ) (n : Node) : GProg μ (Res Err Unit) :=
  .excl m <| .read .builder fun s =>
    match s.g.b.node? n.id with
    | some _ => .ret .panic
    | none => .write .builder (fun s => match s.g.b.addNode n with
        | none => s
        | some b => ⟨s.heap, { s.g with b := b }⟩) fun _ => .ret .panic

/-- `WG.Node` (pkg/graph/memory/wg.go:137-146): the read lock is released by a deferred call. -/
def nodeN (m : μ) : Option Uid → GProg μ (Res Err Node)
  | some u => nodeP m u
  | none => .shared m <| .ret .panic

/-- `WG.RemoveNode` (pkg/graph/memory/wg.go:164-186): line 166 panics, line 168 or 171 is not reached. -/
def removeNodeN (m : μ) : Option Uid → GProg μ (Res Err Unit)
  | some u => removeNodeP m u
  | none => .rlock m <| .ret .panic

/-- `WG.Edge` (pkg/graph/memory/wg.go:230-252): the second UID is looked at if the first is known. -/
def edgeN (m : μ) : Option Uid → Option Uid → GProg μ (Res Err Edge)
  | some u, some v => edgeP m u v
  | none, _ => .shared m <| .ret .panic
  | some u, none => .shared m <| .read .nodes fun s =>
    match s.g.nodes.get? u.str with
    | none => .ret (.err .nodeNotFound)
    | some _ => .ret .panic

/-- `WG.Link` (pkg/graph/memory/wg.go:190-227): `Edge` panics in line 192, after its own `RUnlock`; the
read lock that line 191 took is not released. -/
def linkN (m : μ) (fresh : Uid) (newAddr : Nat) (from' to : Option Uid) (opts : List Opt) :
    GProg μ (Res Err Edge) :=
  match from', to with
  | some f, some t => linkP m fresh newAddr f t opts
  | f, t => .rlock m <| (edgeN m f t).bind fun r =>
    match r with
    | .err e => .runlock m <| .ret (.err e)
    | r => .ret r

/-- `WG.From` (pkg/graph/memory/wg.go:271-291): line 273 panics; the result is then `none`. -/
def fromN (m : μ) (o : Order (Int × Edge)) : Option Uid → GProg μ (Option (List Node))
  | some u => (fromP m o u).bind fun l => .ret (some l)
  | none => .rlock m <| .ret none

/-- `WG.Unlink` (pkg/graph/memory/wg.go:295-318): line 297 panics, or line 303 if the first UID is known. -/
def unlinkN (m : μ) : Option Uid → Option Uid → GProg μ (Res Err Unit)
  | some f, some t => unlinkP m f t
  | none, _ => .rlock m <| .ret .panic
  | some f, none => .rlock m <| .read .nodes fun s =>
    match s.g.nodes.get? f.str with
    | none => .runlock m <| .ret (.ok ())
    | some _ => .ret .panic

/-- `WG.SubGraph` (pkg/graph/memory/wg.go:321-395): line 323 panics. -/
def subGraphN (m : μ) (ora : SubOracle) (u : Option Uid) (depth : Int) (opts : List Opt) :
    GProg μ (Res Err WG) :=
  match u with
  | some u => subGraphP m ora u depth opts
  | none => .rlock m <| .ret .panic

/-- A call on the graph, with UIDs that may be nil. -/
inductive NOp where
  | newNode (o : Order (Int × Unit)) (e : NEnt) (opts : List Opt)
  | addNode (n : Node) (opts : List Opt)
  | addNil (n : Node)
  | addForeign
  | node (u : Option Uid)
  | nodes (o : Order (Int × Node))
  | removeNode (u : Option Uid)
  | link (fresh : Uid) (newAddr : Nat) (from' to : Option Uid) (opts : List Opt)
  | edge (u v : Option Uid)
  | edges (o : EdgeOrder)
  | from' (o : Order (Int × Edge)) (u : Option Uid)
  | unlink (from' to : Option Uid)
  | subGraph (ora : SubOracle) (u : Option Uid) (depth : Int) (opts : List Opt)
  | dot

/-- What a call does: it returns, or it panics. -/
inductive NOut where
  | ret (out : COut)
  | panic

/-- The outcome of a call, given how to wrap the value it returns. -/
def NOut.of {α : Type} (f : Res Err α → COut) : Res Err α → NOut
  | .panic => .panic
  | r => .ret (f r)

/-- The methods. -/
def progN (m : μ) : NOp → GProg μ NOut
  | .newNode o e opts => (newNodeN m o e opts).bind fun r => .ret (.of .node r)
  | .addNode n opts => (addNodeP m n opts).bind fun r => .ret (.of .unit r)
  | .addNil n => (addNilP m n).bind fun r => .ret (.of .unit r)
  | .addForeign => addForeignP.bind fun r => .ret (.of .unit r)
  | .node u => (nodeN m u).bind fun r => .ret (.of .node r)
  | .nodes o => (nodesP m o).bind fun r => .ret (.ret (.nodes r))
  | .removeNode u => (removeNodeN m u).bind fun r => .ret (.of .unit r)
  | .link fresh a f t opts => (linkN m fresh a f t opts).bind fun r => .ret (.of .edge r)
  | .edge u v => (edgeN m u v).bind fun r => .ret (.of .edge r)
  | .edges o => (edgesP m o).bind fun r => .ret (.ret (.edges r))
  | .from' o u => (fromN m o u).bind fun r =>
    match r with
    | some l => .ret (.ret (.nodes l))
    | none => .ret .panic
  | .unlink f t => (unlinkN m f t).bind fun r => .ret (.of .unit r)
  | .subGraph ora u d opts => (subGraphN m ora u d opts).bind fun r => .ret (.of .graph r)
  | .dot => (dotP m).bind fun _ => .ret (.ret .dot)

end Netscrape.Graph

namespace Netscrape.Store
open Netscrape.Conc
open Netscrape.Graph (NEnt Node St newNodeN addNodeP nodeN removeNodeN linkN unlinkN)

/-- `add` (pkg/store/memory/store.go:68-92). -/
def addN (o : Order (Int × Unit)) (e : NEnt) (opts : List SOpt) : SProg (Res Err Unit) :=
  (newNodeN .graph o e [.withAttrs (applyAll opts).attrs]).bind fun r =>
    match r with
    | .panic => .ret .panic
    | .err x => .ret (.err (.graph x))
    | .ok n =>
      if (applyAll opts).upsert = false then
        (addNodeP .graph n []).bind fun r =>
          match r with
          | .ok () => .ret (.ok ())
          | .err .duplicateNode => .ret (.err .alreadyExists)
          | .err x => .ret (.err (.graph x))
          | .panic => .ret .panic
      else
        (addNodeP .graph n [.withUpsert]).bind fun r =>
          match r with
          | .ok () => .ret (.ok ())
          | .err x => .ret (.err (.graph x))
          | .panic => .ret .panic

/-- `get` (pkg/store/memory/store.go:102-117). -/
def getN (u : Option Uid) : SProg (Res Err Node) :=
  (nodeN .graph u).bind fun r =>
    match r with
    | .ok n => .ret (.ok n)
    | .err .nodeNotFound => .ret (.err .entityNotFound)
    | .err x => .ret (.err (.graph x))
    | .panic => .ret .panic

/-- `delete` (pkg/store/memory/store.go:127-134). -/
def deleteN (u : Option Uid) : SProg (Res Err Unit) :=
  (removeNodeN .graph u).bind fun r =>
    match r with
    | .ok () => .ret (.ok ())
    | .err x => .ret (.err (.graph x))
    | .panic => .ret .panic

/-- `link` (pkg/store/memory/store.go:144-155). -/
def storeLinkN (fresh : Uid) (newAddr : Nat) (from' to : Option Uid) (opts : List SOpt) : SProg (Res Err Unit) :=
  (linkN .graph fresh newAddr from' to [.withAttrs (applyAll opts).attrs]).bind fun r =>
    match r with
    | .ok _ => .ret (.ok ())
    | .err .nodeNotFound => .ret (.err .entityNotFound)
    | .err x => .ret (.err (.graph x))
    | .panic => .ret .panic

/-- `unlink` (pkg/store/memory/store.go:165-175). -/
def storeUnlinkN (from' to : Option Uid) : SProg (Res Err Unit) :=
  (unlinkN .graph from' to).bind fun r =>
    match r with
    | .ok () => .ret (.ok ())
    | .err x => .ret (.err (.graph x))
    | .panic => .ret .panic

/-- The loop of `BulkGet` (pkg/store/memory/store.go:205-212). -/
def bulkGetN : List (Option Uid) → List (Option Node) → SProg (Res Err (List (Option Node)))
  | [], ents => .ret (.ok ents)
  | u :: us, ents => (getN u).bind fun r =>
    match r with
    | .ok n => bulkGetN us (ents.set 0 (some n))
    | .err x => .ret (.err x)
    | .panic => .ret .panic

/-- A call on the store, with UIDs that may be nil. -/
inductive NOp where
  | add (o : Order (Int × Unit)) (e : NEnt) (opts : List SOpt)
  | get (u : Option Uid)
  | delete (u : Option Uid)
  | link (fresh : Uid) (newAddr : Nat) (from' to : Option Uid) (opts : List SOpt)
  | unlink (from' to : Option Uid)
  | bulkAdd (ents : List (Order (Int × Unit) × NEnt)) (opts : List SOpt)
  | bulkGet (us : List (Option Uid))
  | bulkDelete (us : List (Option Uid))
  | bulkLink (from' : Option Uid) (us : List (Uid × Nat × Option Uid)) (opts : List SOpt)
  | bulkUnlink (from' : Option Uid) (us : List (Option Uid))

/-- The methods (pkg/store/memory/store.go:95-100, 120-125, 137-142, 158-163, 178-253). The store's own
mutex is always released by a deferred call, also when the graph panics. -/
def progN : NOp → SProg COut
  | .add o e opts => .excl .store <| out .unit <| addN o e opts
  | .get u => .shared .store <| out .ent <| getN u
  | .delete u => .excl .store <| out .unit <| deleteN u
  | .link fresh a f t opts => .excl .store <| out .unit <| storeLinkN fresh a f t opts
  | .unlink f t => .excl .store <| out .unit <| storeUnlinkN f t
  | .bulkAdd es opts => .excl .store <| out .unit <| loopP (fun x => addN x.1 x.2 opts) es
  | .bulkGet us => .shared .store <| out .ents <| bulkGetN us (List.replicate us.length none)
  | .bulkDelete us => .excl .store <| out .unit <| loopP deleteN us
  | .bulkLink f us opts => .excl .store <| out .unit <| loopP (fun x => storeLinkN x.1 x.2.1 f x.2.2 opts) us
  | .bulkUnlink f us => .excl .store <| out .unit <| loopP (storeUnlinkN f) us

end Netscrape.Store
