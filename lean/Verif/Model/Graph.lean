import Verif.Model.Gonum

/-!
# Model of pkg/graph/memory (WG, WDG, WUG)

Each method is split at the points where the code releases and re-takes the lock
(`…Lookup`, `…Apply`), so that the concurrent model can reuse the pieces; the sequential method runs
them one after the other.
-/

namespace Netscrape.Graph
open Netscrape.Gonum (Builder EdgeOrder)

/-- The errors of pkg/graph/errors.go:5-28 that the graph code returns. -/
inductive Err where
  | invalidNode
  | nodeNotFound
  | edgeNotExist
  | duplicateNode
deriving DecidableEq, Repr

/-- `WG` (pkg/graph/memory/wg.go:21-33); the mutex is modelled separately, the DOT options are only
stored. -/
structure WG where
  b : Builder
  uid : Uid
  dotid : String
  nodes : GoMap String Node

/-- `NewWG` (pkg/graph/memory/wg.go:36-60). -/
def newWG (b : Builder) (fresh : Uid) (opts : List Opt) : WG :=
  let o := applyAll opts
  let uid := o.uid.getD fresh
  let dotid := if o.dotid = "" then uid.str else o.dotid
  ⟨b, uid, dotid, GoMap.empty⟩

/-- `NewWDG` (pkg/graph/memory/wdg.go:15-29) and `NewWUG` (pkg/graph/memory/wug.go:15-29). -/
def new (directed : Bool) (fresh : Uid) (opts : List Opt) : WG :=
  newWG (if directed then Gonum.newDirected else Gonum.newUndirected) fresh opts

/-- `WG.NewNode` (pkg/graph/memory/wg.go:71-94). `o` is the order in which the ID allocator's map of
released IDs is iterated. -/
def newNode (h : Heap) (g : WG) (o : Order (Int × Unit)) (e : Ent) (opts : List Opt) :
    Res Err Node × Heap :=
  match g.b.newNodeID o with
  | none => (.panic, h)
  | some id =>
    let (n, h) := mkNode h id e opts
    match g.nodes.get? n.key with
    | some m => (.ok m, h)
    | none => (.ok n, h)

/-- `WG.AddNode` (pkg/graph/memory/wg.go:102-133) for a `*memory.Node`. -/
def addNode (g : WG) (n : Node) (opts : List Opt) : Res Err Unit × WG :=
  match g.b.node? n.id with
  | some _ =>
    match g.nodes.get? n.key with
    | some _ =>
      if (applyAll opts).upsert = false then (.err .duplicateNode, g)
      else (.ok (), { g with nodes := (g.nodes.set n.key n).set n.key n })
    | none => (.ok (), { g with nodes := g.nodes.set n.key n })
  | none =>
    match g.b.addNode n with
    | none => (.panic, g)
    | some b' => (.ok (), { g with b := b', nodes := g.nodes.set n.key n })

/-- `WG.AddNode` for any other implementation of `graph.Node` (pkg/graph/memory/wg.go:108-111). -/
def addForeign (g : WG) : Res Err Unit × WG := (.err .invalidNode, g)

/-- `WG.Node` (pkg/graph/memory/wg.go:137-146). -/
def node (g : WG) (u : Uid) : Res Err Node :=
  match g.nodes.get? u.str with
  | some n => .ok n
  | none => .err .nodeNotFound

/-- `WG.Nodes` (pkg/graph/memory/wg.go:149-161). -/
def nodesList (g : WG) (o : Order (Int × Node)) : List Node := g.b.allNodes o

/-- First critical section of `WG.RemoveNode` (pkg/graph/memory/wg.go:165-171). -/
def removeLookup (g : WG) (u : Uid) : Option Node := g.nodes.get? u.str

/-- Second critical section of `WG.RemoveNode` (pkg/graph/memory/wg.go:178-185). -/
def removeApply (g : WG) (u : Uid) (n : Node) : WG :=
  { g with b := g.b.removeNode n.id, nodes := g.nodes.del u.str }

/-- `WG.RemoveNode` (pkg/graph/memory/wg.go:164-186). -/
def removeNode (g : WG) (u : Uid) : WG :=
  match removeLookup g u with
  | none => g
  | some n => removeApply g u n

/-- `WG.Edge` (pkg/graph/memory/wg.go:230-252). -/
def edge (g : WG) (u v : Uid) : Res Err Edge :=
  match g.nodes.get? u.str with
  | none => .err .nodeNotFound
  | some f =>
    match g.nodes.get? v.str with
    | none => .err .nodeNotFound
    | some t =>
      match g.b.weightedEdge f.id t.id with
      | some e => .ok e
      | none => .err .edgeNotExist

/-- How the first critical section of `Link` ends. -/
inductive LinkStage where
  | done (r : Res Err Edge)
  | create (f t : Node)
deriving DecidableEq

/-- First critical section of `WG.Link` (pkg/graph/memory/wg.go:191-214). -/
def linkLookup (g : WG) (from' to : Uid) : LinkStage :=
  match edge g from' to with
  | .ok e => .done (.ok e)
  | .err .edgeNotExist =>
    match g.nodes.get? from'.str with
    | none => .done (.err .nodeNotFound)
    | some f =>
      match g.nodes.get? to.str with
      | none => .done (.err .nodeNotFound)
      | some t => .create f t
  | .err e => .done (.err e)
  | .panic => .done .panic

/-- Second critical section of `WG.Link` (pkg/graph/memory/wg.go:216-226). -/
def linkApply (h : Heap) (g : WG) (fresh : Uid) (newAddr : Nat) (f t : Node) (opts : List Opt) :
    Res Err Edge × WG × Heap :=
  let (e, h) := mkEdge h fresh newAddr f t opts
  match g.b.setWeightedEdge e with
  | none => (.panic, g, h)
  | some b' => (.ok e, { g with b := b' }, h)

/-- `WG.Link` (pkg/graph/memory/wg.go:190-227). -/
def link (h : Heap) (g : WG) (fresh : Uid) (newAddr : Nat) (from' to : Uid) (opts : List Opt) :
    Res Err Edge × WG × Heap :=
  match linkLookup g from' to with
  | .done r => (r, g, h)
  | .create f t => linkApply h g fresh newAddr f t opts

/-- `WG.Edges` (pkg/graph/memory/wg.go:255-268). -/
def edgesList (g : WG) (o : EdgeOrder) : List Edge := g.b.weightedEdges o

/-- `WG.From` (pkg/graph/memory/wg.go:271-291). -/
def fromList (g : WG) (o : Order (Int × Edge)) (u : Uid) : List Node :=
  match g.nodes.get? u.str with
  | none => []
  | some n => g.b.fromNodes o n.id

/-- First critical section of `WG.Unlink` (pkg/graph/memory/wg.go:296-308). -/
def unlinkLookup (g : WG) (from' to : Uid) : Option (Node × Node) :=
  match g.nodes.get? from'.str with
  | none => none
  | some f =>
    match g.nodes.get? to.str with
    | none => none
    | some t => some (f, t)

/-- Second critical section of `WG.Unlink` (pkg/graph/memory/wg.go:313-315). -/
def unlinkApply (g : WG) (f t : Node) : WG := { g with b := g.b.removeEdge f.id t.id }

/-- `WG.Unlink` (pkg/graph/memory/wg.go:295-318). -/
def unlink (g : WG) (from' to : Uid) : WG :=
  match unlinkLookup g from' to with
  | none => g
  | some (f, t) => unlinkApply g f t

/-! ## Histories -/

/-- A graph and the attribute heap it lives in. -/
structure St where
  heap : Heap
  g : WG

/-- A call, with the choices the runtime makes during it; `env` is anything the rest of the program
does to attribute sets between calls. -/
inductive Op where
  | newNode (o : Order (Int × Unit)) (e : Ent) (opts : List Opt)
  | addNode (n : Node) (opts : List Opt)
  | addForeign
  | removeNode (u : Uid)
  | link (fresh : Uid) (newAddr : Nat) (from' to : Uid) (opts : List Opt)
  | unlink (from' to : Uid)
  | env (h : Heap)

/-- What a call returns. -/
inductive Out where
  | node (r : Res Err Node)
  | unit (r : Res Err Unit)
  | edge (r : Res Err Edge)
deriving DecidableEq

def step (s : St) : Op → St × Out
  | .newNode o e opts =>
    let (r, h) := newNode s.heap s.g o e opts
    (⟨h, s.g⟩, .node r)
  | .addNode n opts =>
    let (r, g) := addNode s.g n opts
    (⟨s.heap, g⟩, .unit r)
  | .addForeign =>
    let (r, g) := addForeign s.g
    (⟨s.heap, g⟩, .unit r)
  | .removeNode u => (⟨s.heap, removeNode s.g u⟩, .unit (.ok ()))
  | .link fresh a f t opts =>
    let (r, g, h) := link s.heap s.g fresh a f t opts
    (⟨h, g⟩, .edge r)
  | .unlink f t => (⟨s.heap, unlink s.g f t⟩, .unit (.ok ()))
  | .env h => (⟨h, s.g⟩, .unit (.ok ()))

/-- The calls of a history paired with what they return, oldest first. -/
def trace (s : St) : List Op → List (Op × Out)
  | [] => []
  | op :: ops => (op, (step s op).2) :: trace (step s op).1 ops

def run (s : St) (ops : List Op) : St := ops.foldl (fun s op => (step s op).1) s

end Netscrape.Graph
