import Verif.Go.RWMutex
import Verif.Model.GraphPtr

/-!
# A graph in use while the DOTIDs of its nodes and edges are set

The methods of pkg/graph/memory with their locking, on graphs of objects (`Model.GraphPtr`). `SetDOTID` of a node or
edge writes its field `dotid` without any lock (pkg/graph/memory/node.go:64-66, edge.go:116-118). `Node.ID` has a value
receiver (node.go:54): calling it on a `*Node` reads the whole node, so also its `dotid`. `Edge.ReversedEdge`
(edge.go:84-93) copies the `dotid` of the edge. The fields other than `dotid` never change, so reading them needs no
steps; nor do further calls of `ID` of the same node in the same method.

Left out: `SubGraph`, and `DOT`, whose purpose is to read DOTIDs.
-/

namespace Netscrape.DotIds
open Netscrape.Conc Netscrape.GraphPtr
open Netscrape.Graph (Opt Err Ent applyAll)

/-- The locations: the map `g.nodes`, the gonum graph, the memory new objects are made in, and the DOTID of each node
and of each edge. -/
inductive Loc where
  | nodes
  | builder
  | alloc
  | node (p : NPtr)
  | edge (p : EPtr)
deriving DecidableEq

abbrev DProg (ρ : Type) := Prog Unit Loc St ρ

/-- `n.ID()` for a `*Node` (pkg/graph/memory/node.go:54-56). -/
def idOf {ρ : Type} (p : NPtr) (k : Int → DProg ρ) : DProg ρ := .read (.node p) fun s => k (s.mem.id p)

/-- `n.ID()` for several nodes. -/
def idsOf {ρ : Type} : List NPtr → DProg ρ → DProg ρ
  | [], k => k
  | p :: ps, k => idOf p fun _ => idsOf ps k

/-- `WG.NewNode` (pkg/graph/memory/wg.go:71-94). If the ID allocator panics the model releases the lock. -/
def newNodeP (o : Order (Int × Unit)) (e : Ent) (opts : List Opt) : DProg (Res Err NPtr) :=
  .lock () <| .read .builder fun s =>
    match s.g.b.newNodeID o with
    | none => .unlock () <| .ret .panic
    | some id => .unlock () <| .write .alloc (fun s => ⟨(makeNode s.mem id e opts).2, s.g⟩) fun s =>
      .lock () <| .read .nodes fun s' =>
        match s'.g.nodes.get? e.uid.str with
        | some q => .unlock () <| .ret (.ok q)
        | none => .unlock () <| .ret (.ok (makeNode s.mem id e opts).1)

/-- `g.nodes[n.UID().String()] = n`. -/
def setNode (p : NPtr) (s : St) : St := ⟨s.mem, { s.g with nodes := s.g.nodes.set (s.mem.key p) p }⟩

/-- `WG.AddNode` (pkg/graph/memory/wg.go:102-133). -/
def addNodeP (p : NPtr) (opts : List Opt) : DProg (Res Err Unit) :=
  .excl () <| idOf p fun i => .read .builder fun s =>
    match s.g.b.nodes.get? i with
    | some _ => .read .nodes fun s =>
      match s.g.nodes.get? (s.mem.key p) with
      | some _ =>
        if (applyAll opts).upsert = false then .ret (.err .duplicateNode)
        else .write .nodes (setNode p) fun _ => .write .nodes (setNode p) fun _ => .ret (.ok ())
      | none => .write .nodes (setNode p) fun _ => .ret (.ok ())
    | none =>
      .write .builder (fun s => match s.g.b.addNode s.mem p with
        | none => s
        | some b => ⟨s.mem, { s.g with b := b }⟩) fun s =>
      match s.g.b.addNode s.mem p with
      | none => .ret .panic
      | some _ => .write .nodes (setNode p) fun _ => .ret (.ok ())

/-- `WG.Node` (pkg/graph/memory/wg.go:137-146). -/
def nodeP (u : Uid) : DProg (Res Err NPtr) :=
  .shared () <| .read .nodes fun s =>
    match s.g.nodes.get? u.str with
    | some p => .ret (.ok p)
    | none => .ret (.err .nodeNotFound)

/-- `WG.Nodes` (pkg/graph/memory/wg.go:149-161). -/
def nodesP (o : Order (Int × NPtr)) : DProg (List NPtr) :=
  .rlock () <| .read .builder fun s => .runlock () <| .ret (s.g.b.allNodes o)

/-- `WG.RemoveNode` (pkg/graph/memory/wg.go:164-186). -/
def removeNodeP (u : Uid) : DProg (Res Err Unit) :=
  .rlock () <| .read .nodes fun s =>
    match s.g.nodes.get? u.str with
    | none => .runlock () <| .ret (.ok ())
    | some p => .runlock () <| .excl () <| idOf p fun i =>
      .write .builder (fun s => ⟨s.mem, { s.g with b := s.g.b.removeNode i }⟩) fun _ =>
      .write .nodes (fun s => ⟨s.mem, { s.g with nodes := s.g.nodes.del u.str }⟩) fun _ =>
      .ret (.ok ())

/-- `WG.Edge` (pkg/graph/memory/wg.go:230-252). The undirected gonum graph asks the edge it has for its start and, if
that is not `u`, for its reverse. -/
def edgeP (u v : Uid) : DProg (Res Err EPtr) :=
  .shared () <| .read .nodes fun s =>
    match s.g.nodes.get? u.str with
    | none => .ret (.err .nodeNotFound)
    | some f => .read .nodes fun s =>
      match s.g.nodes.get? v.str with
      | none => .ret (.err .nodeNotFound)
      | some t => idOf f fun i => idOf t fun j => .read .builder fun s =>
        match s.g.b.edges with
        | .directed fr _ =>
          match fr.at i j with
          | none => .ret (.err .edgeNotExist)
          | some e => .ret (.ok e)
        | .undirected ed =>
          match ed.at i j with
          | none => .ret (.err .edgeNotExist)
          | some e => idOf (s.mem.edge e).src fun i' =>
            if i' = i then .ret (.ok e)
            else .read (.edge e) fun _ => .write .alloc (fun s => ⟨(s.mem.reversed e).2, s.g⟩) fun s =>
              .ret (.ok (s.mem.reversed e).1)

/-- The second critical section of `WG.Link` (pkg/graph/memory/wg.go:216-226); gonum's `SetWeightedEdge` asks both ends
for their IDs. -/
def linkApplyP (fresh : Uid) (newAddr : Nat) (f t : NPtr) (opts : List Opt) : DProg (Res Err EPtr) :=
  .excl () <| .write .alloc (fun s => ⟨(makeEdge s.mem fresh newAddr f t opts).2, s.g⟩) fun s =>
    idOf f fun _ => idOf t fun _ =>
    .write .builder (fun s' => match s'.g.b.setWeightedEdge s'.mem (makeEdge s.mem fresh newAddr f t opts).1 with
      | none => s'
      | some b => ⟨s'.mem, { s'.g with b := b }⟩) fun s' =>
    match s'.g.b.setWeightedEdge s'.mem (makeEdge s.mem fresh newAddr f t opts).1 with
    | none => .ret .panic
    | some _ => .ret (.ok (makeEdge s.mem fresh newAddr f t opts).1)

/-- `WG.Link` (pkg/graph/memory/wg.go:190-227). It calls `Edge`, which takes the read lock again. -/
def linkP (fresh : Uid) (newAddr : Nat) (from' to : Uid) (opts : List Opt) : DProg (Res Err EPtr) :=
  .rlock () <| (edgeP from' to).bind fun r =>
    match r with
    | .ok e => .runlock () <| .ret (.ok e)
    | .err .edgeNotExist => .read .nodes fun s =>
      match s.g.nodes.get? from'.str with
      | none => .runlock () <| .ret (.err .nodeNotFound)
      | some f => .read .nodes fun s =>
        match s.g.nodes.get? to.str with
        | none => .runlock () <| .ret (.err .nodeNotFound)
        | some t => .runlock () <| linkApplyP fresh newAddr f t opts
    | .err e => .runlock () <| .ret (.err e)
    | .panic => .runlock () <| .ret .panic

/-- The nodes gonum's `WeightedEdges` asks for their IDs: all nodes of a directed graph, the ends of all edges of an
undirected one. -/
def asked (m : Mem) (b : Builder) (o : EdgeOrder) : List NPtr :=
  match b.edges with
  | .directed _ _ => b.allNodes o.nodes
  | .undirected ed => ((o.rows.run ed.entries).flatMap fun kr => ((o.row kr.1).run kr.2.entries).map Prod.snd).flatMap
      fun e => [(m.edge e).src, (m.edge e).dst]

/-- `WG.Edges` (pkg/graph/memory/wg.go:255-268). -/
def edgesP (o : EdgeOrder) : DProg (List EPtr) :=
  .rlock () <| .read .builder fun s => idsOf (asked s.mem s.g.b o) <|
    .runlock () <| .ret (s.g.b.weightedEdges s.mem o)

/-- `WG.From` (pkg/graph/memory/wg.go:271-291). -/
def fromP (o : Order (Int × EPtr)) (u : Uid) : DProg (List NPtr) :=
  .rlock () <| .read .nodes fun s =>
    match s.g.nodes.get? u.str with
    | none => .runlock () <| .ret []
    | some p => idOf p fun i => .read .builder fun s => .runlock () <| .ret (s.g.b.fromNodes o i)

/-- `WG.Unlink` (pkg/graph/memory/wg.go:295-318). -/
def unlinkP (from' to : Uid) : DProg (Res Err Unit) :=
  .rlock () <| .read .nodes fun s =>
    match s.g.nodes.get? from'.str with
    | none => .runlock () <| .ret (.ok ())
    | some f => .read .nodes fun s =>
      match s.g.nodes.get? to.str with
      | none => .runlock () <| .ret (.ok ())
      | some t => .runlock () <| .lock () <| idOf f fun i => idOf t fun j =>
        .write .builder (fun s => ⟨s.mem, { s.g with b := s.g.b.removeEdge i j }⟩) fun _ =>
        .unlock () <| .ret (.ok ())

/-- A call on the graph, or on a node or an edge. -/
inductive Op where
  | newNode (o : Order (Int × Unit)) (e : Ent) (opts : List Opt)
  | addNode (p : NPtr) (opts : List Opt)
  | node (u : Uid)
  | nodes (o : Order (Int × NPtr))
  | removeNode (u : Uid)
  | link (fresh : Uid) (newAddr : Nat) (from' to : Uid) (opts : List Opt)
  | edge (u v : Uid)
  | edges (o : EdgeOrder)
  | from' (o : Order (Int × EPtr)) (u : Uid)
  | unlink (from' to : Uid)
  | nodeDOT (p : NPtr)
  | edgeDOT (p : EPtr)
  | setNodeDOT (p : NPtr) (x : String)
  | setEdgeDOT (p : EPtr) (x : String)

/-- What a call returns. -/
inductive Out where
  | node (r : Res Err NPtr)
  | unit (r : Res Err Unit)
  | edge (r : Res Err EPtr)
  | nodes (l : List NPtr)
  | edges (l : List EPtr)
  | dotid (x : String)
deriving DecidableEq

/-- The bodies. `DOTID` and `SetDOTID`: pkg/graph/memory/node.go:59-66, edge.go:111-118. -/
def prog : Op → DProg Out
  | .newNode o e opts => (newNodeP o e opts).bind fun r => .ret (.node r)
  | .addNode p opts => (addNodeP p opts).bind fun r => .ret (.unit r)
  | .node u => (nodeP u).bind fun r => .ret (.node r)
  | .nodes o => (nodesP o).bind fun r => .ret (.nodes r)
  | .removeNode u => (removeNodeP u).bind fun r => .ret (.unit r)
  | .link fresh a f t opts => (linkP fresh a f t opts).bind fun r => .ret (.edge r)
  | .edge u v => (edgeP u v).bind fun r => .ret (.edge r)
  | .edges o => (edgesP o).bind fun r => .ret (.edges r)
  | .from' o u => (fromP o u).bind fun r => .ret (.nodes r)
  | .unlink f t => (unlinkP f t).bind fun r => .ret (.unit r)
  | .nodeDOT p => .read (.node p) fun s => .ret (.dotid (s.mem.node p).dotid)
  | .edgeDOT p => .read (.edge p) fun s => .ret (.dotid (s.mem.edge p).dotid)
  | .setNodeDOT p x => .write (.node p) (fun s => ⟨s.mem.setNodeDOT p x, s.g⟩) fun _ => .ret (.unit (.ok ()))
  | .setEdgeDOT p x => .write (.edge p) (fun s => ⟨s.mem.setEdgeDOT p x, s.g⟩) fun _ => .ret (.unit (.ok ()))

abbrev DCfg := Cfg Unit Loc St Op Out

end Netscrape.DotIds
