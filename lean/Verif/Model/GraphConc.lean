import Verif.Go.RWMutex
import Verif.Model.SubGraph

/-!
# pkg/graph/memory: the methods with their locking

Each access to `g.nodes`, each call of the gonum graph and each allocation is one micro-step. `m` is the
mutex `g.mu`. The UID, DOTID and DOT options of a graph never change and need no steps.
-/

namespace Netscrape.Graph
open Netscrape.Conc
open Netscrape.Gonum (EdgeOrder Bfs)

/-- The locations: the map `g.nodes`, the gonum graph, and the memory of attribute sets. -/
inductive Loc where
  | nodes
  | builder
  | heap
deriving DecidableEq

abbrev GProg (μ ρ : Type) := Prog μ Loc St ρ

variable {μ : Type}

/-- `WG.NewNode` (pkg/graph/memory/wg.go:71-94). If the ID allocator panics the model releases the lock;
the code leaves it locked, which matters only if the caller recovers from the panic, see `newNodeN` in `NilUid`. -/
def newNodeP (m : μ) (o : Order (Int × Unit)) (e : Ent) (opts : List Opt) : GProg μ (Res Err Node) :=
  .lock m <| .read .builder fun s =>
    match s.g.b.newNodeID o with
    | none => .unlock m <| .ret .panic
    | some id => .unlock m <|
      .write .heap (fun s => ⟨(mkNode s.heap id e opts).2, s.g⟩) fun s =>
        .lock m <| .read .nodes fun s' =>
          match s'.g.nodes.get? (mkNode s.heap id e opts).1.key with
          | some n => .unlock m <| .ret (.ok n)
          | none => .unlock m <| .ret (.ok (mkNode s.heap id e opts).1)

/-- `g.nodes[n.UID().String()] = n`. -/
def setNode (n : Node) (s : St) : St := ⟨s.heap, { s.g with nodes := s.g.nodes.set n.key n }⟩

/-- `WG.AddNode` (pkg/graph/memory/wg.go:102-133) for a `*memory.Node`. -/
def addNodeP (m : μ) (n : Node) (opts : List Opt) : GProg μ (Res Err Unit) :=
  .excl m <| .read .builder fun s =>
    match s.g.b.node? n.id with
    | some _ => .read .nodes fun s =>
      match s.g.nodes.get? n.key with
      | some _ =>
        if (applyAll opts).upsert = false then .ret (.err .duplicateNode)
        else .write .nodes (setNode n) fun _ => .write .nodes (setNode n) fun _ => .ret (.ok ())
      | none => .write .nodes (setNode n) fun _ => .ret (.ok ())
    | none =>
      .write .builder (fun s => match s.g.b.addNode n with
        | none => s
        | some b => ⟨s.heap, { s.g with b := b }⟩) fun s =>
      match s.g.b.addNode n with
      | none => .ret .panic
      | some _ => .write .nodes (setNode n) fun _ => .ret (.ok ())

/-- `WG.AddNode` for any other implementation of `graph.Node` (pkg/graph/memory/wg.go:108-111). -/
def addForeignP : GProg μ (Res Err Unit) := .ret (.err .invalidNode)

/-- `WG.Node` (pkg/graph/memory/wg.go:137-146). -/
def nodeP (m : μ) (u : Uid) : GProg μ (Res Err Node) :=
  .shared m <| .read .nodes fun s =>
    match s.g.nodes.get? u.str with
    | some n => .ret (.ok n)
    | none => .ret (.err .nodeNotFound)

/-- `WG.Nodes` (pkg/graph/memory/wg.go:149-161). -/
def nodesP (m : μ) (o : Order (Int × Node)) : GProg μ (List Node) :=
  .rlock m <| .read .builder fun s => .runlock m <| .ret (s.g.b.allNodes o)

/-- `WG.RemoveNode` (pkg/graph/memory/wg.go:164-186). -/
def removeNodeP (m : μ) (u : Uid) : GProg μ (Res Err Unit) :=
  .rlock m <| .read .nodes fun s =>
    match s.g.nodes.get? u.str with
    | none => .runlock m <| .ret (.ok ())
    | some n => .runlock m <| .excl m <|
      .write .builder (fun s => ⟨s.heap, { s.g with b := s.g.b.removeNode n.id }⟩) fun _ =>
      .write .nodes (fun s => ⟨s.heap, { s.g with nodes := s.g.nodes.del u.str }⟩) fun _ =>
      .ret (.ok ())

/-- `WG.Edge` (pkg/graph/memory/wg.go:230-252). -/
def edgeP (m : μ) (u v : Uid) : GProg μ (Res Err Edge) :=
  .shared m <| .read .nodes fun s =>
    match s.g.nodes.get? u.str with
    | none => .ret (.err .nodeNotFound)
    | some f => .read .nodes fun s =>
      match s.g.nodes.get? v.str with
      | none => .ret (.err .nodeNotFound)
      | some t => .read .builder fun s =>
        match s.g.b.weightedEdge f.id t.id with
        | some e => .ret (.ok e)
        | none => .ret (.err .edgeNotExist)

/-- The second critical section of `WG.Link` (pkg/graph/memory/wg.go:216-226). -/
def linkApplyP (m : μ) (fresh : Uid) (newAddr : Nat) (f t : Node) (opts : List Opt) :
    GProg μ (Res Err Edge) :=
  .excl m <| .write .heap (fun s => ⟨(mkEdge s.heap fresh newAddr f t opts).2, s.g⟩) fun s =>
    .write .builder (fun s' => match s'.g.b.setWeightedEdge (mkEdge s.heap fresh newAddr f t opts).1 with
      | none => s'
      | some b => ⟨s'.heap, { s'.g with b := b }⟩) fun s' =>
    match s'.g.b.setWeightedEdge (mkEdge s.heap fresh newAddr f t opts).1 with
    | none => .ret .panic
    | some _ => .ret (.ok (mkEdge s.heap fresh newAddr f t opts).1)

/-- `WG.Link` (pkg/graph/memory/wg.go:190-227). It calls `Edge`, which takes the read lock again. -/
def linkP (m : μ) (fresh : Uid) (newAddr : Nat) (from' to : Uid) (opts : List Opt) :
    GProg μ (Res Err Edge) :=
  .rlock m <| (edgeP m from' to).bind fun r =>
    match r with
    | .ok e => .runlock m <| .ret (.ok e)
    | .err .edgeNotExist => .read .nodes fun s =>
      match s.g.nodes.get? from'.str with
      | none => .runlock m <| .ret (.err .nodeNotFound)
      | some f => .read .nodes fun s =>
        match s.g.nodes.get? to.str with
        | none => .runlock m <| .ret (.err .nodeNotFound)
        | some t => .runlock m <| linkApplyP m fresh newAddr f t opts
    | .err e => .runlock m <| .ret (.err e)
    | .panic => .runlock m <| .ret .panic

/-- `WG.Edges` (pkg/graph/memory/wg.go:255-268). -/
def edgesP (m : μ) (o : EdgeOrder) : GProg μ (List Edge) :=
  .rlock m <| .read .builder fun s => .runlock m <| .ret (s.g.b.weightedEdges o)

/-- `WG.From` (pkg/graph/memory/wg.go:271-291). -/
def fromP (m : μ) (o : Order (Int × Edge)) (u : Uid) : GProg μ (List Node) :=
  .rlock m <| .read .nodes fun s =>
    match s.g.nodes.get? u.str with
    | none => .runlock m <| .ret []
    | some n => .read .builder fun s => .runlock m <| .ret (s.g.b.fromNodes o n.id)

/-- `WG.Unlink` (pkg/graph/memory/wg.go:295-318). -/
def unlinkP (m : μ) (from' to : Uid) : GProg μ (Res Err Unit) :=
  .rlock m <| .read .nodes fun s =>
    match s.g.nodes.get? from'.str with
    | none => .runlock m <| .ret (.ok ())
    | some f => .read .nodes fun s =>
      match s.g.nodes.get? to.str with
      | none => .runlock m <| .ret (.ok ())
      | some t => .runlock m <| .lock m <|
        .write .builder (fun s => ⟨s.heap, { s.g with b := s.g.b.removeEdge f.id t.id }⟩) fun _ =>
        .unlock m <| .ret (.ok ())

/-- The loop over the neighbours in `SubGraph` (pkg/graph/memory/wg.go:365-391); `g.WeightedEdges()` is
read without the lock. The new graph is not shared; copying attributes into it is one step on the
heap. -/
def linkPeersP (ora : SubOracle) (sgNodes : GoMap Int Node) (id : Int) (x : Node) :
    List Node → WG → (WG → GProg μ (Res Err WG)) → GProg μ (Res Err WG)
  | [], sg, k => k sg
  | p :: ps, sg, k =>
    match sgNodes.get? p.id with
    | none => linkPeersP ora sgNodes id x ps sg k
    | some to => .read .builder fun s =>
      .write .heap (fun s' =>
        ⟨(linkAll ora x.uid to.uid (s.g.b.weightedEdges (ora.edges id p.id)) sg s'.heap).2, s'.g⟩) fun s' =>
      match (linkAll ora x.uid to.uid (s.g.b.weightedEdges (ora.edges id p.id)) sg s'.heap).1 with
      | .ok sg' => linkPeersP ora sgNodes id x ps sg' k
      | .err e => .ret (.err e)
      | .panic => .ret .panic

/-- The loop over the collected nodes in `SubGraph` (pkg/graph/memory/wg.go:363-392);
`g.WeightedGraphBuilder.From(id)` is read without the lock. -/
def linkNodesP (ora : SubOracle) (sgNodes : GoMap Int Node) :
    List (Int × Node) → WG → GProg μ (Res Err WG)
  | [], sg => .ret (.ok sg)
  | (id, x) :: rest, sg => .read .builder fun s =>
    linkPeersP ora sgNodes id x (s.g.b.fromNodes (ora.peers id) id) sg fun sg' =>
      linkNodesP ora sgNodes rest sg'

/-- `WG.SubGraph` (pkg/graph/memory/wg.go:321-395). -/
def subGraphP (m : μ) (ora : SubOracle) (u : Uid) (depth : Int) (opts : List Opt) :
    GProg μ (Res Err WG) :=
  .rlock m <| .read .nodes fun s =>
    match s.g.nodes.get? u.str with
    | none => .runlock m <| .ret (.err .nodeNotFound)
    | some root => .runlock m <| .rlock m <| .read .builder fun s => .runlock m <|
      match Bfs.walk s.g.b ora.bfs collect (fun _ d => d == depth) root
          ⟨new true ora.graphUid opts, GoMap.empty, none⟩ with
      | none => .ret .panic
      | some w =>
        match w.acc.err with
        | some e => .ret (.err e)
        | none => linkNodesP ora w.acc.nodes (ora.nodes.run w.acc.nodes.entries) w.acc.sg

/-- `WG.DOT` (pkg/graph/memory/wg.go:412-422): line 414 defers `RLock` where `RUnlock` was meant. The
text is not modelled. -/
def dotP (m : μ) : GProg μ Unit := .rlock m <| .read .builder fun _ => .rlock m <| .ret ()

/-! ## Calls -/

/-- A call on the graph, with the choices the runtime makes during it. -/
inductive COp where
  | newNode (o : Order (Int × Unit)) (e : Ent) (opts : List Opt)
  | addNode (n : Node) (opts : List Opt)
  | addForeign
  | node (u : Uid)
  | nodes (o : Order (Int × Node))
  | removeNode (u : Uid)
  | link (fresh : Uid) (newAddr : Nat) (from' to : Uid) (opts : List Opt)
  | edge (u v : Uid)
  | edges (o : EdgeOrder)
  | from' (o : Order (Int × Edge)) (u : Uid)
  | unlink (from' to : Uid)
  | subGraph (ora : SubOracle) (u : Uid) (depth : Int) (opts : List Opt)
  | dot

/-- What a call returns. -/
inductive COut where
  | node (r : Res Err Node)
  | unit (r : Res Err Unit)
  | edge (r : Res Err Edge)
  | nodes (l : List Node)
  | edges (l : List Edge)
  | graph (r : Res Err WG)
  | dot

/-- The methods. -/
def prog (m : μ) : COp → GProg μ COut
  | .newNode o e opts => (newNodeP m o e opts).bind fun r => .ret (.node r)
  | .addNode n opts => (addNodeP m n opts).bind fun r => .ret (.unit r)
  | .addForeign => addForeignP.bind fun r => .ret (.unit r)
  | .node u => (nodeP m u).bind fun r => .ret (.node r)
  | .nodes o => (nodesP m o).bind fun r => .ret (.nodes r)
  | .removeNode u => (removeNodeP m u).bind fun r => .ret (.unit r)
  | .link fresh a f t opts => (linkP m fresh a f t opts).bind fun r => .ret (.edge r)
  | .edge u v => (edgeP m u v).bind fun r => .ret (.edge r)
  | .edges o => (edgesP m o).bind fun r => .ret (.edges r)
  | .from' o u => (fromP m o u).bind fun r => .ret (.nodes r)
  | .unlink f t => (unlinkP m f t).bind fun r => .ret (.unit r)
  | .subGraph ora u d opts => (subGraphP m ora u d opts).bind fun r => .ret (.graph r)
  | .dot => (dotP m).bind fun _ => .ret .dot

/-- One call made alone: new state and returned value. -/
def seq (s : St) : COp → St × COut
  | .newNode o e opts => (⟨(newNode s.heap s.g o e opts).2, s.g⟩, .node (newNode s.heap s.g o e opts).1)
  | .addNode n opts => (⟨s.heap, (addNode s.g n opts).2⟩, .unit (addNode s.g n opts).1)
  | .addForeign => (⟨s.heap, (addForeign s.g).2⟩, .unit (addForeign s.g).1)
  | .node u => (s, .node (node s.g u))
  | .nodes o => (s, .nodes (nodesList s.g o))
  | .removeNode u => (⟨s.heap, removeNode s.g u⟩, .unit (.ok ()))
  | .link fresh a f t opts =>
    (⟨(link s.heap s.g fresh a f t opts).2.2, (link s.heap s.g fresh a f t opts).2.1⟩,
      .edge (link s.heap s.g fresh a f t opts).1)
  | .edge u v => (s, .edge (edge s.g u v))
  | .edges o => (s, .edges (edgesList s.g o))
  | .from' o u => (s, .nodes (fromList s.g o u))
  | .unlink f t => (⟨s.heap, unlink s.g f t⟩, .unit (.ok ()))
  | .subGraph ora u d opts =>
    (⟨(subGraph ora s.heap s.g u d opts).2, s.g⟩, .graph (subGraph ora s.heap s.g u d opts).1)
  | .dot => (s, .dot)

end Netscrape.Graph
