import Verif.Model.Graph

/-!
# Model of pkg/graph/memory with nodes and edges as objects

`Verif.Model.Graph` treats nodes and edges as values. Here they are objects with addresses, as in the
code: the graph's tables hold pointers, `SetDOTID` changes an object in place, and `ReversedEdge` makes a
new one. The gonum functions are those of `Verif.Model.Gonum` with every field read going through memory.
The two models are related in `Verif.Lemmas.GraphPtr`.
-/

namespace Netscrape.GraphPtr
open Netscrape.Graph (Ent Opt Err applyAll mkNode mkEdge)
open Netscrape.Gonum (Ids)

/-- `*memory.Node`. -/
abbrev NPtr := Nat

/-- `*memory.Edge`. -/
abbrev EPtr := Nat

/-- `memory.Edge` (pkg/graph/memory/edge.go:17-24). -/
structure EdgeObj where
  uid : Uid
  attrs : Ref
  src : NPtr
  dst : NPtr
  dotid : String
  weight : Int
deriving DecidableEq

/-- All node, edge and attribute objects allocated so far. Node objects have the fields of `Graph.Node`
(pkg/graph/memory/node.go:14-19). -/
structure Mem where
  nodes : List Graph.Node
  edges : List EdgeObj
  heap : Heap

namespace Mem

/-- The node object at `p`; the default is never observed, as in `Heap.read`. -/
def node (m : Mem) (p : NPtr) : Graph.Node := m.nodes.getD p ⟨⟨⟨0, ""⟩, "", 0, none⟩, 0, "", 0⟩

/-- The edge object at `p`. -/
def edge (m : Mem) (p : EPtr) : EdgeObj := m.edges.getD p ⟨⟨0, ""⟩, 0, 0, 0, "", 0⟩

/-- `p` points to an allocated node. -/
def NodeOk (m : Mem) (p : NPtr) : Prop := p < m.nodes.length

/-- `p` points to an allocated edge. -/
def EdgeOk (m : Mem) (p : EPtr) : Prop := p < m.edges.length

instance (m : Mem) (p : NPtr) : Decidable (m.NodeOk p) := inferInstanceAs (Decidable (_ < _))
instance (m : Mem) (p : EPtr) : Decidable (m.EdgeOk p) := inferInstanceAs (Decidable (_ < _))

/-- `&Node{…}`. -/
def allocNode (m : Mem) (n : Graph.Node) : NPtr × Mem := (m.nodes.length, { m with nodes := m.nodes ++ [n] })

/-- `&Edge{…}`. -/
def allocEdge (m : Mem) (e : EdgeObj) : EPtr × Mem := (m.edges.length, { m with edges := m.edges ++ [e] })

/-- `Node.ID` (pkg/graph/memory/node.go:54-56). -/
def id (m : Mem) (p : NPtr) : Int := (m.node p).id

/-- `n.UID().String()` (pkg/graph/memory/node.go:15). -/
def key (m : Mem) (p : NPtr) : String := (m.node p).key

/-- `Node.SetDOTID` (pkg/graph/memory/node.go:64-66). -/
def setNodeDOT (m : Mem) (p : NPtr) (s : String) : Mem :=
  { m with nodes := m.nodes.set p { m.node p with dotid := s } }

/-- `Edge.SetDOTID` (pkg/graph/memory/edge.go:116-118). -/
def setEdgeDOT (m : Mem) (p : EPtr) (s : String) : Mem :=
  { m with edges := m.edges.set p { m.edge p with dotid := s } }

/-- `Edge.ReversedEdge` (pkg/graph/memory/edge.go:84-93): a new object. -/
def reversed (m : Mem) (p : EPtr) : EPtr × Mem :=
  m.allocEdge { m.edge p with src := (m.edge p).dst, dst := (m.edge p).src }

end Mem

/-! ## gonum, see `Verif.Model.Gonum` -/

/-- `map[int64]map[int64]graph.WeightedEdge`. -/
abbrev Adj := GoMap Int (GoMap Int EPtr)

/-- As `Gonum.Adj.row`. -/
def Adj.row (a : Adj) (i : Int) : GoMap Int EPtr := (a.get? i).getD GoMap.empty

/-- As `Gonum.Adj.at`. -/
def Adj.at (a : Adj) (i j : Int) : Option EPtr := (a.row i).get? j

/-- As `Gonum.Adj.put`. -/
def Adj.put (a : Adj) (i j : Int) (e : EPtr) : Adj := a.set i ((a.row i).set j e)

/-- As `Gonum.Adj.cut`. -/
def Adj.cut (a : Adj) (i j : Int) : Adj :=
  match a.get? i with
  | none => a
  | some r => a.set i (r.del j)

/-- As `Gonum.Adj.cutAll`. -/
def Adj.cutAll (a : Adj) (ks : List Int) (i : Int) : Adj := ks.foldl (fun a k => a.cut k i) a

/-- The edge maps of the directed and of the undirected graph. -/
inductive Edges where
  | directed (fr to : Adj)
  | undirected (ed : Adj)

/-- As `Gonum.Builder`. -/
structure Builder where
  nodes : GoMap Int NPtr
  ids : Ids
  edges : Edges

/-- As `Gonum.newDirected`. -/
def newDirected : Builder := ⟨GoMap.empty, Ids.new, .directed GoMap.empty GoMap.empty⟩

/-- As `Gonum.newUndirected`. -/
def newUndirected : Builder := ⟨GoMap.empty, Ids.new, .undirected GoMap.empty⟩

/-- As `Gonum.Builder.newNodeID`. -/
def Builder.newNodeID (b : Builder) (o : Order (Int × Unit)) : Option Int :=
  if b.nodes.size = 0 then some 0 else b.ids.newID o

/-- As `Gonum.Builder.addNode`. -/
def Builder.addNode (m : Mem) (b : Builder) (p : NPtr) : Option Builder :=
  match b.nodes.get? (m.id p) with
  | some _ => none
  | none => some { b with nodes := b.nodes.set (m.id p) p, ids := b.ids.use (m.id p) }

/-- As `Gonum.Builder.allNodes`. -/
def Builder.allNodes (b : Builder) (o : Order (Int × NPtr)) : List NPtr :=
  (o.run b.nodes.entries).map Prod.snd

/-- As `Gonum.Builder.touch`. -/
def Builder.touch (m : Mem) (b : Builder) (p : NPtr) : Builder :=
  match b.addNode m p with
  | some b' => b'
  | none => { b with nodes := b.nodes.set (m.id p) p }

/-- As `Gonum.Edges.put`. -/
def Edges.put (es : Edges) (i j : Int) (e : EPtr) : Edges :=
  match es with
  | .directed fr to => .directed (fr.put i j e) (to.put j i e)
  | .undirected ed => .undirected ((ed.put i j e).put j i e)

/-- As `Gonum.Builder.setWeightedEdge`. -/
def Builder.setWeightedEdge (m : Mem) (b : Builder) (e : EPtr) : Option Builder :=
  let f := (m.edge e).src
  let t := (m.edge e).dst
  if m.id f = m.id t then none
  else
    let b := (b.touch m f).touch m t
    some { b with edges := b.edges.put (m.id f) (m.id t) e }

/-- `WeightedEdge(u, v)`: the undirected graph returns the stored edge if it starts at `u` and its
`ReversedEdge()` otherwise. -/
def Builder.weightedEdge (m : Mem) (b : Builder) (u v : Int) : Option EPtr × Mem :=
  match b.edges with
  | .directed fr _ => (fr.at u v, m)
  | .undirected ed =>
    match ed.at u v with
    | none => (none, m)
    | some e =>
      if m.id (m.edge e).src = u then (some e, m)
      else
        let (e', m') := m.reversed e
        (some e', m')

/-- As `Gonum.Builder.fromRow`. -/
def Builder.fromRow (b : Builder) (u : Int) : GoMap Int EPtr :=
  match b.edges with
  | .directed fr _ => fr.row u
  | .undirected ed => ed.row u

/-- As `Gonum.Builder.fromNodes`. -/
def Builder.fromNodes (b : Builder) (o : Order (Int × EPtr)) (u : Int) : List NPtr :=
  (o.run (b.fromRow u).entries).filterMap (fun ke => b.nodes.get? ke.1)

/-- As `Gonum.EdgeOrder`. -/
structure EdgeOrder where
  nodes : Order (Int × NPtr)
  rows : Order (Int × GoMap Int EPtr)
  row : Int → Order (Int × EPtr)

/-- As `Gonum.EdgeOrder.id`. -/
def EdgeOrder.id : EdgeOrder := ⟨Order.id, Order.id, fun _ => Order.id⟩

/-- As `Gonum.dedup`. -/
def dedup (m : Mem) : List EPtr → List (Int × Int) → List EPtr
  | [], _ => []
  | e :: es, seen =>
    let i := m.id (m.edge e).src
    let j := m.id (m.edge e).dst
    if (i, j) ∈ seen then dedup m es seen
    else e :: dedup m es ((i, j) :: (j, i) :: seen)

/-- As `Gonum.Builder.weightedEdges`. -/
def Builder.weightedEdges (m : Mem) (b : Builder) (o : EdgeOrder) : List EPtr :=
  match b.edges with
  | .directed fr _ =>
    (o.nodes.run b.nodes.entries).flatMap fun kn =>
      ((o.row (m.id kn.2)).run (fr.row (m.id kn.2)).entries).map Prod.snd
  | .undirected ed =>
    dedup m ((o.rows.run ed.entries).flatMap fun kr =>
      ((o.row kr.1).run kr.2.entries).map Prod.snd) []

/-- As `Gonum.Edges.cut`. -/
def Edges.cut (es : Edges) (f t : Int) : Edges :=
  match es with
  | .directed fr to => .directed (fr.cut f t) (to.cut t f)
  | .undirected ed => .undirected ((ed.cut f t).cut t f)

/-- As `Gonum.Builder.removeEdge`. -/
def Builder.removeEdge (b : Builder) (f t : Int) : Builder :=
  match b.nodes.get? f, b.nodes.get? t with
  | some _, some _ => { b with edges := b.edges.cut f t }
  | _, _ => b

/-- As `Gonum.Edges.isolate`. -/
def Edges.isolate (es : Edges) (id : Int) : Edges :=
  match es with
  | .directed fr to =>
    let to := to.cutAll (fr.row id).keys id
    let fr : Adj := fr.del id
    let fr := fr.cutAll (to.row id).keys id
    .directed fr (to.del id)
  | .undirected ed =>
    let ed := ed.cutAll (ed.row id).keys id
    .undirected (ed.del id)

/-- As `Gonum.Builder.removeNode`. -/
def Builder.removeNode (b : Builder) (id : Int) : Builder :=
  match b.nodes.get? id with
  | none => b
  | some _ =>
    { nodes := b.nodes.del id, ids := b.ids.release id, edges := b.edges.isolate id }

/-! ## The graph -/

/-- `WG` (pkg/graph/memory/wg.go:21-33). -/
structure WG where
  b : Builder
  uid : Uid
  dotid : String
  nodes : GoMap String NPtr

/-- `NewWDG` and `NewWUG` through `NewWG` (pkg/graph/memory/wg.go:36-60, wdg.go:15-29, wug.go:15-29). -/
def new (directed : Bool) (fresh : Uid) (opts : List Opt) : WG :=
  let o := applyAll opts
  let uid := o.uid.getD fresh
  let dotid := if o.dotid = "" then uid.str else o.dotid
  ⟨if directed then newDirected else newUndirected, uid, dotid, GoMap.empty⟩

/-- `memory.NewNode` (pkg/graph/memory/node.go:22-51). -/
def makeNode (m : Mem) (id : Int) (e : Ent) (opts : List Opt) : NPtr × Mem :=
  let (n, h) := mkNode m.heap id e opts
  { m with heap := h }.allocNode n

/-- `WG.NewNode` (pkg/graph/memory/wg.go:71-94). -/
def newNode (m : Mem) (g : WG) (o : Order (Int × Unit)) (e : Ent) (opts : List Opt) :
    Res Err NPtr × Mem :=
  match g.b.newNodeID o with
  | none => (.panic, m)
  | some id =>
    let (p, m) := makeNode m id e opts
    match g.nodes.get? (m.key p) with
    | some q => (.ok q, m)
    | none => (.ok p, m)

/-- `WG.AddNode` (pkg/graph/memory/wg.go:102-133). -/
def addNode (m : Mem) (g : WG) (p : NPtr) (opts : List Opt) : Res Err Unit × WG :=
  match g.b.nodes.get? (m.id p) with
  | some _ =>
    match g.nodes.get? (m.key p) with
    | some _ =>
      if (applyAll opts).upsert = false then (.err .duplicateNode, g)
      else (.ok (), { g with nodes := (g.nodes.set (m.key p) p).set (m.key p) p })
    | none => (.ok (), { g with nodes := g.nodes.set (m.key p) p })
  | none =>
    match g.b.addNode m p with
    | none => (.panic, g)
    | some b' => (.ok (), { g with b := b', nodes := g.nodes.set (m.key p) p })

/-- `WG.Node` (pkg/graph/memory/wg.go:137-146). -/
def node (g : WG) (u : Uid) : Res Err NPtr :=
  match g.nodes.get? u.str with
  | some p => .ok p
  | none => .err .nodeNotFound

/-- `WG.Nodes` (pkg/graph/memory/wg.go:149-161). -/
def nodesList (g : WG) (o : Order (Int × NPtr)) : List NPtr := g.b.allNodes o

/-- `WG.RemoveNode` (pkg/graph/memory/wg.go:164-186). -/
def removeNode (m : Mem) (g : WG) (u : Uid) : WG :=
  match g.nodes.get? u.str with
  | none => g
  | some p => { g with b := g.b.removeNode (m.id p), nodes := g.nodes.del u.str }

/-- `WG.Edge` (pkg/graph/memory/wg.go:230-252). -/
def edge (m : Mem) (g : WG) (u v : Uid) : Res Err EPtr × Mem :=
  match g.nodes.get? u.str with
  | none => (.err .nodeNotFound, m)
  | some f =>
    match g.nodes.get? v.str with
    | none => (.err .nodeNotFound, m)
    | some t =>
      match g.b.weightedEdge m (m.id f) (m.id t) with
      | (some e, m') => (.ok e, m')
      | (none, m') => (.err .edgeNotExist, m')

/-- `memory.NewEdge` (pkg/graph/memory/edge.go:30-61); `mkEdge` computes the fields. -/
def makeEdge (m : Mem) (fresh : Uid) (newAddr : Nat) (f t : NPtr) (opts : List Opt) : EPtr × Mem :=
  let (e, h) := mkEdge m.heap fresh newAddr (m.node f) (m.node t) opts
  { m with heap := h }.allocEdge ⟨e.uid, e.attrs, f, t, e.dotid, e.weight⟩

/-- `WG.Link` (pkg/graph/memory/wg.go:190-227). After `Edge` has answered `ErrEdgeNotExist` both nodes
are in the map, so the lookups at lines 202-212 succeed. -/
def link (m : Mem) (g : WG) (fresh : Uid) (newAddr : Nat) (from' to : Uid) (opts : List Opt) :
    Res Err EPtr × WG × Mem :=
  match edge m g from' to with
  | (.ok e, m) => (.ok e, g, m)
  | (.err .edgeNotExist, m) =>
    match g.nodes.get? from'.str with
    | none => (.err .nodeNotFound, g, m)
    | some f =>
      match g.nodes.get? to.str with
      | none => (.err .nodeNotFound, g, m)
      | some t =>
        let (e, m) := makeEdge m fresh newAddr f t opts
        match g.b.setWeightedEdge m e with
        | none => (.panic, g, m)
        | some b' => (.ok e, { g with b := b' }, m)
  | (.err e, m) => (.err e, g, m)
  | (.panic, m) => (.panic, g, m)

/-- `WG.Edges` (pkg/graph/memory/wg.go:255-268). -/
def edgesList (m : Mem) (g : WG) (o : EdgeOrder) : List EPtr := g.b.weightedEdges m o

/-- `WG.From` (pkg/graph/memory/wg.go:271-291). -/
def fromList (m : Mem) (g : WG) (o : Order (Int × EPtr)) (u : Uid) : List NPtr :=
  match g.nodes.get? u.str with
  | none => []
  | some p => g.b.fromNodes o (m.id p)

/-- `WG.Unlink` (pkg/graph/memory/wg.go:295-318). -/
def unlink (m : Mem) (g : WG) (from' to : Uid) : WG :=
  match g.nodes.get? from'.str with
  | none => g
  | some f =>
    match g.nodes.get? to.str with
    | none => g
    | some t => { g with b := g.b.removeEdge (m.id f) (m.id t) }

/-! ## Histories -/

/-- Memory and one graph. -/
structure St where
  mem : Mem
  g : WG

/-- A call, with the choices the runtime makes during it. `makeNode` is `memory.NewNode` called directly;
`env` is anything the rest of the program does to attribute sets. -/
inductive Op where
  | makeNode (id : Int) (e : Ent) (opts : List Opt)
  | newNode (o : Order (Int × Unit)) (e : Ent) (opts : List Opt)
  | addNode (p : NPtr) (opts : List Opt)
  | addForeign
  | removeNode (u : Uid)
  | link (fresh : Uid) (newAddr : Nat) (from' to : Uid) (opts : List Opt)
  | edge (u v : Uid)
  | unlink (from' to : Uid)
  | setNodeDOT (p : NPtr) (s : String)
  | setEdgeDOT (p : EPtr) (s : String)
  | env (h : Heap)

/-- What a call returns. -/
inductive Out where
  | node (r : Res Err NPtr)
  | unit (r : Res Err Unit)
  | edge (r : Res Err EPtr)
deriving DecidableEq

/-- One call. -/
def step (s : St) : Op → St × Out
  | .makeNode id e opts =>
    let (p, m) := makeNode s.mem id e opts
    (⟨m, s.g⟩, .node (.ok p))
  | .newNode o e opts =>
    let (r, m) := newNode s.mem s.g o e opts
    (⟨m, s.g⟩, .node r)
  | .addNode p opts =>
    let (r, g) := addNode s.mem s.g p opts
    (⟨s.mem, g⟩, .unit r)
  | .addForeign => (s, .unit (.err .invalidNode))
  | .removeNode u => (⟨s.mem, removeNode s.mem s.g u⟩, .unit (.ok ()))
  | .link fresh a f t opts =>
    let (r, g, m) := link s.mem s.g fresh a f t opts
    (⟨m, g⟩, .edge r)
  | .edge u v =>
    let (r, m) := edge s.mem s.g u v
    (⟨m, s.g⟩, .edge r)
  | .unlink f t => (⟨s.mem, unlink s.mem s.g f t⟩, .unit (.ok ()))
  | .setNodeDOT p x => (⟨s.mem.setNodeDOT p x, s.g⟩, .unit (.ok ()))
  | .setEdgeDOT p x => (⟨s.mem.setEdgeDOT p x, s.g⟩, .unit (.ok ()))
  | .env h => (⟨{ s.mem with heap := h }, s.g⟩, .unit (.ok ()))

/-- A history. -/
def run (s : St) (ops : List Op) : St := ops.foldl (fun s op => (step s op).1) s

/-- What the calls of a history return, oldest first. -/
def outs (s : St) : List Op → List Out
  | [] => []
  | op :: ops => (step s op).2 :: outs (step s op).1 ops

end Netscrape.GraphPtr
