import Verif.Model.Node

/-!
# Model of gonum.org/v1/gonum v0.9.1 graph/simple

The weighted directed and undirected graphs the code builds on (pkg/graph/memory/wdg.go:21,
wug.go:21), as far as the code uses them. gonum's source is not in /repo; this file follows the
released v0.9.1 source from memory and is part of the trusted base. Nodes and edges are always
`*memory.Node` and `*memory.Edge` here because the code adds nothing else.
-/

namespace Netscrape.Gonum
open Netscrape.Graph

/-- `math.MaxInt64`, `uid.Max`. -/
def maxID : Int := 9223372036854775807

/-- `uid.Set` (gonum graph/internal/uid). Sets are maps to unit. -/
structure Ids where
  max : Int
  used : GoMap Int Unit
  free : GoMap Int Unit

/-- `uid.NewSet`. -/
def Ids.new : Ids := ⟨-1, GoMap.empty, GoMap.empty⟩

/-- `Set.NewID`: some released ID if there is one (the first the map iteration yields), else one more
than the largest ever used. At `math.MaxInt64` the search loop's bound overflows and the call
panics (`none`). -/
def Ids.newID (s : Ids) (o : Order (Int × Unit)) : Option Int :=
  match o.run s.free.entries with
  | (id, _) :: _ => some id
  | [] => if s.max ≠ maxID then some (s.max + 1) else none

/-- `Set.Use`. -/
def Ids.use (s : Ids) (id : Int) : Ids :=
  ⟨if id > s.max then id else s.max, s.used.set id (), s.free.del id⟩

/-- `Set.Release`. -/
def Ids.release (s : Ids) (id : Int) : Ids := ⟨s.max, s.used.del id, s.free.set id ()⟩

/-- `map[int64]map[int64]graph.WeightedEdge`. -/
abbrev Adj := GoMap Int (GoMap Int Edge)

/-- `m[a]`, a nil map when absent. -/
def Adj.row (m : Adj) (a : Int) : GoMap Int Edge := (m.get? a).getD GoMap.empty

/-- `m[a][b]`. -/
def Adj.at (m : Adj) (a b : Int) : Option Edge := (m.row a).get? b

/-- `if r, ok := m[a]; ok { r[b] = e } else { m[a] = map{b: e} }`. -/
def Adj.put (m : Adj) (a b : Int) (e : Edge) : Adj := m.set a ((m.row a).set b e)

/-- `delete(m[a], b)`: no effect on a missing (nil) row. -/
def Adj.cut (m : Adj) (a b : Int) : Adj :=
  match m.get? a with
  | none => m
  | some r => m.set a (r.del b)

/-- `for k := range keys { delete(m[k], id) }`. The deletions touch different rows, so the order is
immaterial and the stored one is used. -/
def Adj.cutAll (m : Adj) (ks : List Int) (id : Int) : Adj := ks.foldl (fun m k => m.cut k id) m

/-- The edge maps: `from` and `to` of `WeightedDirectedGraph`, `edges` of
`WeightedUndirectedGraph`. -/
inductive Edges where
  | directed (fr to : Adj)
  | undirected (ed : Adj)

/-- `simple.WeightedDirectedGraph` or `simple.WeightedUndirectedGraph` (`self` and `absent` weights are
never read by the code). -/
structure Builder where
  nodes : GoMap Int Node
  ids : Ids
  edges : Edges

/-- `simple.NewWeightedDirectedGraph`. -/
def newDirected : Builder := ⟨GoMap.empty, Ids.new, .directed GoMap.empty GoMap.empty⟩

/-- `simple.NewWeightedUndirectedGraph`. -/
def newUndirected : Builder := ⟨GoMap.empty, Ids.new, .undirected GoMap.empty⟩

/-- `NewNode().ID()`; `none` is a panic. The check `int64(len(g.nodes)) == uid.Max` needs 2^63 nodes
and is omitted. -/
def Builder.newNodeID (b : Builder) (o : Order (Int × Unit)) : Option Int :=
  if b.nodes.size = 0 then some 0 else b.ids.newID o

/-- `Node(id)`. -/
def Builder.node? (b : Builder) (id : Int) : Option Node := b.nodes.get? id

/-- `AddNode(n)`; `none` is the panic "simple: node ID collision". -/
def Builder.addNode (b : Builder) (n : Node) : Option Builder :=
  match b.nodes.get? n.id with
  | some _ => none
  | none => some { b with nodes := b.nodes.set n.id n, ids := b.ids.use n.id }

/-- `Nodes()` read to the end: the node map in iteration order. -/
def Builder.allNodes (b : Builder) (o : Order (Int × Node)) : List Node :=
  (o.run b.nodes.entries).map Prod.snd

/-- The part of `SetWeightedEdge` that registers one end:
`if _, ok := g.nodes[id]; !ok { g.AddNode(n) } else { g.nodes[id] = n }`. -/
def Builder.touch (b : Builder) (n : Node) : Builder :=
  match b.addNode n with
  | some b' => b'
  | none => { b with nodes := b.nodes.set n.id n }

/-- Storing an edge in the edge maps. -/
def Edges.put (es : Edges) (e : Edge) : Edges :=
  match es with
  | .directed fr to => .directed (fr.put e.src.id e.dst.id e) (to.put e.dst.id e.src.id e)
  | .undirected ed => .undirected ((ed.put e.src.id e.dst.id e).put e.dst.id e.src.id e)

/-- `SetWeightedEdge(e)`; `none` is the panic "simple: adding self edge". -/
def Builder.setWeightedEdge (b : Builder) (e : Edge) : Option Builder :=
  if e.src.id = e.dst.id then none
  else
    let b := (b.touch e.src).touch e.dst
    some { b with edges := b.edges.put e }

/-- `WeightedEdge(u, v)`: nil when absent. The undirected graph returns the stored edge oriented from
`u`. -/
def Builder.weightedEdge (b : Builder) (u v : Int) : Option Edge :=
  match b.edges with
  | .directed fr _ => fr.at u v
  | .undirected ed => (ed.at u v).map (fun e => if e.src.id = u then e else e.rev)

/-- The row of `From(u)`: `from[u]` or `edges[u]`. -/
def Builder.fromRow (b : Builder) (u : Int) : GoMap Int Edge :=
  match b.edges with
  | .directed fr _ => fr.row u
  | .undirected ed => ed.row u

/-- `From(u)` read to the end: `nodes[k]` for each key `k` of the row, in iteration order. (A key
without a node would yield a nil node, on which the code's type assertion panics; `filterMap` drops
it. It cannot happen, see `Inv`.) -/
def Builder.fromNodes (b : Builder) (o : Order (Int × Edge)) (u : Int) : List Node :=
  (o.run (b.fromRow u).entries).filterMap (fun ke => b.nodes.get? ke.1)

/-- The iteration orders one `WeightedEdges()` call may use. -/
structure EdgeOrder where
  nodes : Order (Int × Node)
  rows : Order (Int × GoMap Int Edge)
  row : Int → Order (Int × Edge)

/-- The default order, for examples. -/
def EdgeOrder.id : EdgeOrder := ⟨Order.id, Order.id, fun _ => Order.id⟩

/-- The loop of the undirected `WeightedEdges` over all map entries: skip an edge whose ends were
seen, in either orientation. -/
def dedup : List Edge → List (Int × Int) → List Edge
  | [], _ => []
  | e :: es, seen =>
    if (e.src.id, e.dst.id) ∈ seen then dedup es seen
    else e :: dedup es ((e.src.id, e.dst.id) :: (e.dst.id, e.src.id) :: seen)

/-- `WeightedEdges()` read to the end. -/
def Builder.weightedEdges (b : Builder) (o : EdgeOrder) : List Edge :=
  match b.edges with
  | .directed fr _ =>
    (o.nodes.run b.nodes.entries).flatMap fun kn =>
      ((o.row kn.2.id).run (fr.row kn.2.id).entries).map Prod.snd
  | .undirected ed =>
    dedup ((o.rows.run ed.entries).flatMap fun kr =>
      ((o.row kr.1).run kr.2.entries).map Prod.snd) []

/-- Removing one edge from the edge maps. -/
def Edges.cut (es : Edges) (f t : Int) : Edges :=
  match es with
  | .directed fr to => .directed (fr.cut f t) (to.cut t f)
  | .undirected ed => .undirected ((ed.cut f t).cut t f)

/-- `RemoveEdge(f, t)`. -/
def Builder.removeEdge (b : Builder) (f t : Int) : Builder :=
  match b.nodes.get? f, b.nodes.get? t with
  | some _, some _ => { b with edges := b.edges.cut f t }
  | _, _ => b

/-- Removing all edges of a node from the edge maps. -/
def Edges.isolate (es : Edges) (id : Int) : Edges :=
  match es with
  | .directed fr to =>
    let to := to.cutAll (fr.row id).keys id
    let fr : Adj := fr.del id
    let fr := fr.cutAll (to.row id).keys id
    .directed fr (to.del id)
  | .undirected ed =>
    let ed := ed.cutAll (ed.row id).keys id
    .undirected (ed.del id)

/-- `RemoveNode(id)`. -/
def Builder.removeNode (b : Builder) (id : Int) : Builder :=
  match b.nodes.get? id with
  | none => b
  | some _ =>
    { nodes := b.nodes.del id, ids := b.ids.release id, edges := b.edges.isolate id }

end Netscrape.Gonum
