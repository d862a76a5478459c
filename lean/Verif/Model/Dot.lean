import Verif.Model.Graph
import Verif.Model.Attrs

/-!
# `WG.DOT`

gonum's `dot.Marshal` (graph/encoding/dot/encode.go of v0.9.1) as recalled. The document is modelled as its sequence
of statements; white space and the quoting of identifiers are not.
-/

namespace Netscrape.Graph
open Netscrape.Gonum (Builder Edges)

/-- A list of DOT attributes. -/
abbrev DotAttrs := List (String × String)

/-- A DOT document: `digraph` or `graph`, its name (empty: none), the attribute statements for the graph and for
all nodes and edges, the node statements and the edge statements. -/
structure Doc where
  directed : Bool
  name : String
  graphAttrs : DotAttrs
  nodeAttrs : DotAttrs
  edgeAttrs : DotAttrs
  nodes : List (String × DotAttrs)
  edges : List ((String × String) × DotAttrs)
deriving DecidableEq, Repr

/-- Insertion into a list of nodes sorted by ID. -/
def insertByID (n : Node) : List Node → List Node
  | [] => [n]
  | m :: r => if n.id ≤ m.id then n :: m :: r else m :: insertByID n r

/-- `sort.Sort(ordered.ByID(nodes))`. IDs differ, so all ways of sorting give the same. -/
def sortByID (l : List Node) : List Node := l.foldr insertByID []

/-- The iteration orders of the maps met: the nodes, the rows of the edge map, the attributes of nodes and
of edges. -/
structure DotOrder where
  nodes : Order (Int × Node)
  row : Int → Order (Int × Edge)
  nodeAttrs : Int → Order (String × String)
  edgeAttrs : Int → Int → Order (String × String)

/-- The default orders, for examples. -/
def DotOrder.id : DotOrder := ⟨Order.id, fun _ => Order.id, fun _ => Order.id, fun _ _ => Order.id⟩

/-- What `dot.Marshal` gets: a gonum graph; its `DOTID()` if it has that method (`dot.Graph`); and what its
`DOTAttributers()` return if it has that (`dot.Attributers`). -/
structure DotGraph where
  b : Builder
  dotid : Option String
  attributers : Option (DotAttrs × DotAttrs × DotAttrs)

/-- The loop over the edges: pairs that were seen, or in an undirected graph whose reverse was seen, are
skipped. -/
def unseen (directed : Bool) : List (Node × Node) → List (Int × Int) → List (Node × Node)
  | [], _ => []
  | (n, t) :: r, seen =>
    if (n.id, t.id) ∈ seen then unseen directed r seen
    else (n, t) :: unseen directed r
      (if directed then (n.id, t.id) :: seen else (n.id, t.id) :: (t.id, n.id) :: seen)

/-- `dot.Marshal(g, name, …)`. -/
def dotMarshal (h : Heap) (o : DotOrder) (g : DotGraph) (name : String) : Doc :=
  let directed := match g.b.edges with | .directed _ _ => true | .undirected _ => false
  let nodes := sortByID (g.b.allNodes o.nodes)
  let pairs := nodes.flatMap fun n => (sortByID (g.b.fromNodes (o.row n.id) n.id)).map fun t => (n, t)
  { directed := directed
    name := if name = "" then g.dotid.getD "" else name
    graphAttrs := (g.attributers.getD ([], [], [])).1
    nodeAttrs := (g.attributers.getD ([], [], [])).2.1
    edgeAttrs := (g.attributers.getD ([], [], [])).2.2
    nodes := nodes.map fun n => (n.dotid, Attrs.dotAttrs h (o.nodeAttrs n.id) n.attrs)
    edges := (unseen directed pairs []).map fun (n, t) => ((n.dotid, t.dotid),
      match g.b.weightedEdge n.id t.id with
      | some e => Attrs.dotAttrs h (o.edgeAttrs n.id t.id) e.attrs
      | none => []) }

/-- `DOTOptions` (pkg/graph/options.go:14-18): what the attributes for the graph, its nodes and its edges are;
`WG.dot` (pkg/graph/memory/wg.go:32, 58). -/
structure DotOptions where
  graphAttrs : DotAttrs := []
  nodeAttrs : DotAttrs := []
  edgeAttrs : DotAttrs := []

/-- `WG.DOT` (pkg/graph/memory/wg.go:412-422) of a graph made with these options: the embedded gonum graph is given
to `dot.Marshal`, which has neither `DOTID` nor `DOTAttributers`. The lock is dealt with in the concurrent
model (`dotP`). -/
def dot (h : Heap) (o : DotOrder) (g : WG) (_ : DotOptions) : Doc := dotMarshal h o ⟨g.b, none, none⟩ ""

end Netscrape.Graph
