import Verif.Model.GraphConc
import Verif.Model.AttrsConc
import Verif.Model.Dot

/-!
# A graph in use, and the attributes of its nodes and edges in use

The methods of `Model.GraphConc` and the attribute calls of `Model.AttrsConc` on one memory. `SubGraph` and `DOT` read
the attribute sets of the graph; here they do so access by access. The other methods never look into an attribute set.
-/

namespace Netscrape.GraphAttrs
open Netscrape.Conc Netscrape.Graph
open Netscrape.Attrs (cprog CProg)
open Netscrape.Gonum (Builder Bfs)

/-- The locations: those of the graph (of which `heap` is the allocation of new attribute sets), and each
attribute set. -/
inductive Loc where
  | graph (l : Graph.Loc)
  | attrs (r : Ref)
deriving DecidableEq

abbrev AProg (ρ : Type) := Prog Unit Loc St ρ

/-- What a call returns. `index`: it panics in `Keys` (pkg/attrs/memory/memory.go:58). -/
inductive Out where
  | graph (out : Graph.COut)
  | attrs (out : Attrs.COut)
  | doc (d : Doc)
  | index

/-- A method of the graph that does not look into attribute sets. -/
def ofGraph {ρ : Type} : GProg Unit ρ → (ρ → AProg Out) → AProg Out
  | .ret r, k => k r
  | .lock m p, k => .lock m (ofGraph p k)
  | .acquire m p, k => .acquire m (ofGraph p k)
  | .unlock m p, k => .unlock m (ofGraph p k)
  | .rlock m p, k => .rlock m (ofGraph p k)
  | .runlock m p, k => .runlock m (ofGraph p k)
  | .read l p, k => .read (.graph l) fun s => ofGraph (p s) k
  | .write l f p, k => .write (.graph l) f fun s => ofGraph (p s) k

/-- A call on an attribute set. -/
def ofAttrs : CProg → (Attrs.COut → AProg Out) → AProg Out
  | .ret r, k => k r
  | .read r p, k => .read (.attrs r) fun s => ofAttrs (p s.heap) k
  | .write r f p, k => .write (.attrs r) (fun s => ⟨f s.heap, s.g⟩) fun s => ofAttrs (p s.heap) k
  | .lock m _, _ | .acquire m _, _ | .unlock m _, _ | .rlock m _, _ | .runlock m _, _ => m.elim

/-- The loop over the keys of `r` in `NewCopyFrom` (pkg/attrs/memory/memory.go:24-36), `Node.Attributes`
(pkg/graph/memory/node.go:75-93) and `Edge.Attributes` (pkg/graph/memory/edge.go:122-140); `bad` is what happens when
`Keys` panics. -/
def copyThen (o : Order (String × String)) (r : Ref) (bad : AProg Out) (k : List (String × String) → AProg Out) :
    AProg Out :=
  ofAttrs (cprog (.copy o r)) fun
    | .pairs l => k l
    | _ => bad

/-- The new map `NewCopyFrom` fills (pkg/attrs/memory/memory.go:22, 35). -/
def ofPairs (l : List (String × String)) : AttrMap := l.foldl (fun acc e => acc.set e.1 e.2) GoMap.empty

/-- The end of a round of the innermost loop of `SubGraph` (pkg/graph/memory/wg.go:377-386): the copy is there, the
nodes are linked in the new graph. -/
def copyLink (ora : SubOracle) (x y : Uid) (e : Edge) (sg : WG) (l : List (String × String)) (h : Heap) :
    Res Err Edge × WG × Heap :=
  link (h.alloc (ofPairs l)).2 sg (ora.edgeUid h.cells.length) 0 x y
    [.withAttrs (some (h.alloc (ofPairs l)).1), .withWeight e.weight]

/-- The innermost loop of `SubGraph` (pkg/graph/memory/wg.go:371-388). The first step only fixes which of the orders
of `ora` the runtime uses. -/
def linkAllA (ora : SubOracle) (x y : Uid) : List Edge → WG → (WG → AProg Out) → AProg Out
  | [], sg, k => k sg
  | e :: es, sg, k => .read (.graph .heap) fun s =>
    copyThen (ora.copy s.heap.cells.length) e.attrs (.ret .index) fun l =>
      .write (.graph .heap) (fun s => ⟨(copyLink ora x y e sg l s.heap).2.2, s.g⟩) fun s =>
        match (copyLink ora x y e sg l s.heap).1 with
        | .ok _ => linkAllA ora x y es (copyLink ora x y e sg l s.heap).2.1 k
        | .err e => .ret (.graph (.graph (.err e)))
        | .panic => .ret (.graph (.graph .panic))

/-- The loop over the neighbours in `SubGraph` (pkg/graph/memory/wg.go:365-391). -/
def linkPeersA (ora : SubOracle) (sgNodes : GoMap Int Node) (id : Int) (x : Node) :
    List Node → WG → (WG → AProg Out) → AProg Out
  | [], sg, k => k sg
  | p :: ps, sg, k =>
    match sgNodes.get? p.id with
    | none => linkPeersA ora sgNodes id x ps sg k
    | some to => .read (.graph .builder) fun s =>
      linkAllA ora x.uid to.uid (s.g.b.weightedEdges (ora.edges id p.id)) sg fun sg' =>
        linkPeersA ora sgNodes id x ps sg' k

/-- The loop over the collected nodes in `SubGraph` (pkg/graph/memory/wg.go:363-392). -/
def linkNodesA (ora : SubOracle) (sgNodes : GoMap Int Node) : List (Int × Node) → WG → AProg Out
  | [], sg => .ret (.graph (.graph (.ok sg)))
  | (id, x) :: rest, sg => .read (.graph .builder) fun s =>
    linkPeersA ora sgNodes id x (s.g.b.fromNodes (ora.peers id) id) sg fun sg' =>
      linkNodesA ora sgNodes rest sg'

/-- `WG.SubGraph` (pkg/graph/memory/wg.go:321-395). -/
def subGraphA (ora : SubOracle) (u : Uid) (depth : Int) (opts : List Opt) : AProg Out :=
  .rlock () <| .read (.graph .nodes) fun s =>
    match s.g.nodes.get? u.str with
    | none => .runlock () <| .ret (.graph (.graph (.err .nodeNotFound)))
    | some root => .runlock () <| .rlock () <| .read (.graph .builder) fun s => .runlock () <|
      match Bfs.walk s.g.b ora.bfs collect (fun _ d => d == depth) root
          ⟨new true ora.graphUid opts, GoMap.empty, none⟩ with
      | none => .ret (.graph (.graph .panic))
      | some w =>
        match w.acc.err with
        | some e => .ret (.graph (.graph (.err e)))
        | none => linkNodesA ora w.acc.nodes (ora.nodes.run w.acc.nodes.entries) w.acc.sg

/-- The node statements: `Attributes` of each node (pkg/graph/memory/node.go:74-96). -/
def nodeStmts (o : DotOrder) (bad : AProg Out) : List Node → List (String × DotAttrs) →
    (List (String × DotAttrs) → AProg Out) → AProg Out
  | [], acc, k => k acc
  | n :: ns, acc, k => copyThen (o.nodeAttrs n.id) n.attrs bad fun l =>
    nodeStmts o bad ns (acc ++ [(n.dotid, l)]) k

/-- The edge statements: `Attributes` of each edge (pkg/graph/memory/edge.go:121-143). -/
def edgeStmts (o : DotOrder) (bad : AProg Out) (b : Builder) : List (Node × Node) →
    List ((String × String) × DotAttrs) → (List ((String × String) × DotAttrs) → AProg Out) → AProg Out
  | [], acc, k => k acc
  | (n, t) :: r, acc, k =>
    match b.weightedEdge n.id t.id with
    | none => edgeStmts o bad b r (acc ++ [((n.dotid, t.dotid), [])]) k
    | some e => copyThen (o.edgeAttrs n.id t.id) e.attrs bad fun l =>
      edgeStmts o bad b r (acc ++ [((n.dotid, t.dotid), l)]) k

/-- Whether the gonum graph is a directed one (as in `dotMarshal`). -/
def directed (b : Builder) : Bool := match b.edges with | .directed _ _ => true | .undirected _ => false

/-- `WG.DOT` (pkg/graph/memory/wg.go:412-422), with gonum's `dot.Marshal` as in `dotMarshal`. Reading nodes and edges
is one step, as nobody changes them while `DOT` has the read lock. The deferred `RLock` (line 414) is also run when
`Keys` panics. -/
def dotA (o : DotOrder) : AProg Out :=
  .rlock () <| .read (.graph .builder) fun s =>
    nodeStmts o (.rlock () <| .ret .index) (sortByID (s.g.b.allNodes o.nodes)) [] fun ns =>
    edgeStmts o (.rlock () <| .ret .index) s.g.b
      (unseen (directed s.g.b) ((sortByID (s.g.b.allNodes o.nodes)).flatMap fun n =>
        (sortByID (s.g.b.fromNodes (o.row n.id) n.id)).map fun t => (n, t)) []) [] fun es =>
    .rlock () <| .ret (.doc ⟨directed s.g.b, "", [], [], [], ns, es⟩)

/-- A call on the graph or on an attribute set. -/
inductive Op where
  | graph (op : Graph.COp)
  | dot (o : DotOrder)
  | attrs (op : Attrs.COp)

/-- The bodies. -/
def prog : Op → AProg Out
  | .graph (.subGraph ora u d opts) => subGraphA ora u d opts
  | .graph .dot => dotA .id
  | .graph op => ofGraph (Graph.prog () op) fun r => .ret (.graph r)
  | .dot o => dotA o
  | .attrs op => ofAttrs (cprog op) fun r => .ret (.attrs r)

abbrev ACfg := Cfg Unit Loc St Op Out

end Netscrape.GraphAttrs
