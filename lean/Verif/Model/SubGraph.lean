import Verif.Model.Graph
import Verif.Model.Attrs

/-!
# Model of WG.SubGraph and of gonum's breadth-first traversal
-/

namespace Netscrape.Gonum
open Netscrape.Graph

/-- The variables of `traverse.BreadthFirst.Walk` (gonum graph/traverse): the queue, the visited set,
the counters, and whatever `Visit` changes. -/
structure Bfs (σ : Type) where
  queue : List Node
  visited : List Int
  depth : Int
  children : Int
  untilNext : Int
  acc : σ

/-- The body of Walk's inner loop for one neighbour `n`: skip it if visited, else `Visit`, mark, count,
enqueue. (`Traverse` is nil in the code.) -/
def Bfs.meet {σ : Type} (visit : σ → Node → σ) (w : Bfs σ) (n : Node) : Bfs σ :=
  if n.id ∈ w.visited then w
  else { w with acc := visit w.acc n, visited := n.id :: w.visited, children := w.children + 1,
                queue := w.queue ++ [n] }

/-- `if untilNext--; untilNext == 0 { depth++; untilNext = children; children = 0 }`. -/
def Bfs.level {σ : Type} (w : Bfs σ) : Bfs σ :=
  if w.untilNext - 1 = 0 then
    { w with depth := w.depth + 1, untilNext := w.children, children := 0 }
  else { w with untilNext := w.untilNext - 1 }

/-- Walk's outer loop. `ord` is the iteration order of `From(id)` (a node is dequeued at most once, so
one order per ID is general). `none` means `fuel` ran out, which it does not, see
`Verif.Lemmas.SubGraph`. -/
def Bfs.loop {σ : Type} (b : Builder) (ord : Int → Order (Int × Edge)) (visit : σ → Node → σ)
    (stop : Node → Int → Bool) : Nat → Bfs σ → Option (Bfs σ)
  | 0, _ => none
  | fuel + 1, w =>
    match w.queue with
    | [] => some w
    | t :: q =>
      if stop t w.depth then some { w with queue := q }
      else
        loop b ord visit stop fuel
          (((b.fromNodes (ord t.id) t.id).foldl (Bfs.meet visit) { w with queue := q }).level)

/-- `traverse.BreadthFirst.Walk` with nothing visited before. -/
def Bfs.walk {σ : Type} (b : Builder) (ord : Int → Order (Int × Edge)) (visit : σ → Node → σ)
    (stop : Node → Int → Bool) (root : Node) (acc : σ) : Option (Bfs σ) :=
  Bfs.loop b ord visit stop (b.nodes.size + 2)
    { queue := [root], visited := [root.id], depth := 0, children := 0, untilNext := 1,
      acc := visit acc root }

end Netscrape.Gonum

namespace Netscrape.Graph
open Netscrape.Gonum (Builder EdgeOrder Bfs)

/-- The variables the visit closure of `SubGraph` writes (pkg/graph/memory/wg.go:335-348). -/
structure Collect where
  sg : WG
  nodes : GoMap Int Node
  err : Option Err

/-- The closure `visit` (pkg/graph/memory/wg.go:339-348). A panic of `AddNode` is recorded like an
error here; it does not happen. -/
def collect (c : Collect) (n : Node) : Collect :=
  match addNode c.sg n [] with
  | (.ok (), sg) => { c with sg := sg, nodes := c.nodes.set n.id n }
  | (.err e, sg) => { c with sg := sg, err := some e }
  | (.panic, sg) => { c with sg := sg, err := some .invalidNode }

/-- What the runtime chooses during a `SubGraph` call. Orders and UIDs used while linking are indexed
by the number of attribute sets allocated so far, which is different at every use. -/
structure SubOracle where
  graphUid : Uid
  bfs : Int → Order (Int × Edge)
  nodes : Order (Int × Node)
  peers : Int → Order (Int × Edge)
  edges : Int → Int → EdgeOrder
  copy : Nat → Order (String × String)
  edgeUid : Nat → Uid

/-- The innermost loop of `SubGraph` (pkg/graph/memory/wg.go:371-388): for every edge `e` of the source,
link the two nodes with a copy of `e`'s attributes and `e`'s weight. -/
def linkAll (ora : SubOracle) (x y : Uid) : List Edge → WG → Heap → Res Err WG × Heap
  | [], sg, h => (.ok sg, h)
  | e :: es, sg, h =>
    let (a, h1) := Attrs.newCopyFrom h (ora.copy h.cells.length) e.attrs
    match link h1 sg (ora.edgeUid h.cells.length) 0 x y [.withAttrs (some a), .withWeight e.weight] with
    | (.ok _, sg', h2) => linkAll ora x y es sg' h2
    | (.err e, _, h2) => (.err e, h2)
    | (.panic, _, h2) => (.panic, h2)

/-- The loop over the neighbours of one collected node (pkg/graph/memory/wg.go:365-391). `sgNodes` has
the collected nodes by ID. -/
def linkPeers (ora : SubOracle) (g : WG) (sgNodes : GoMap Int Node) (id : Int) (x : Node) :
    List Node → WG → Heap → Res Err WG × Heap
  | [], sg, h => (.ok sg, h)
  | p :: ps, sg, h =>
    match sgNodes.get? p.id with
    | none => linkPeers ora g sgNodes id x ps sg h
    | some to =>
      match linkAll ora x.uid to.uid (g.b.weightedEdges (ora.edges id p.id)) sg h with
      | (.ok sg', h') => linkPeers ora g sgNodes id x ps sg' h'
      | r => r

/-- The loop over the collected nodes (pkg/graph/memory/wg.go:363-392). -/
def linkNodes (ora : SubOracle) (g : WG) (sgNodes : GoMap Int Node) :
    List (Int × Node) → WG → Heap → Res Err WG × Heap
  | [], sg, h => (.ok sg, h)
  | (id, x) :: rest, sg, h =>
    match linkPeers ora g sgNodes id x (g.b.fromNodes (ora.peers id) id) sg h with
    | (.ok sg', h') => linkNodes ora g sgNodes rest sg' h'
    | r => r

/-- `WG.SubGraph` (pkg/graph/memory/wg.go:321-395). Running out of traversal fuel is reported as a
panic; it does not happen. -/
def subGraph (ora : SubOracle) (h : Heap) (g : WG) (u : Uid) (depth : Int) (opts : List Opt) :
    Res Err WG × Heap :=
  match g.nodes.get? u.str with
  | none => (.err .nodeNotFound, h)
  | some root =>
    match Bfs.walk g.b ora.bfs collect (fun _ d => d == depth) root
        ⟨new true ora.graphUid opts, GoMap.empty, none⟩ with
    | none => (.panic, h)
    | some w =>
      match w.acc.err with
      | some e => (.err e, h)
      | none => linkNodes ora g w.acc.nodes (ora.nodes.run w.acc.nodes.entries) w.acc.sg h

end Netscrape.Graph
