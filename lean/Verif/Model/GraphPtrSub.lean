import Verif.Model.GraphPtr
import Verif.Model.Attrs

/-!
# SubGraph over node and edge objects

The code of `Verif.Model.SubGraph` with objects in memory.
-/

namespace Netscrape.GraphPtr
open Netscrape.Graph (Opt Err)

/-- The variables of gonum's breadth-first walk, see `Gonum.Bfs`. -/
structure Bfs (σ : Type) where
  queue : List NPtr
  visited : List Int
  depth : Int
  children : Int
  untilNext : Int
  acc : σ

/-- As `Gonum.Bfs.meet`. -/
def Bfs.meet {σ : Type} (m : Mem) (visit : σ → NPtr → σ) (w : Bfs σ) (p : NPtr) : Bfs σ :=
  if m.id p ∈ w.visited then w
  else { w with acc := visit w.acc p, visited := m.id p :: w.visited, children := w.children + 1,
                queue := w.queue ++ [p] }

/-- As `Gonum.Bfs.level`. -/
def Bfs.level {σ : Type} (w : Bfs σ) : Bfs σ :=
  if w.untilNext - 1 = 0 then
    { w with depth := w.depth + 1, untilNext := w.children, children := 0 }
  else { w with untilNext := w.untilNext - 1 }

/-- As `Gonum.Bfs.loop`. -/
def Bfs.loop {σ : Type} (m : Mem) (b : Builder) (ord : Int → Order (Int × EPtr)) (visit : σ → NPtr → σ)
    (stop : NPtr → Int → Bool) : Nat → Bfs σ → Option (Bfs σ)
  | 0, _ => none
  | fuel + 1, w =>
    match w.queue with
    | [] => some w
    | t :: q =>
      if stop t w.depth then some { w with queue := q }
      else
        loop m b ord visit stop fuel
          (((b.fromNodes (ord (m.id t)) (m.id t)).foldl (Bfs.meet m visit) { w with queue := q }).level)

/-- As `Gonum.Bfs.walk`. -/
def Bfs.walk {σ : Type} (m : Mem) (b : Builder) (ord : Int → Order (Int × EPtr)) (visit : σ → NPtr → σ)
    (stop : NPtr → Int → Bool) (root : NPtr) (acc : σ) : Option (Bfs σ) :=
  Bfs.loop m b ord visit stop (b.nodes.size + 2)
    { queue := [root], visited := [m.id root], depth := 0, children := 0, untilNext := 1,
      acc := visit acc root }

/-- The variables the visit closure of `SubGraph` writes (pkg/graph/memory/wg.go:335-348). -/
structure Collect where
  sg : WG
  nodes : GoMap Int NPtr
  err : Option Err

/-- The closure `visit` (pkg/graph/memory/wg.go:339-348). -/
def collect (m : Mem) (c : Collect) (p : NPtr) : Collect :=
  match addNode m c.sg p [] with
  | (.ok (), sg) => { c with sg := sg, nodes := c.nodes.set (m.id p) p }
  | (.err e, sg) => { c with sg := sg, err := some e }
  | (.panic, sg) => { c with sg := sg, err := some .invalidNode }

/-- What the runtime chooses during a `SubGraph` call, as `Graph.SubOracle`. -/
structure SubOracle where
  graphUid : Uid
  bfs : Int → Order (Int × EPtr)
  nodes : Order (Int × NPtr)
  peers : Int → Order (Int × EPtr)
  edges : Int → Int → EdgeOrder
  copy : Nat → Order (String × String)
  edgeUid : Nat → Uid

/-- The innermost loop of `SubGraph` (pkg/graph/memory/wg.go:371-388). -/
def linkAll (ora : SubOracle) (x y : Uid) : List EPtr → WG → Mem → Res Err WG × Mem
  | [], sg, m => (.ok sg, m)
  | e :: es, sg, m =>
    let (a, h1) := Attrs.newCopyFrom m.heap (ora.copy m.heap.cells.length) (m.edge e).attrs
    match link { m with heap := h1 } sg (ora.edgeUid m.heap.cells.length) 0 x y
        [.withAttrs (some a), .withWeight (m.edge e).weight] with
    | (.ok _, sg', m') => linkAll ora x y es sg' m'
    | (.err e, _, m') => (.err e, m')
    | (.panic, _, m') => (.panic, m')

/-- The loop over the neighbours of one collected node (pkg/graph/memory/wg.go:365-391). -/
def linkPeers (ora : SubOracle) (g : WG) (sgNodes : GoMap Int NPtr) (id : Int) (x : NPtr) :
    List NPtr → WG → Mem → Res Err WG × Mem
  | [], sg, m => (.ok sg, m)
  | p :: ps, sg, m =>
    match sgNodes.get? (m.id p) with
    | none => linkPeers ora g sgNodes id x ps sg m
    | some to =>
      match linkAll ora (m.node x).uid (m.node to).uid (g.b.weightedEdges m (ora.edges id (m.id p))) sg m with
      | (.ok sg', m') => linkPeers ora g sgNodes id x ps sg' m'
      | r => r

/-- The loop over the collected nodes (pkg/graph/memory/wg.go:363-392). -/
def linkNodes (ora : SubOracle) (g : WG) (sgNodes : GoMap Int NPtr) :
    List (Int × NPtr) → WG → Mem → Res Err WG × Mem
  | [], sg, m => (.ok sg, m)
  | (id, x) :: rest, sg, m =>
    match linkPeers ora g sgNodes id x (g.b.fromNodes (ora.peers id) id) sg m with
    | (.ok sg', m') => linkNodes ora g sgNodes rest sg' m'
    | r => r

/-- `WG.SubGraph` (pkg/graph/memory/wg.go:321-395). -/
def subGraph (ora : SubOracle) (m : Mem) (g : WG) (u : Uid) (depth : Int) (opts : List Opt) :
    Res Err WG × Mem :=
  match g.nodes.get? u.str with
  | none => (.err .nodeNotFound, m)
  | some root =>
    match Bfs.walk m g.b ora.bfs (collect m) (fun _ d => d == depth) root
        ⟨new true ora.graphUid opts, GoMap.empty, none⟩ with
    | none => (.panic, m)
    | some w =>
      match w.acc.err with
      | some e => (.err e, m)
      | none => linkNodes ora g w.acc.nodes (ora.nodes.run w.acc.nodes.entries) w.acc.sg m

end Netscrape.GraphPtr
