import Verif.Go.Basic

/-!
# Nodes, edges and graph options (pkg/graph/memory/node.go, edge.go, pkg/graph/options.go)
-/

namespace Netscrape.Graph

/-- `graph.Entity` (pkg/graph/graph.go:22-29): what its methods return. `dot` is what `DOTID()`
returns when the dynamic type also has `DOTID` and `SetDOTID`, i.e. is a `graph.DOTEntity`
(pkg/graph/graph.go:32-38). -/
structure Ent where
  uid : Uid
  typ : String
  attrs : Ref
  dot : Option String
deriving DecidableEq, Repr

/-- `memory.Node` (pkg/graph/memory/node.go:14-19). Nodes are handled through pointers in Go; a
node's fields other than the DOTID never change after construction. `Model.GraphPtr` has nodes as
objects with `SetDOTID`. -/
structure Node where
  ent : Ent
  id : Int
  dotid : String
  attrs : Ref
deriving DecidableEq, Repr

/-- `Node.UID`: promoted from the embedded entity (pkg/graph/memory/node.go:15). -/
def Node.uid (n : Node) : Uid := n.ent.uid

/-- `n.UID().String()`, the key of `WG.nodes`. -/
def Node.key (n : Node) : String := n.ent.uid.str

/-- `memory.Edge` (pkg/graph/memory/edge.go:17-24). -/
structure Edge where
  uid : Uid
  attrs : Ref
  src : Node
  dst : Node
  dotid : String
  weight : Int
deriving DecidableEq, Repr

/-- `ReversedEdge` (pkg/graph/memory/edge.go:84-93). -/
def Edge.rev (e : Edge) : Edge := { e with src := e.dst, dst := e.src }

/-- `graph.Options` (pkg/graph/options.go:24-33), the fields the graph code reads. Go's zero values
are `none`, `""`, `0` and `false`. -/
structure Opts where
  uid : Option Uid := none
  dotid : String := ""
  attrs : Option Ref := none
  weight : Int := 0
  upsert : Bool := false
deriving DecidableEq, Repr

/-- One `graph.Option` (pkg/graph/options.go:36-92). -/
inductive Opt where
  | withUID (u : Option Uid)
  | withDOTID (s : String)
  | withAttrs (a : Option Ref)
  | withWeight (w : Int)
  | withUpsert
  /-- `WithName`, `WithNoCache`, `WithDOTOptions`: set fields the graph code never reads. -/
  | other
deriving DecidableEq, Repr

/-- Calling one option on the options struct (pkg/graph/options.go:39-92). -/
def Opt.apply (o : Opts) : Opt → Opts
  | .withUID u => { o with uid := u }
  | .withDOTID s => { o with dotid := s }
  | .withAttrs a => { o with attrs := a }
  | .withWeight w => { o with weight := w }
  | .withUpsert => { o with upsert := true }
  | .other => o

/-- `for _, apply := range opts { apply(&gopts) }` (e.g. pkg/graph/memory/wg.go:37-40). -/
def applyAll (opts : List Opt) : Opts := opts.foldl Opt.apply {}

/-- `a := opts.Attrs; if a == nil { a = memattrs.New() }` (pkg/graph/memory/node.go:40-43,
edge.go:48-51). -/
def attrsOrNew (h : Heap) (a : Option Ref) : Ref × Heap :=
  match a with
  | some r => (r, h)
  | none => h.alloc GoMap.empty

/-- `memory.NewNode` (pkg/graph/memory/node.go:22-51). The `graph.DOTer` check at line 34 cannot
succeed: a type with the `DOTer` methods that is an `Entity` is a `DOTEntity`. -/
def mkNode (h : Heap) (id : Int) (e : Ent) (opts : List Opt) : Node × Heap :=
  let o := applyAll opts
  let dotid := if o.dotid = "" then
      match e.dot with
      | some d => d
      | none => e.uid.str
    else o.dotid
  let (a, h) := attrsOrNew h o.attrs
  (⟨e, id, dotid, a⟩, h)

/-- `memory.NewEdge` (pkg/graph/memory/edge.go:30-61). `fresh` is the result of `memuid.New()`,
`newAddr` the address of the UID object built by `memuid.NewFromString`. -/
def mkEdge (h : Heap) (fresh : Uid) (newAddr : Nat) (f t : Node) (opts : List Opt) : Edge × Heap :=
  let o := applyAll opts
  let uid := o.uid.getD fresh
  let (dotid, uid) := if o.dotid = "" then (uid.str, uid) else (o.dotid, ⟨newAddr, o.dotid⟩)
  let (a, h) := attrsOrNew h o.attrs
  (⟨uid, a, f, t, dotid, o.weight⟩, h)

end Netscrape.Graph
