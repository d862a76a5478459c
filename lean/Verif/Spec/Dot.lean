import Verif.Model.Dot
import Verif.Spec.Graph

/-!
# What a DOT document says
-/

namespace Netscrape.Spec.Graph
open Netscrape.Graph

/-- The lists have the same length and corresponding elements are related. -/
inductive Pointwise {α β : Type} (R : α → β → Prop) : List α → List β → Prop
  | nil : Pointwise R [] []
  | cons {a : α} {b : β} {l : List α} {l' : List β} : R a b → Pointwise R l l' → Pointwise R (a :: l) (b :: l')

/-- The list has exactly the attributes of set `a`, each once. -/
def ShowsAttrs (h : Heap) (a : Ref) (l : DotAttrs) : Prop :=
  (l.map Prod.fst).Nodup ∧ ∀ k v, (k, v) ∈ l ↔ (h.read a).get? k = some v

/-- The statement shows the node. -/
def ShowsNode (h : Heap) (n : Node) (x : String × DotAttrs) : Prop :=
  x.1 = n.dotid ∧ ShowsAttrs h n.attrs x.2

/-- The statement shows the edge. -/
def ShowsEdge (h : Heap) (e : Edge) (x : (String × String) × DotAttrs) : Prop :=
  x.1 = (e.src.dotid, e.dst.dotid) ∧ ShowsAttrs h e.attrs x.2

/-- The edges join the same nodes, whatever their direction if the graph is undirected. -/
def SameEnds (directed : Bool) (e f : Edge) : Prop :=
  (e.src.id = f.src.id ∧ e.dst.id = f.dst.id) ∨
  (directed = false ∧ e.src.id = f.dst.id ∧ e.dst.id = f.src.id)

/-- The document shows these nodes and edges, in this order, and nothing else. -/
structure Shows (h : Heap) (d : Doc) (ns : List Node) (es : List Edge) : Prop where
  nodes : Pointwise (ShowsNode h) ns d.nodes
  edges : Pointwise (ShowsEdge h) es d.edges

/-- The documents differ at most in the order of attributes. -/
structure SameDoc (d d' : Doc) : Prop where
  directed : d.directed = d'.directed
  name : d.name = d'.name
  graphAttrs : d.graphAttrs.Perm d'.graphAttrs
  nodeAttrs : d.nodeAttrs.Perm d'.nodeAttrs
  edgeAttrs : d.edgeAttrs.Perm d'.edgeAttrs
  nodes : Pointwise (fun x y => x.1 = y.1 ∧ x.2.Perm y.2) d.nodes d'.nodes
  edges : Pointwise (fun x y => x.1 = y.1 ∧ x.2.Perm y.2) d.edges d'.edges

/-- How a reader of the document sees it: is there a node of this name? -/
def Doc.HasNode (d : Doc) (a : String) : Prop := a ∈ d.nodes.map Prod.fst

/-- Is there an edge from `a` to `b`? -/
def Doc.HasEdge (d : Doc) (a b : String) : Prop :=
  (a, b) ∈ d.edges.map Prod.fst ∨ (d.directed = false ∧ (b, a) ∈ d.edges.map Prod.fst)

end Netscrape.Spec.Graph
