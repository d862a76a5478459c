import Verif.Model.GraphAttrs
import Verif.Spec.AttrsConc
import Verif.Spec.Dot

/-!
# Specification vocabulary: a graph and its attributes used at once
-/

namespace Netscrape.Spec.GraphAttrs
open Netscrape Netscrape.Graph Netscrape.GraphAttrs
open Netscrape.Spec.AttrsConc (Held Had)

/-- Calls the program makes: `Set` only with values in `W`, anything else at will. -/
def Allowed (W : Ref → String → String → Prop) : GraphAttrs.Op → Prop
  | .attrs op => AttrsConc.Allowed W op
  | _ => True

/-- The call looks into the attributes of nodes or edges. -/
def Looks : GraphAttrs.Op → Prop
  | .graph (.subGraph ..) => True
  | .graph .dot => True
  | .dot _ => True
  | _ => False

/-- In the run with schedule `as`, the memory was in state `s₁` at a moment when call number `i` was in progress. -/
def While (s : St) (as : List (Conc.Act GraphAttrs.Op)) (i : Nat) (s₁ : St) : Prop :=
  ∃ n c₁ t k, Conc.exec prog (.init s) (as.take n) = some c₁ ∧ c₁.data = s₁ ∧ c₁.calls t = some k ∧ k.id = i

/-- The list has keys and values of the attribute set `r` while values in `W` are set: each key once, only values
the set had, and no key it had from the beginning is missing. -/
structure Listed (h : Heap) (W : Ref → String → String → Prop) (r : Ref) (l : List (String × String)) : Prop where
  once : (l.map Prod.fst).Nodup
  held : ∀ k v, (k, v) ∈ l → Held h W r k v
  all : ∀ k, Had h r k → ∃ v, (k, v) ∈ l

/-- The same for a set of attributes. -/
structure Copied (h : Heap) (W : Ref → String → String → Prop) (r : Ref) (m : AttrMap) : Prop where
  held : ∀ k v, m.get? k = some v → Held h W r k v
  all : ∀ k, Had h r k → m.get? k ≠ none

/-- `r` is the attribute set of a node or of an edge of the graph. -/
def Uses (g : WG) (r : Ref) : Prop :=
  (∃ i n, g.b.nodes.get? i = some n ∧ n.attrs = r) ∨ ∃ i j e, g.b.weightedEdge i j = some e ∧ e.attrs = r

/-- The document was made of the graph `g` while values in `W` were set: the names of its nodes and edges are those
of a document of `g`, there is a statement for each node and
for each edge (if the graph is not directed, in one of its directions), and it lists the attributes. -/
structure Pictures (h : Heap) (W : Ref → String → String → Prop) (o : DotOrder) (g : WG) (d : Doc) : Prop where
  sameDirected : ∀ h', d.directed = (dot h' o g {}).directed
  sameNodes : ∀ h', d.nodes.map Prod.fst = (dot h' o g {}).nodes.map Prod.fst
  sameEdges : ∀ h', d.edges.map Prod.fst = (dot h' o g {}).edges.map Prod.fst
  nodes : ∃ ns : List Node, ns.Nodup ∧ (∀ n, n ∈ ns ↔ ∃ i, g.b.nodes.get? i = some n) ∧
    Spec.Graph.Pointwise (fun n x => x.1 = n.dotid ∧ (h.Valid n.attrs → Listed h W n.attrs x.2)) ns d.nodes
  edges : ∃ es : List (Node × Node × Edge),
    (∀ p ∈ es, g.b.nodes.get? p.1.id = some p.1 ∧ g.b.nodes.get? p.2.1.id = some p.2.1 ∧
      g.b.weightedEdge p.1.id p.2.1.id = some p.2.2) ∧
    (∀ i j e, g.b.weightedEdge i j = some e → ∃ p ∈ es, (p.1.id = i ∧ p.2.1.id = j) ∨
      ((∀ h', (dot h' o g {}).directed = false) ∧ p.1.id = j ∧ p.2.1.id = i)) ∧
    Spec.Graph.Pointwise (fun p x => x.1 = (p.1.dotid, p.2.1.dotid) ∧
      (h.Valid p.2.2.attrs → Listed h W p.2.2.attrs x.2)) es d.edges

end Netscrape.Spec.GraphAttrs
