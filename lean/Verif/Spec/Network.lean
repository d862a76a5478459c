import Verif.Model.Network
import Verif.Spec.EndToEnd
import Verif.Spec.Store
import Verif.Spec.Digest

/-!
# The network a list of values describes
-/

namespace Netscrape.Spec.Network
open Netscrape.Marshal (Value)
open Netscrape.Spec.Space (SameMap)

/-- A value and the memory its attributes are in. -/
abbrev Item := Heap × Value

/-- Entities, resources and objects are nodes: UID, type, attributes. -/
def nodeOf : Item → Option (String × String × AttrMap)
  | (h, .entity e) => some (e.uid.str, e.typ, h.read e.attrs)
  | (h, .resource r) => some (r.uid.str, r.typ, h.read r.attrs)
  | (h, .object o) => some (o.uid.str, o.typ, h.read o.attrs)
  | (_, .link _) => none

/-- Their DOTID: it is not sent, so it is the one a value of this kind has if none is chosen for it. -/
def dotOf : Item → String
  | (_, .entity e) => e.uid.str
  | (_, .resource r) => Space.defaultResourceDOT r
  | (_, .object o) => Space.defaultObjectDOT o
  | (_, .link _) => ""

/-- Links are edges: the UIDs of the ends, attributes. -/
def edgeOf : Item → Option (String × String × AttrMap)
  | (h, .link l) => some (l.from'.str, l.to.str, h.read l.attrs)
  | _ => none

/-- There is a node with this UID. -/
def HasNode (vs : List Item) (u : String) : Prop := ∃ v ∈ vs, ∃ typ a, nodeOf v = some (u, typ, a)

/-- There is an edge from `f` to `t`; in an undirected network in either direction. -/
def HasEdge (directed : Bool) (vs : List Item) (f t : String) : Prop :=
  ∃ v ∈ vs, ∃ a, edgeOf v = some (f, t, a) ∨ (directed = false ∧ edgeOf v = some (t, f, a))

/-- Every value can be added to what is before it: nodes are new, edges are new, are between nodes that are
there, and are not loops. -/
def Orderly (directed : Bool) (vs : List Item) : Prop := ∀ before v after, vs = before ++ v :: after →
  (∀ u typ a, nodeOf v = some (u, typ, a) → ¬ HasNode before u) ∧
  (∀ f t a, edgeOf v = some (f, t, a) →
    f ≠ t ∧ HasNode before f ∧ HasNode before t ∧ ¬ HasEdge directed before f t)

/-- The store holds exactly the network the values describe, with types, DOTIDs of nodes and attributes. -/
structure Holds (directed : Bool) (vs : List Item) (s : Graph.St) : Prop where
  node : ∀ v ∈ vs, ∀ u typ a, nodeOf v = some (u, typ, a) → ∀ k : Uid, k.str = u →
    ∃ n, Store.get s k = .ok n ∧ n.uid.str = u ∧ n.ent.typ = typ ∧ n.dotid = dotOf v ∧
      SameMap a (s.heap.read n.attrs)
  noNode : ∀ k : Uid, ¬ HasNode vs k.str → Store.get s k = .err .entityNotFound
  edge : ∀ v ∈ vs, ∀ f t a, edgeOf v = some (f, t, a) → ∀ p q : Uid, p.str = f → q.str = t →
    (∃ e, Graph.edge s.g p q = .ok e ∧ e.src.uid.str = f ∧ e.dst.uid.str = t ∧
      SameMap a (s.heap.read e.attrs)) ∧
    (directed = false → ∃ e, Graph.edge s.g q p = .ok e ∧ e.src.uid.str = t ∧ e.dst.uid.str = f ∧
      SameMap a (s.heap.read e.attrs))
  noEdge : ∀ p q : Uid, ¬ HasEdge directed vs p.str q.str → ∀ e, Graph.edge s.g p q ≠ .ok e

/-- How many nodes. -/
def nodes (vs : List Item) : Nat := vs.countP fun v => (nodeOf v).isSome

/-- The messages `Digest` has called its handler on, oldest first. -/
def handled (d : Digest.DSt) : List Broker.Msg := d.recvs.flatMap fun r => Spec.Broker.handledBy r d.s.log

end Netscrape.Spec.Network
