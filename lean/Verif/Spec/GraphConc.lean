import Verif.Model.GraphConc
import Verif.Spec.Linearizable

/-!
# Which calls goroutines make on a graph
-/

namespace Netscrape.Graph
open Netscrape.Conc Netscrape.Spec

def isLink : COp → Prop
  | .link .. => True
  | _ => False

def isDot : COp → Prop
  | .dot => True
  | _ => False

def isSubGraph : COp → Prop
  | .subGraph .. => True
  | _ => False

/-- In the pool `P` of nodes, equal UIDs and equal IDs go together. -/
def Pool (P : Node → Prop) : Prop := ∀ n m, P n → P m → (n.uid.str = m.uid.str ↔ n.id = m.id)

/-- Calls that add nodes from the pool only and, according to `rem`, do not remove nodes or do not link. -/
def Fixed (P : Node → Prop) (rem : Prop) : COp → Prop
  | .addNode n _ => P n
  | .removeNode _ => rem
  | .link .. => ¬ rem
  | .dot => False
  | _ => True

/-- `AddNode` is only given nodes that `NewNode` of the same graph returned before. -/
def FromNewNode (h : List (Ev COp COut)) : Prop :=
  ∀ c t n opts, Ev.inv c t (.addNode n opts) ∈ h →
    ∃ c' t', Before (Ev.res c' t' (.node (.ok n))) (Ev.inv c t (.addNode n opts)) h

/-- `Nodes` lists the UIDs that `Node` finds, and no others. -/
def SameUids (g : WG) : Prop :=
  ∀ (o : Order (Int × Node)) (k : String), k ∈ (nodesList g o).map (fun n => n.uid.str) ↔
    ∃ u n, u.str = k ∧ node g u = .ok n

end Netscrape.Graph
