import Verif.Spec.GraphConc

/-!
# Graphs that were built before several goroutines use them
-/

namespace Netscrape.Graph
open Netscrape.Spec

/-- `AddNode` is only given nodes from the pool. -/
def PoolOnly (P : Node → Prop) : COp → Prop
  | .addNode n _ => P n
  | _ => True

/-- A graph and the memory around it after any calls made one at a time, `AddNode` with nodes from the pool
only. -/
inductive Built (P : Node → Prop) : St → Prop
  | new (heap : Heap) (d : Bool) (u : Uid) (opts : List Opt) : Built P ⟨heap, new d u opts⟩
  | call (s : St) (op : COp) : Built P s → PoolOnly P op → Built P (seq s op).1

/-- The methods that decide in one critical section and act in it or, knowing no more than UIDs and IDs, in
a later one. -/
def Simple : COp → Prop
  | .addNode .. | .addForeign | .node _ | .nodes _ | .removeNode _ | .edge .. | .edges _ | .from' .. | .unlink .. => True
  | _ => False

end Netscrape.Graph
