import Verif.Model.GraphPtr

/-!
# Specification vocabulary for graphs of objects
-/

namespace Netscrape.Spec.GraphPtr
open Netscrape.GraphPtr
open Netscrape.Graph (Opt)

/-- Every edge object joins allocated nodes. Go has no dangling pointers. -/
def Sound (m : Mem) : Prop := ∀ p, m.EdgeOk p → m.NodeOk (m.edge p).src ∧ m.NodeOk (m.edge p).dst

/-- The program passes only pointers to objects that exist. -/
def Uses (s : St) : Op → Prop
  | .addNode p _ => s.mem.NodeOk p
  | .setNodeDOT p _ => s.mem.NodeOk p
  | .setEdgeDOT p _ => s.mem.EdgeOk p
  | _ => True

/-- As `Spec.Graph.Fits`. -/
def Fits (s : St) (p : NPtr) : Prop :=
  ∀ u q, node s.g u = .ok q → (s.mem.key q = s.mem.key p ↔ s.mem.id q = s.mem.id p)

def Any (_ : St) (_ : Op) : Prop := True

/-- `AddNode` is only given nodes that fit. -/
def Disciplined (s : St) : Op → Prop
  | .addNode p _ => Fits s p
  | _ => True

/-- Disciplined, and no node object of the graph is replaced by another one. -/
def NoReplace (s : St) : Op → Prop
  | .addNode p opts => Fits s p ∧
      (Opt.withUpsert ∈ opts → ∀ q, node s.g (s.mem.node p).uid = .ok q → q = p)
  | _ => True

/-- States reachable from a new graph by allowed calls. Objects may exist before the graph does. -/
inductive Reach (allowed : St → Op → Prop) (directed : Bool) : St → Prop
  | init (m : Mem) (fresh : Uid) (opts : List Opt) : Sound m →
      Reach allowed directed ⟨m, new directed fresh opts⟩
  | step (s : St) (op : Op) : Reach allowed directed s → Uses s op → allowed s op →
      Reach allowed directed (step s op).1

/-- The call does not take away an edge between `f` and `t`. -/
def Keeps (f t : Uid) : Op → Prop
  | .removeNode u => u.str ≠ f.str ∧ u.str ≠ t.str
  | .unlink u v => ¬ (u.str = f.str ∧ v.str = t.str) ∧ ¬ (u.str = t.str ∧ v.str = f.str)
  | _ => True

/-- The call does not take the node `p` out of the graph or put another one with its UID in its place. -/
def KeepsNode (p : NPtr) (s : St) : Op → Prop
  | .removeNode u => u.str ≠ s.mem.key p
  | .addNode q _ => s.mem.key q = s.mem.key p → q = p
  | _ => True

/-- Every call of a history is allowed where it happens. -/
def Allowed (allowed : St → Op → Prop) : St → List Op → Prop
  | _, [] => True
  | s, op :: ops => Uses s op ∧ allowed s op ∧ Allowed allowed (step s op).1 ops

/-- A call of `SetDOTID`. -/
def isSet : Op → Bool
  | .setNodeDOT _ _ => true
  | .setEdgeDOT _ _ => true
  | _ => false

/-- The last DOTID a history gives the node at `p`. -/
def lastNodeDOT (p : NPtr) (old : String) (ops : List Op) : String :=
  ((ops.filterMap fun op => match op with
    | .setNodeDOT q s => if q = p then some s else none
    | _ => none).getLast?).getD old

/-- The last DOTID a history gives the edge at `p`. -/
def lastEdgeDOT (p : EPtr) (old : String) (ops : List Op) : String :=
  ((ops.filterMap fun op => match op with
    | .setEdgeDOT q s => if q = p then some s else none
    | _ => none).getLast?).getD old

end Netscrape.Spec.GraphPtr
