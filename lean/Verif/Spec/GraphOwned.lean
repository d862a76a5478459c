import Verif.Spec.Graph

/-!
# Histories in which every added node was made by the graph's own `NewNode`

Described by the calls and what they return only.
-/

namespace Netscrape.Spec.Graph
open Netscrape.Graph

/-- Every `AddNode` is given a node that an earlier `NewNode` of the same graph returned; `made` are
the nodes returned so far. -/
def Owned : St → List Node → List Op → Prop
  | _, _, [] => True
  | s, made, op :: ops =>
    (∀ n opts, op = .addNode n opts → n ∈ made) ∧
    Owned (step s op).1
      (match (step s op).2 with | .node (.ok n) => n :: made | _ => made) ops

/-- Like `Owned`, and since the node was returned by `NewNode` no node was given to `AddNode` that has
the same ID under another UID or the same UID with another ID. `made` are the nodes that may be
added now. -/
def KeptApart : St → List Node → List Op → Prop
  | _, _, [] => True
  | s, made, op :: ops =>
    (∀ n opts, op = .addNode n opts → n ∈ made) ∧
    KeptApart (step s op).1
      (match op, (step s op).2 with
        | .addNode n _, _ => made.filter fun m => decide (n.uid.str = m.uid.str ↔ n.id = m.id)
        | .newNode _ _ _, .node (.ok n) => n :: made
        | _, _ => made) ops

/-- The node `u` names has the ID `i`. -/
def HasID (g : WG) (u : Uid) (i : Int) : Prop := ∃ n, node g u = .ok n ∧ n.id = i

/-- `p` and `q` name nodes with the IDs of the nodes `u` and `v` name. -/
def SameIDs (g : WG) (p q u v : Uid) : Prop :=
  ∃ i j, HasID g p i ∧ HasID g q j ∧ HasID g u i ∧ HasID g v j

end Netscrape.Spec.Graph
