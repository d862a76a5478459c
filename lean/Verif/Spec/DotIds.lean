import Verif.Model.DotIds

/-!
# Calls that use the DOTID of a node or an edge
-/

namespace Netscrape.Spec.DotIds
open Netscrape.DotIds Netscrape.GraphPtr

/-- The call is `SetDOTID` of the object whose DOTID `l` is. -/
def Sets : DotIds.Op → Loc → Prop
  | .setNodeDOT p _, l => l = .node p
  | .setEdgeDOT p _, l => l = .edge p
  | _, _ => False

/-- The call is `DOTID` of the object whose DOTID `l` is. -/
def Gets : DotIds.Op → Loc → Prop
  | .nodeDOT p, l => l = .node p
  | .edgeDOT p, l => l = .edge p
  | _, _ => False

/-- The call is `Node`, `Nodes` or `NewNode`. -/
def Harmless : DotIds.Op → Prop
  | .node _ => True
  | .nodes _ => True
  | .newNode .. => True
  | _ => False

/-- The call is not one that adds node `p`. -/
def NotAdding (p : NPtr) : DotIds.Op → Prop
  | .addNode q _ => q ≠ p
  | _ => True

/-- Node `p` is not in the graph, and no edge starts or ends there. -/
structure Absent (p : NPtr) (s : St) : Prop where
  named : ∀ k, s.g.nodes.get? k ≠ some p
  numbered : ∀ i, s.g.b.nodes.get? i ≠ some p
  ends : ∀ e, s.mem.EdgeOk e → (s.mem.edge e).src ≠ p ∧ (s.mem.edge e).dst ≠ p
  made : match s.g.b.edges with
    | .directed fr to =>
      (∀ i j e, fr.at i j = some e → s.mem.EdgeOk e) ∧ ∀ i j e, to.at i j = some e → s.mem.EdgeOk e
    | .undirected ed => ∀ i j e, ed.at i j = some e → s.mem.EdgeOk e

end Netscrape.Spec.DotIds
