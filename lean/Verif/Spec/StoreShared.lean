import Verif.Model.StoreShared
import Verif.Spec.StoreHandle

/-!
# What is said about stores that share a graph
-/

namespace Netscrape.Spec.Shared
open Netscrape.Conc

/-- Calls on stores, none on the graph directly. -/
def OnStores (x : Store.Shared.Op) : Prop := x.2.isLeft = true

/-- Store `w` is used as one likes, but for the methods that write in bulk; the other stores are only asked with
`Get`, and the graph is only looked at. -/
def OneWriter (w : Nat) : Store.Shared.Op → Prop
  | (i, .inl op) => (i = w ∧ Handle.Single (.inl op)) ∨ ∃ u, op = .get u
  | (_, .inr op) => Handle.Looks op

/-- Store `w` is used as one likes; the other stores are only asked with `Get`, and the graph is only looked at. -/
def OneBulkWriter (w : Nat) : Store.Shared.Op → Prop
  | (i, .inl op) => i = w ∨ ∃ u, op = .get u
  | (_, .inr op) => Handle.Looks op

/-- Entities are added and deleted through store `w` only; otherwise all stores, and the graph, are used as one
likes. -/
def NodesBy (w : Nat) : Store.Shared.Op → Prop
  | (i, .inl op) => Handle.Renews op → i = w
  | (_, .inr op) => Handle.NodesByStore (.inr op)

/-- Bulk calls that write are executed in parts, until one fails. Calls on store `w` do not get in between. -/
def inParts (w : Nat) : Split Store.Shared.Op Store.Handle.Out where
  parts := fun x => (Handle.partsOf x.2).map fun o => (x.1, o)
  goesOn := Handle.inParts.goesOn
  result := fun x => Handle.inParts.result x.2
  main := fun x => x.1 = w ∧ x.2.isLeft = true

end Netscrape.Spec.Shared
