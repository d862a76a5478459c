import Verif.Model.Store

/-!
# Specification vocabulary: executions that differ in attributes only
-/

namespace Netscrape.Spec.AttrData

/-- The same attribute sets exist; what is in them may differ. -/
def Alike (h h' : Heap) : Prop := h.cells.length = h'.cells.length

/-- The same call; or the program does different things to the attribute sets there are. -/
def SameGraphCall : Graph.Op → Graph.Op → Prop
  | .env h, .env h' => Alike h h'
  | op, op' => op = op'

/-- As `SameGraphCall`, for a store. -/
def SameStoreCall : Store.Op → Store.Op → Prop
  | .env h, .env h' => Alike h h'
  | op, op' => op = op'

/-- Related entry by entry. -/
def Pointwise {α : Type} (R : α → α → Prop) : List α → List α → Prop
  | [], [] => True
  | a :: l, b :: l' => R a b ∧ Pointwise R l l'
  | _, _ => False

end Netscrape.Spec.AttrData
