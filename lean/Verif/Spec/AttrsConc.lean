import Verif.Model.AttrsConc
import Verif.Spec.Linearizable

/-!
# Specification vocabulary: attribute sets used by several goroutines
-/

namespace Netscrape.Spec.AttrsConc
open Netscrape Netscrape.Attrs

/-- Calls the program makes: `Set` only with values in `W`, anything else at will. -/
def Allowed (W : Ref → String → String → Prop) : COp → Prop
  | .set r k v => W r k v
  | _ => True

/-- `v` was the value of `k` in the beginning, or is one that somebody may have set. -/
def Held (h : Heap) (W : Ref → String → String → Prop) (r : Ref) (k v : String) : Prop :=
  (h.read r).get? k = some v ∨ W r k v

/-- The key was there in the beginning. -/
def Had (h : Heap) (r : Ref) (k : String) : Prop := (h.read r).get? k ≠ none

/-- The attribute set a call is about. -/
def about : COp → Ref
  | .get r _ => r
  | .set r _ _ => r
  | .keys _ r => r
  | .copy _ r => r

/-- What may come of a call while others set values in `W`: no value and no key is invented or lost. -/
def Sane (h : Heap) (W : Ref → String → String → Prop) : COp → COut → Prop
  | .get r k, out => ∃ v, out = .str v ∧ (Held h W r k v ∨ (v = "" ∧ ¬ Had h r k))
  | .set _ _ _, out => out = .unit
  | .keys _ r, out => out = .panic ∨
      ∃ l, out = .keys l ∧ l.Nodup ∧ (∀ k, k ∈ l → ∃ v, Held h W r k v) ∧ ∀ k, Had h r k → k ∈ l
  | .copy _ r, out => out = .panic ∨
      ∃ l, out = .pairs l ∧ (l.map Prod.fst).Nodup ∧ (∀ k v, (k, v) ∈ l → Held h W r k v) ∧
        ∀ k, Had h r k → ∃ v, (k, v) ∈ l

end Netscrape.Spec.AttrsConc
