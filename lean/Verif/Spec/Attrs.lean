/-!
# Specification of attribute sets

A history of `Set` calls is a list of (object, key, value), oldest first.
-/

namespace Netscrape.Spec

/-- The value of the last `Set` of key `k` on object `a`, if there was one. -/
def lastSet (hist : List (Nat × String × String)) (a : Nat) (k : String) : Option String :=
  match hist with
  | [] => none
  | (a', k', v) :: rest =>
    match lastSet rest a k with
    | some v' => some v'
    | none => if a' = a ∧ k' = k then some v else none

end Netscrape.Spec
