import Verif.Model.Stdout

/-!
# What reaches standard output
-/

namespace Netscrape.Spec.Stdout
open Netscrape.Stdout
open Netscrape.Json (Bytes)

/-- The bytes that reached standard output: from each buffer given to write(2), the part it took. -/
def output (l : List (Bytes × Nat)) : Bytes := l.flatMap fun x => x.1.take x.2

/-- The operating system never claims to have written more than it was given. -/
def Honest (l : List (Bytes × Nat)) : Prop := ∀ x ∈ l, x.2 ≤ x.1.length

/-- How many bytes the calls of write(2) say they wrote. -/
def written : List Sys → Nat
  | [] => 0
  | .wrote n :: r => n + written r
  | .fail _ :: r => written r

end Netscrape.Spec.Stdout
