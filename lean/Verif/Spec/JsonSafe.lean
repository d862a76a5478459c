import Verif.Spec.Json

/-!
# Texts that survive being put on a line, in a web page or in a script

Nothing here refers to the encoder of `Verif.Model.Json`.
-/

namespace Netscrape.Spec.Json
open Netscrape.Json (Bytes)

/-- Characters with a meaning to something a document may be embedded in: control characters (among them
the ends of lines), the characters that start markup in HTML, and the two line ends of JavaScript that are
not control characters. -/
def Special (x : Char) : Prop :=
  x.toNat < 0x20 ∨ x = '<' ∨ x = '>' ∨ x = '&' ∨ x.toNat = 0x2028 ∨ x.toNat = 0x2029

/-- Valid UTF-8 of a text without such characters. -/
def Safe (b : Bytes) : Prop := ∃ cs : List Char, b = utf8 cs ∧ ∀ x ∈ cs, ¬ Special x

/-- Documents written one after the other, each followed by a newline. -/
def perLine (docs : List Bytes) : Bytes := docs.flatMap fun d => d ++ ['\n']

end Netscrape.Spec.Json
