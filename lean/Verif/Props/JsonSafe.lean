import Verif.Lemmas.JsonSafe

/-! # C106: marshalled documents can be put on a line, in a web page or in a script -/

namespace Netscrape.Props
open Netscrape Netscrape.Json Netscrape.Marshal Netscrape.Spec.Json

/-- **C106**: whatever bytes the strings of a value are made of, its document is valid UTF-8 of a text
without control characters, `<`, `>`, `&`, U+2028 and U+2029. -/
theorem c106_safe {h : Heap} {o : Orders} {d : Dyn} {b : Bytes} (hm : marshal h o d = .ok b) : Safe b :=
  safe_marshal hm

/-- **C106** for streams: documents written one per line can be told apart again. -/
theorem c106_per_line {docs docs' : List Bytes}
    (h1 : ∀ b ∈ docs, ∃ h o d, marshal h o d = .ok b) (h2 : ∀ b ∈ docs', ∃ h o d, marshal h o d = .ok b)
    (he : perLine docs = perLine docs') : docs = docs' := by
  refine perLine_inj ?_ ?_ he
  · intro b hb
    obtain ⟨_, _, _, hm⟩ := h1 b hb
    exact safe_newline (safe_marshal hm)
  · intro b hb
    obtain ⟨_, _, _, hm⟩ := h2 b hb
    exact safe_newline (safe_marshal hm)

/-- Non-vacuity of C106: an entity whose type is made of newline, markup, U+2028 and a byte that is not
UTF-8. Its own strings are not safe, its document is. -/
example :
    let t := "a\n</x>&" ++ String.ofList (utf8 [Char.ofNat 0x2028, Char.ofNat 0xe9] ++ [Char.ofNat 0xFF])
    (marshal (Attrs.new Heap.empty).2 Orders.id (Dyn.entityPtr ⟨⟨1, "u"⟩, t, "", 0⟩)).toOption.map String.ofList =
      some ("{\"uid\":\"u\",\"type\":\"a\\n\\u003c/x\\u003e\\u0026\\u2028" ++
        String.ofList (utf8 [Char.ofNat 0xe9]) ++ "\\ufffd\"}") ∧
    '\n' ∈ t.toList := by
  refine ⟨by decide +kernel, by decide +kernel⟩

/-- Without the escapes the claim would be false: texts with such characters are not safe. -/
example : ¬ Safe "{\"a\":\"\n\"}".toList := fun h => safe_newline h (by decide)

end Netscrape.Props
