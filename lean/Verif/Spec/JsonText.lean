import Verif.Spec.Json

/-!
# The grammar of JSON texts

RFC 8259 written down as inductive relations between a text and the value it denotes, with the two
liberties `encoding/json` takes: bytes that are not UTF-8 and halves of surrogate pairs in strings denote
U+FFFD. Nothing here refers to the parser of `Verif.Model.Json`.
-/

namespace Netscrape.Spec.Json
open Netscrape.Json (Bytes J Elems Members)

/-- White space (RFC 8259, section 2). -/
def Ws (w : Bytes) : Prop := ∀ c ∈ w, c = ' ' ∨ c = '\t' ∨ c = '\n' ∨ c = '\r'

/-! ## Numbers (section 6) -/

def Digit (c : Char) : Prop := c ∈ "0123456789".toList

inductive IntPart : Bytes → Prop
  | zero : IntPart ['0']
  | other {d : Char} {ds : Bytes} : Digit d → d ≠ '0' → (∀ c ∈ ds, Digit c) → IntPart (d :: ds)

inductive FracPart : Bytes → Prop
  | absent : FracPart []
  | present {d : Char} {ds : Bytes} : Digit d → (∀ c ∈ ds, Digit c) → FracPart ('.' :: d :: ds)

inductive ExpPart : Bytes → Prop
  | absent : ExpPart []
  | present {e : Char} {sign : Bytes} {d : Char} {ds : Bytes} : e = 'e' ∨ e = 'E' →
      sign = [] ∨ sign = ['+'] ∨ sign = ['-'] → Digit d → (∀ c ∈ ds, Digit c) →
      ExpPart (e :: (sign ++ d :: ds))

inductive Number : Bytes → Prop
  | mk {sign i f e : Bytes} : sign = [] ∨ sign = ['-'] → IntPart i → FracPart f → ExpPart e →
      Number (sign ++ i ++ f ++ e)

/-! ## Strings (section 7) -/

/-- The hexadecimal digits and their values. -/
def hexTable : List (Char × Nat) :=
  [('0', 0), ('1', 1), ('2', 2), ('3', 3), ('4', 4), ('5', 5), ('6', 6), ('7', 7), ('8', 8), ('9', 9),
   ('a', 10), ('b', 11), ('c', 12), ('d', 13), ('e', 14), ('f', 15),
   ('A', 10), ('B', 11), ('C', 12), ('D', 13), ('E', 14), ('F', 15)]

/-- `\uabcd` has the code `n`. -/
def Code (a b c d : Char) (n : Nat) : Prop :=
  ∃ w x y z, (a, w) ∈ hexTable ∧ (b, x) ∈ hexTable ∧ (c, y) ∈ hexTable ∧ (d, z) ∈ hexTable ∧
    n = w * 4096 + x * 256 + y * 16 + z

/-- The two-character escapes. -/
def escapes : List (Char × Char) :=
  [('"', '"'), ('\\', '\\'), ('/', '/'), ('b', Char.ofNat 8), ('f', Char.ofNat 12), ('n', '\n'),
   ('r', '\r'), ('t', '\t')]

def High (n : Nat) : Prop := 0xD800 ≤ n ∧ n < 0xDC00
def Low (n : Nat) : Prop := 0xDC00 ≤ n ∧ n < 0xE000

/-- The text starts with the escape of the second half of a surrogate pair. -/
def StartsLow (t : Bytes) : Prop :=
  ∃ a b c d n r, t = '\\' :: 'u' :: a :: b :: c :: d :: r ∧ Code a b c d n ∧ Low n

/-- `Body t s`: between quotation marks, the text `t` denotes the string of bytes `s`. -/
inductive Body : Bytes → Bytes → Prop
  | nil : Body [] []
  /-- An ASCII character that is not a control character and needs no escape. -/
  | plain {c : Char} {t s : Bytes} : 0x20 ≤ c.toNat → c.toNat < 0x80 → c ≠ '"' → c ≠ '\\' →
      Body t s → Body (c :: t) (c :: s)
  /-- Any other Unicode character, in UTF-8. -/
  | multi {x : Char} {t s : Bytes} : 0x80 ≤ x.toNat → Body t s → Body (utf8 [x] ++ t) (utf8 [x] ++ s)
  | short {e x : Char} {t s : Bytes} : (e, x) ∈ escapes → Body t s → Body ('\\' :: e :: t) (x :: s)
  | code {a b c d : Char} {n : Nat} {t s : Bytes} : Code a b c d n → ¬ High n → ¬ Low n → Body t s →
      Body ('\\' :: 'u' :: a :: b :: c :: d :: t) (utf8 [Char.ofNat n] ++ s)
  | pair {a b c d : Char} {hi : Nat} {a' b' c' d' : Char} {lo : Nat} {t s : Bytes} :
      Code a b c d hi → High hi → Code a' b' c' d' lo → Low lo → Body t s →
      Body ('\\' :: 'u' :: a :: b :: c :: d :: '\\' :: 'u' :: a' :: b' :: c' :: d' :: t)
        (utf8 [Char.ofNat (0x10000 + (hi - 0xD800) * 0x400 + (lo - 0xDC00))] ++ s)
  /-- The first half of a pair without the second. -/
  | high {a b c d : Char} {n : Nat} {t s : Bytes} : Code a b c d n → High n → ¬ StartsLow t → Body t s →
      Body ('\\' :: 'u' :: a :: b :: c :: d :: t) (utf8 [Char.ofNat 0xFFFD] ++ s)
  /-- The second half of a pair without the first. -/
  | low {a b c d : Char} {n : Nat} {t s : Bytes} : Code a b c d n → Low n → Body t s →
      Body ('\\' :: 'u' :: a :: b :: c :: d :: t) (utf8 [Char.ofNat 0xFFFD] ++ s)
  /-- A byte that does not start a Unicode character. -/
  | invalid {c : Char} {t s : Bytes} : 0x80 ≤ c.toNat → (∀ x r, c :: t ≠ utf8 [x] ++ r) → Body t s →
      Body (c :: t) (utf8 [Char.ofNat 0xFFFD] ++ s)

/-! ## Values (sections 3, 4, 5) -/

mutual
/-- `Denotes b j`: the text `b`, without space around it, denotes the value `j`. -/
inductive Denotes : Bytes → J → Prop
  | null : Denotes "null".toList .null
  | true : Denotes "true".toList (.bool true)
  | false : Denotes "false".toList (.bool false)
  | num {t : Bytes} : Number t → Denotes t (.num t)
  | str {t s : Bytes} : Body t s → Denotes ('"' :: (t ++ ['"'])) (.str s)
  | arrNil {w : Bytes} : Ws w → Denotes ('[' :: (w ++ [']'])) (.arr .nil)
  | arr {t : Bytes} {l : Elems} : DenotesElems t l → Denotes ('[' :: (t ++ [']'])) (.arr l)
  | objNil {w : Bytes} : Ws w → Denotes ('{' :: (w ++ ['}'])) (.obj .nil)
  | obj {t : Bytes} {l : Members} : DenotesMembers t l → Denotes ('{' :: (t ++ ['}'])) (.obj l)
/-- One or more values separated by commas. -/
inductive DenotesElems : Bytes → Elems → Prop
  | one {w t w' : Bytes} {v : J} : Ws w → Denotes t v → Ws w' → DenotesElems (w ++ t ++ w') (.cons v .nil)
  | more {w t w' u : Bytes} {v : J} {l : Elems} : Ws w → Denotes t v → Ws w' → DenotesElems u l →
      DenotesElems (w ++ t ++ w' ++ ',' :: u) (.cons v l)
/-- One or more members separated by commas. -/
inductive DenotesMembers : Bytes → Members → Prop
  | one {w k s w1 w2 t w3 : Bytes} {v : J} : Ws w → Body k s → Ws w1 → Ws w2 → Denotes t v → Ws w3 →
      DenotesMembers (w ++ '"' :: (k ++ '"' :: (w1 ++ ':' :: (w2 ++ t ++ w3)))) (.cons s v .nil)
  | more {w k s w1 w2 t w3 u : Bytes} {v : J} {l : Members} : Ws w → Body k s → Ws w1 → Ws w2 →
      Denotes t v → Ws w3 → DenotesMembers u l →
      DenotesMembers (w ++ '"' :: (k ++ '"' :: (w1 ++ ':' :: (w2 ++ t ++ w3 ++ ',' :: u)))) (.cons s v l)
end

/-- A whole JSON text. -/
def Text (b : Bytes) (j : J) : Prop := ∃ w t w', Ws w ∧ Denotes t j ∧ Ws w' ∧ b = w ++ t ++ w'

end Netscrape.Spec.Json
