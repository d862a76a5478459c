/-!
# The JSON text layer

`Marshaler.Marshal` and `Marshaler.Unmarshal` (pkg/space/marshal/json/json.go:19-82) call Go's
`encoding/json`. This file models the parts of that package they rely on: how strings are quoted, how
values are written, and the parser. It follows the Go standard library as of Go 1.14, the version in
/repo/go.mod; it is written from knowledge of that library, whose source is not in /repo.

A Go string or byte slice is a list of `Char` whose elements stand for bytes, so all have a code below
256. Unicode text appears as its UTF-8 bytes, and text that is not valid UTF-8 can be written down.

Not modelled: numbers are kept as their text (no field of the transport structs is a number).
-/

namespace Netscrape.Json

/-- Bytes, see the head of this file. -/
abbrev Bytes := List Char

/-- The byte with the given code. -/
def byte (n : Nat) : Char := Char.ofNat n

/-- A UTF-8 continuation byte. -/
def isCont (c : Char) : Bool := 0x80 ≤ c.toNat && c.toNat ≤ 0xBF

/-- `unicode/utf8.DecodeRune` on `c :: t` for `c ≥ 0x80`: how many bytes of `t` belong to the rune, or
`none` when the encoding is invalid (then Go reports `RuneError` of size 1). The ranges are Go's
`first` and `acceptRanges` tables. -/
def contLen (c : Char) (t : Bytes) : Option Nat :=
  let a := c.toNat
  match t with
  | [] => none
  | b :: t =>
    if 0xC2 ≤ a ∧ a ≤ 0xDF then if isCont b then some 1 else none
    else match t with
    | [] => none
    | d :: t =>
      if 0xE0 ≤ a ∧ a ≤ 0xEF then
        if isCont b ∧ isCont d ∧ (a = 0xE0 → 0xA0 ≤ b.toNat) ∧ (a = 0xED → b.toNat ≤ 0x9F)
        then some 2 else none
      else match t with
      | [] => none
      | e :: _ =>
        if 0xF0 ≤ a ∧ a ≤ 0xF4 then
          if isCont b ∧ isCont d ∧ isCont e ∧ (a = 0xF0 → 0x90 ≤ b.toNat) ∧
              (a = 0xF4 → b.toNat ≤ 0x8F)
          then some 3 else none
        else none

/-- A lower-case hexadecimal digit. -/
def hexDigit (n : Nat) : Char := if n < 10 then byte (48 + n) else byte (87 + n)

/-- How `encodeState.string` writes one byte below 0x80 (HTML escaping on, as `json.Marshal` does):
`"` and `\` with a backslash, newline, carriage return and tab by their short forms, other control
bytes and `<`, `>`, `&` as `\u00xx`, the rest as they are. -/
def escape (c : Char) : Bytes :=
  if c = '"' ∨ c = '\\' then ['\\', c]
  else if c = '\n' then ['\\', 'n']
  else if c = '\r' then ['\\', 'r']
  else if c = '\t' then ['\\', 't']
  else if c.toNat < 0x20 ∨ c = '<' ∨ c = '>' ∨ c = '&' then
    ['\\', 'u', '0', '0', hexDigit (c.toNat / 16), hexDigit (c.toNat % 16)]
  else [c]

/-- The bytes after 0xE2 that make U+2028 or U+2029, with the last hexadecimal digit. -/
def lineSep (c : Char) (t : Bytes) : Option Char :=
  match t with
  | b :: d :: _ =>
    if c.toNat = 0xE2 ∧ b.toNat = 0x80 ∧ d.toNat = 0xA8 then some '8'
    else if c.toNat = 0xE2 ∧ b.toNat = 0x80 ∧ d.toNat = 0xA9 then some '9'
    else none
  | _ => none

/-- The loop of `encodeState.string`. `copy` bytes belong to a rune already recognised and are written
as they are; then `drop` bytes belong to one already written as an escape. An invalid byte is written
as the escape for U+FFFD. -/
def quoteLoop : Nat → Nat → Bytes → Bytes
  | _, _, [] => []
  | copy + 1, drop, c :: t => c :: quoteLoop copy drop t
  | 0, drop + 1, _ :: t => quoteLoop 0 drop t
  | 0, 0, c :: t =>
    if c.toNat < 0x80 then escape c ++ quoteLoop 0 0 t
    else match contLen c t with
      | none => ['\\', 'u', 'f', 'f', 'f', 'd'] ++ quoteLoop 0 0 t
      | some k => match lineSep c t with
        | some d => ['\\', 'u', '2', '0', '2', d] ++ quoteLoop 0 2 t
        | none => c :: quoteLoop k 0 t

/-- `encodeState.string`. -/
def quote (s : Bytes) : Bytes := '"' :: (quoteLoop 0 0 s ++ ['"'])

/-! ## Values -/

mutual
/-- A JSON value. Strings hold their decoded bytes, numbers their text. -/
inductive J where
  | null
  | bool (b : Bool)
  | num (text : Bytes)
  | str (s : Bytes)
  | arr (l : Elems)
  | obj (l : Members)
/-- The elements of an array. -/
inductive Elems where
  | nil
  | cons (v : J) (rest : Elems)
/-- The members of an object, in order, duplicates kept. -/
inductive Members where
  | nil
  | cons (k : Bytes) (v : J) (rest : Members)
end

mutual
/-- Writing a value without spaces, as `json.Marshal` does. -/
def render : J → Bytes
  | .null => ['n', 'u', 'l', 'l']
  | .bool true => ['t', 'r', 'u', 'e']
  | .bool false => ['f', 'a', 'l', 's', 'e']
  | .num t => t
  | .str s => quote s
  | .arr .nil => ['[', ']']
  | .arr (.cons v r) => '[' :: (render v ++ renderElems r)
  | .obj .nil => ['{', '}']
  | .obj (.cons k v r) => '{' :: (quote k ++ ':' :: (render v ++ renderMembers r))
/-- The elements after the first, with the closing bracket. -/
def renderElems : Elems → Bytes
  | .nil => [']']
  | .cons v r => ',' :: (render v ++ renderElems r)
/-- The members after the first, with the closing brace. -/
def renderMembers : Members → Bytes
  | .nil => ['}']
  | .cons k v r => ',' :: (quote k ++ ':' :: (render v ++ renderMembers r))
end

/-! ## Parser -/

/-- The value of a hexadecimal digit, either case. -/
def hexVal (c : Char) : Option Nat :=
  let n := c.toNat
  if 48 ≤ n ∧ n ≤ 57 then some (n - 48)
  else if 97 ≤ n ∧ n ≤ 102 then some (n - 87)
  else if 65 ≤ n ∧ n ≤ 70 then some (n - 55)
  else none

/-- `getu4`: four hexadecimal digits. -/
def hex4 (a b c d : Char) : Option Nat :=
  match hexVal a, hexVal b, hexVal c, hexVal d with
  | some a, some b, some c, some d => some (((a * 16 + b) * 16 + c) * 16 + d)
  | _, _, _, _ => none

/-- `utf8.EncodeRune`, for code points that are not surrogates. -/
def encodeRune (n : Nat) : Bytes :=
  if n < 0x80 then [byte n]
  else if n < 0x800 then [byte (0xC0 + n / 64), byte (0x80 + n % 64)]
  else if n < 0x10000 then
    [byte (0xE0 + n / 4096), byte (0x80 + n / 64 % 64), byte (0x80 + n % 64)]
  else
    [byte (0xF0 + n / 262144), byte (0x80 + n / 4096 % 64), byte (0x80 + n / 64 % 64),
      byte (0x80 + n % 64)]

/-- The bytes of U+FFFD. -/
def replacement : Bytes := [byte 0xEF, byte 0xBF, byte 0xBD]

/-- A short escape. -/
def shortEscape (c : Char) : Option Char :=
  if c = '"' ∨ c = '\\' ∨ c = '/' then some c
  else if c = 'b' then some (byte 8)
  else if c = 'f' then some (byte 12)
  else if c = 'n' then some (byte 10)
  else if c = 'r' then some (byte 13)
  else if c = 't' then some (byte 9)
  else none

/-- Putting bytes in front of a parsed string. -/
def prepend (p : Bytes) : Option (Bytes × Bytes) → Option (Bytes × Bytes)
  | some (s, r) => some (p ++ s, r)
  | none => none

/-- The second half of a surrogate pair whose first half is `r`, when `t` starts with one. -/
def lowSurrogate (r : Nat) (t : Bytes) : Option Nat :=
  match t with
  | '\\' :: 'u' :: a :: b :: c :: d :: _ =>
    match hex4 a b c d with
    | some r' => if r < 0xDC00 ∧ 0xDC00 ≤ r' ∧ r' < 0xE000 then some r' else none
    | none => none
  | _ => none

/-- A string literal after its opening quote: its decoded bytes and what follows the closing quote.
This is the scanner's string states together with `unquoteBytes`: control bytes and bad escapes are
errors, surrogate pairs are combined, lone surrogates and invalid UTF-8 become U+FFFD. -/
def unquote : Nat → Bytes → Option (Bytes × Bytes)
  | _, [] => none
  | copy + 1, c :: t => prepend [c] (unquote copy t)
  | 0, c :: t =>
    if c = '"' then some ([], t)
    else if c = '\\' then
      match t with
      | [] => none
      | e :: t =>
        if e = 'u' then
          match t with
          | a :: b :: c :: d :: t =>
            match hex4 a b c d with
            | none => none
            | some r =>
              if 0xD800 ≤ r ∧ r < 0xE000 then
                match lowSurrogate r t with
                | none => prepend replacement (unquote 0 t)
                | some r' => match t with
                  | _ :: _ :: _ :: _ :: _ :: _ :: t =>
                    prepend (encodeRune (0x10000 + (r - 0xD800) * 1024 + (r' - 0xDC00))) (unquote 0 t)
                  | _ => none
              else prepend (encodeRune r) (unquote 0 t)
          | _ => none
        else match shortEscape e with
          | some x => prepend [x] (unquote 0 t)
          | none => none
    else if c.toNat < 0x20 then none
    else if c.toNat < 0x80 then prepend [c] (unquote 0 t)
    else match contLen c t with
      | some k => prepend [c] (unquote k t)
      | none => prepend replacement (unquote 0 t)
termination_by structural _ s => s

/-- White space between tokens. -/
def isSpace (c : Char) : Bool := c = ' ' || c = '\t' || c = '\r' || c = '\n'

def skipSpace : Bytes → Bytes
  | [] => []
  | c :: t => if isSpace c then skipSpace t else c :: t

def isDigit (c : Char) : Bool := 48 ≤ c.toNat && c.toNat ≤ 57

/-- The digits at the front. -/
def digits : Bytes → Bytes × Bytes
  | [] => ([], [])
  | c :: t => if isDigit c then (c :: (digits t).1, (digits t).2) else ([], c :: t)

/-- The integer part: `0`, or digits not starting with `0`. -/
def intPart (s : Bytes) : Option (Bytes × Bytes) :=
  match digits s with
  | ([], _) => none
  | ('0' :: ds, r) => some (['0'], ds ++ r)
  | p => some p

/-- The fraction, if there is one. -/
def fracPart (s : Bytes) : Option (Bytes × Bytes) :=
  match s with
  | '.' :: t => match digits t with
    | ([], _) => none
    | (ds, r) => some ('.' :: ds, r)
  | s => some ([], s)

/-- The exponent, if there is one. -/
def expPart (s : Bytes) : Option (Bytes × Bytes) :=
  let go (p : Bytes) (t : Bytes) : Option (Bytes × Bytes) :=
    match digits t with
    | ([], _) => none
    | (ds, r) => some (p ++ ds, r)
  match s with
  | c :: t =>
    if c = 'e' ∨ c = 'E' then
      match t with
      | d :: t' => if d = '+' ∨ d = '-' then go [c, d] t' else go [c] t
      | [] => none
    else some ([], s)
  | [] => some ([], [])

/-- A number. -/
def number (s : Bytes) : Option (Bytes × Bytes) :=
  let (sign, s) := match s with
    | '-' :: t => (['-'], t)
    | s => (([] : Bytes), s)
  match intPart s with
  | none => none
  | some (i, r) => match fracPart r with
    | none => none
    | some (f, r) => match expPart r with
      | none => none
      | some (e, r) => some (sign ++ i ++ f ++ e, r)

mutual
/-- A value, leading space allowed. The first argument bounds the recursion; `parse` gives enough. -/
def value : Nat → Bytes → Option (J × Bytes)
  | 0, _ => none
  | n + 1, s =>
    match skipSpace s with
    | [] => none
    | '"' :: t => match unquote 0 t with
      | some (x, r) => some (.str x, r)
      | none => none
    | '{' :: t => match skipSpace t with
      | '}' :: r => some (.obj .nil, r)
      | t => match members n t with
        | some (m, r) => some (.obj m, r)
        | none => none
    | '[' :: t => match skipSpace t with
      | ']' :: r => some (.arr .nil, r)
      | t => match elems n t with
        | some (m, r) => some (.arr m, r)
        | none => none
    | 'n' :: 'u' :: 'l' :: 'l' :: r => some (.null, r)
    | 't' :: 'r' :: 'u' :: 'e' :: r => some (.bool true, r)
    | 'f' :: 'a' :: 'l' :: 's' :: 'e' :: r => some (.bool false, r)
    | t => match number t with
      | some (x, r) => some (.num x, r)
      | none => none
/-- One or more elements up to and including the closing bracket. -/
def elems : Nat → Bytes → Option (Elems × Bytes)
  | 0, _ => none
  | n + 1, s =>
    match value n s with
    | none => none
    | some (v, r) => match skipSpace r with
      | ']' :: r => some (.cons v .nil, r)
      | ',' :: r => match elems n r with
        | some (l, r) => some (.cons v l, r)
        | none => none
      | _ => none
/-- One or more members up to and including the closing brace. -/
def members : Nat → Bytes → Option (Members × Bytes)
  | 0, _ => none
  | n + 1, s =>
    match skipSpace s with
    | '"' :: t => match unquote 0 t with
      | none => none
      | some (k, r) => match skipSpace r with
        | ':' :: r => match value n r with
          | none => none
          | some (v, r) => match skipSpace r with
            | '}' :: r => some (.cons k v .nil, r)
            | ',' :: r => match members n r with
              | some (l, r) => some (.cons k v l, r)
              | none => none
            | _ => none
        | _ => none
    | _ => none
end

/-- A whole text: one value, nothing but space around it. Each recursive call of the functions above
goes with at least one byte consumed, or one such call directly below it, so twice the length is
enough. -/
def parse (s : Bytes) : Option J :=
  match value (2 * s.length + 2) s with
  | some (v, r) => if skipSpace r = [] then some v else none
  | none => none

end Netscrape.Json
