import Verif.Spec.JsonText
import Verif.Spec.Space

/-!
# What a JSON document says about an entity, resource, object or link

Documents are read member by member: a member belongs to the field whose name it has up to case, later
members of a field override or add to earlier ones, members of no field are ignored.
-/

namespace Netscrape.Spec.Unmarshal
open Netscrape.Json (Bytes J Members)
open Netscrape.Spec.Json

abbrev Ms := List (Bytes × J)

/-- The members of an object as a list. -/
def list : Members → Ms
  | .nil => []
  | .cons k v r => (k, v) :: list r

/-- The characters equal to a lower-case letter up to case. Beside the capital letter these are the Kelvin
sign for `k` and the long s for `s` (Unicode simple case folding). -/
def variants (c : Char) : List Char :=
  [c, c.toUpper] ++ (if c = 'k' then [Char.ofNat 0x212A] else if c = 's' then [Char.ofNat 0x17F] else [])

/-- Equal up to case. -/
inductive UpToCase : List Char → List Char → Prop
  | nil : UpToCase [] []
  | cons {x c : Char} {xs cs : List Char} : x ∈ variants c → UpToCase xs cs → UpToCase (x :: xs) (c :: cs)

/-- A key is a field's name up to case. -/
def Names (key : Bytes) (field : String) : Prop := ∃ xs, key = utf8 xs ∧ UpToCase xs field.toList

open Classical in
/-- The values given to a field, in order. -/
noncomputable def given (field : String) (ms : Ms) : List J :=
  (ms.filter fun m => decide (Names m.1 field)).map Prod.snd

/-! ## Fields of type string and bool: the last one counts, `null` is ignored -/

def OkText (v : J) : Prop := v = .null ∨ ∃ s, v = .str s

noncomputable def textOf (field : String) (ms : Ms) : String :=
  (given field ms).foldl (fun old v => match v with | .str s => String.ofList s | _ => old) ""

def OkFlag (v : J) : Prop := v = .null ∨ ∃ b, v = .bool b

noncomputable def flagOf (field : String) (ms : Ms) : Bool :=
  (given field ms).foldl (fun old v => match v with | .bool b => b | _ => old) false

/-! ## The attributes: objects are merged, `null` forgets what came before -/

def OkAttrs (v : J) : Prop := v = .null ∨ ∃ l, v = .obj l ∧ ∀ m ∈ list l, OkText m.2

noncomputable def attrMembers (ms : Ms) : Ms :=
  (given "attrs" ms).foldl (fun old v => match v with
    | .null => []
    | .obj l => old ++ list l
    | _ => old) []

/-- The last value of a key; `null` stands for the empty string. -/
def lastOf (ms : Ms) (k : String) : Option String :=
  ms.foldl (fun old m => if String.ofList m.1 = k then
    some (match m.2 with | .str s => String.ofList s | _ => "") else old) none

noncomputable def attrOf (ms : Ms) : String → Option String := lastOf (attrMembers ms)

/-! ## The four kinds of documents -/

def FitsEntity (ms : Ms) : Prop :=
  (∀ v ∈ given "uid" ms, OkText v) ∧ (∀ v ∈ given "type" ms, OkText v) ∧ (∀ v ∈ given "attrs" ms, OkAttrs v)

def FitsResource (ms : Ms) : Prop :=
  FitsEntity ms ∧ (∀ v ∈ given "name" ms, OkText v) ∧ (∀ v ∈ given "group" ms, OkText v) ∧
    (∀ v ∈ given "version" ms, OkText v) ∧ (∀ v ∈ given "kind" ms, OkText v) ∧
    (∀ v ∈ given "namespaced" ms, OkFlag v)

def OkResource (v : J) : Prop := v = .null ∨ ∃ l, v = .obj l ∧ FitsResource (list l)

def FitsObject (ms : Ms) : Prop :=
  FitsEntity ms ∧ (∀ v ∈ given "name" ms, OkText v) ∧ (∀ v ∈ given "namespace" ms, OkText v) ∧
    (∀ v ∈ given "resource" ms, OkResource v)

def FitsLink (ms : Ms) : Prop :=
  (∀ v ∈ given "uid" ms, OkText v) ∧ (∀ v ∈ given "from" ms, OkText v) ∧ (∀ v ∈ given "to" ms, OkText v) ∧
    (∀ v ∈ given "attrs" ms, OkAttrs v)

/-- The members of an object's resource: objects are merged, `null` means none. -/
noncomputable def resourceMembers (ms : Ms) : Option Ms :=
  (given "resource" ms).foldl (fun old v => match v with
    | .null => none
    | .obj l => some (old.getD [] ++ list l)
    | _ => old) none

/-- A text of a document: an object with these members, or `null`, which is read like an empty object. -/
def Document (b : Bytes) (ms : Ms) : Prop :=
  (Text b .null ∧ ms = []) ∨ ∃ l, Text b (.obj l) ∧ ms = list l

/-! ## The values they describe -/

def SaysEntity (ms : Ms) (h : Heap) (e : Space.Entity) : Prop :=
  e.uid.str = textOf "uid" ms ∧ e.typ = textOf "type" ms ∧ ∀ k, (h.read e.attrs).get? k = attrOf ms k

def SaysResource (ms : Ms) (h : Heap) (r : Space.Resource) : Prop :=
  r.uid.str = textOf "uid" ms ∧ r.typ = textOf "type" ms ∧ r.name = textOf "name" ms ∧
    r.group = textOf "group" ms ∧ r.version = textOf "version" ms ∧ r.kind = textOf "kind" ms ∧
    r.namespaced = flagOf "namespaced" ms ∧ ∀ k, (h.read r.attrs).get? k = attrOf ms k

def SaysObject (ms : Ms) (h : Heap) (o : Space.Object) : Prop :=
  o.uid.str = textOf "uid" ms ∧ o.typ = textOf "type" ms ∧ o.name = textOf "name" ms ∧
    o.ns = textOf "namespace" ms ∧ (∀ k, (h.read o.attrs).get? k = attrOf ms k) ∧
    match resourceMembers ms, o.res with
    | none, none => True
    | some rs, some r => SaysResource rs h r
    | _, _ => False

def SaysLink (ms : Ms) (h : Heap) (l : Space.Link) : Prop :=
  l.uid.str = textOf "uid" ms ∧ l.from'.str = textOf "from" ms ∧ l.to.str = textOf "to" ms ∧
    ∀ k, (h.read l.attrs).get? k = attrOf ms k

end Netscrape.Spec.Unmarshal
