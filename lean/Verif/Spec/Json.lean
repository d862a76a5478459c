import Verif.Model.Marshal

/-!
# Specification vocabulary for JSON texts

Byte strings are lists of `Char` standing for bytes, as in `Verif.Model.Json`.
-/

namespace Netscrape.Spec.Json
open Netscrape.Json (Bytes)

/-- The UTF-8 bytes of a Unicode text, by Lean's own encoder. -/
def utf8 (cs : List Char) : Bytes :=
  (cs.flatMap String.utf8EncodeChar).map fun b => Char.ofNat b.toNat

/-- Valid UTF-8: the encoding of some Unicode text. -/
def ValidUtf8 (s : Bytes) : Prop := ∃ cs : List Char, s = utf8 cs

/-- The same for a Go string, given as a string of bytes. -/
def Valid (s : String) : Prop := ValidUtf8 s.toList

/-- Every key and value of an attribute map is valid. -/
def ValidMap (m : AttrMap) : Prop := ∀ k v, m.get? k = some v → Valid k ∧ Valid v

def ValidEntity (h : Heap) (e : Space.Entity) : Prop :=
  Valid e.uid.str ∧ Valid e.typ ∧ ValidMap (h.read e.attrs)

def ValidResource (h : Heap) (r : Space.Resource) : Prop :=
  Valid r.uid.str ∧ Valid r.typ ∧ Valid r.name ∧ Valid r.group ∧ Valid r.version ∧ Valid r.kind ∧
    ValidMap (h.read r.attrs)

def ValidObject (h : Heap) (o : Space.Object) : Prop :=
  Valid o.uid.str ∧ Valid o.typ ∧ Valid o.name ∧ Valid o.ns ∧ (∀ r, o.res = some r → ValidResource h r) ∧
    ValidMap (h.read o.attrs)

def ValidLink (h : Heap) (l : Space.Link) : Prop :=
  Valid l.uid.str ∧ Valid l.from'.str ∧ Valid l.to.str ∧ ValidMap (h.read l.attrs)

/-! ## Looking at a JSON document -/

open Netscrape.Json (J Members)

def memberNames : Members → List String
  | .nil => []
  | .cons k _ r => String.ofList k :: memberNames r

/-- The keys of an object in order. -/
def names : J → List String
  | .obj l => memberNames l
  | _ => []

def memberGet (k : String) : Members → Option J
  | .nil => none
  | .cons k' v r => if String.ofList k' = k then some v else memberGet k r

/-- The first member of an object with the given key. -/
def get (k : String) : J → Option J
  | .obj l => memberGet k l
  | _ => none

/-- The string at a key. -/
def text (k : String) (j : J) : Option String :=
  match get k j with
  | some (.str s) => some (String.ofList s)
  | _ => none

/-- The boolean at a key. -/
def flag (k : String) (j : J) : Option Bool :=
  match get k j with
  | some (.bool b) => some b
  | _ => none

def memberTexts : Members → List (String × String)
  | .nil => []
  | .cons k (.str s) r => (String.ofList k, String.ofList s) :: memberTexts r
  | .cons _ _ r => memberTexts r

/-- The members of an object that are strings, in order. -/
def texts : J → List (String × String)
  | .obj l => memberTexts l
  | _ => []

/-! ## Which interfaces of pkg/space/space.go a type implements -/

open Netscrape.Marshal (Dyn)

def IsEntity (d : Dyn) : Prop := d.uid.isSome ∧ d.typ.isSome ∧ d.attrs.isSome

def IsResource (d : Dyn) : Prop := IsEntity d ∧ d.name.isSome ∧ d.group.isSome ∧ d.version.isSome ∧
  d.kind.isSome ∧ d.namespaced.isSome

def IsObject (d : Dyn) : Prop := IsEntity d ∧ d.name.isSome ∧ d.ns.isSome ∧ d.resource.isSome

def IsLink (d : Dyn) : Prop := d.uid.isSome ∧ d.from'.isSome ∧ d.to.isSome ∧ d.attrs.isSome

end Netscrape.Spec.Json
