import Verif.Model.Json
import Verif.Model.Space

/-!
# `Marshaler.Marshal` and `Marshaler.Unmarshal`

pkg/space/marshal/json/json.go, with `encoding/json` applied to the structs of
pkg/space/marshal/types.go. The reflection-driven encoder and decoder are written out for these
structs; see `Verif.Model.Json` for the text layer and for how strings are represented.
-/

namespace Netscrape.Marshal
open Netscrape.Json

/-! ## Encoding the transport structs -/

/-- Byte-wise order of keys, Go's string comparison. -/
def keyLe : List Char → List Char → Bool
  | [], _ => true
  | _ :: _, [] => false
  | a :: s, b :: t => if a.toNat < b.toNat then true else if a.toNat = b.toNat then keyLe s t else false

/-- Insertion into a list sorted by key. -/
def insertKey (e : String × String) : List (String × String) → List (String × String)
  | [] => [e]
  | x :: xs => if keyLe e.1.toList x.1.toList then e :: x :: xs else x :: insertKey e xs

/-- The entries of a map in the order `encoding/json` writes them: collected in the map's iteration
order, then sorted by key (`mapEncoder.encode`). The keys differ, so every sorting algorithm gives this
list. -/
def sorted (o : Order (String × String)) (m : AttrMap) : List (String × String) :=
  (o.run m.entries).foldr insertKey []

def membersOf : List (Bytes × J) → Members
  | [] => .nil
  | (k, v) :: t => .cons k v (membersOf t)

/-- A Go string as a JSON value. -/
def str (s : String) : J := .str s.toList

/-- The `attrs,omitempty` field. -/
def attrsField (o : Order (String × String)) (m : AttrMap) : List (Bytes × J) :=
  if m.entries = [] then []
  else [("attrs".toList, .obj (membersOf ((sorted o m).map fun e => (e.1.toList, str e.2))))]

/-- The fields of `marshal.Entity` (pkg/space/marshal/types.go:4-8). -/
def entityFields (o : Order (String × String)) (e : Transport.Entity) : List (Bytes × J) :=
  [("uid".toList, str e.uid), ("type".toList, str e.typ)] ++ attrsField o e.attrs

def entityJ (o : Order (String × String)) (e : Transport.Entity) : J := .obj (membersOf (entityFields o e))

/-- `marshal.Resource` (pkg/space/marshal/types.go:11-18): the embedded entity's fields come first. -/
def resourceJ (o : Order (String × String)) (r : Transport.Resource) : J :=
  .obj (membersOf (entityFields o r.toEntity ++
    [("name".toList, str r.name), ("group".toList, str r.group), ("version".toList, str r.version),
     ("kind".toList, str r.kind), ("namespaced".toList, .bool r.namespaced)]))

/-- The `resource,omitempty` field. -/
def resourceField (o2 : Order (String × String)) : Option Transport.Resource → List (Bytes × J)
  | none => []
  | some r => [("resource".toList, resourceJ o2 r)]

/-- `marshal.Object` (pkg/space/marshal/types.go:21-26). -/
def objectJ (o o2 : Order (String × String)) (x : Transport.Object) : J :=
  .obj (membersOf (entityFields o x.toEntity ++
    [("name".toList, str x.name), ("namespace".toList, str x.ns)] ++ resourceField o2 x.res))

/-- `marshal.Link` (pkg/space/marshal/types.go:29-34). -/
def linkJ (o : Order (String × String)) (l : Transport.Link) : J :=
  .obj (membersOf ([("uid".toList, str l.uid), ("from".toList, str l.from'), ("to".toList, str l.to)] ++
    attrsField o l.attrs))

/-! ## Decoding into the transport structs -/

/-- Case folding of a key, as far as it can make a key equal to a field name: ASCII letters, and the two
non-ASCII characters that fold to ASCII ones, U+212A (Kelvin sign) to `k` and U+017F (long s) to `s`. The
first argument counts the bytes still to skip. -/
def foldLoop : Nat → Bytes → Bytes
  | _, [] => []
  | drop + 1, _ :: t => foldLoop drop t
  | 0, c :: t =>
    if c.toNat = 0xE2 ∧ t.take 2 = [byte 0x84, byte 0xAA] then 'k' :: foldLoop 2 t
    else if c.toNat = 0xC5 ∧ t.take 1 = [byte 0xBF] then 's' :: foldLoop 1 t
    else if 65 ≤ c.toNat ∧ c.toNat ≤ 90 then byte (c.toNat + 32) :: foldLoop 0 t
    else c :: foldLoop 0 t

def foldKey (k : Bytes) : Bytes := foldLoop 0 k

/-- The field a key belongs to: an exact match, else the first match up to case (`decodeState.object`). -/
def fieldOf (names : List String) (key : Bytes) : Option String :=
  match names.find? fun n => n.toList = key with
  | some n => some n
  | none => names.find? fun n => n.toList = foldKey key

/-- Decoding members into a struct, one after the other; unknown keys are skipped; any type mismatch
makes `json.Unmarshal` return an error in the end. -/
def decodeFields {σ : Type} (names : List String) (set : String → σ → J → Option σ) :
    Members → σ → Option σ
  | .nil, s => some s
  | .cons k v r, s => match fieldOf names k with
    | none => decodeFields names set r s
    | some n => match set n s v with
      | none => none
      | some s => decodeFields names set r s

/-- Into a string: `null` leaves it alone. -/
def toStr (old : String) : J → Option String
  | .str s => some (String.ofList s)
  | .null => some old
  | _ => none

/-- Into a bool. -/
def toBool (old : Bool) : J → Option Bool
  | .bool b => some b
  | .null => some old
  | _ => none

/-- Entries into a `map[string]string`; a `null` value stores the zero string. -/
def toEntries : Members → AttrMap → Option AttrMap
  | .nil, m => some m
  | .cons k v r, m => match toStr "" v with
    | none => none
    | some x => toEntries r (m.set (String.ofList k) x)

/-- Into a map: `null` makes it nil, an object adds to what is there. -/
def toAttrs (old : AttrMap) : J → Option AttrMap
  | .null => some GoMap.empty
  | .obj l => toEntries l old
  | _ => none

/-- Into a struct: `null` leaves it alone. -/
def toStruct {σ : Type} (names : List String) (set : String → σ → J → Option σ) (zero : σ) :
    J → Option σ
  | .null => some zero
  | .obj l => decodeFields names set l zero
  | _ => none

def entityNames : List String := ["uid", "type", "attrs"]

def setEntity (n : String) (e : Transport.Entity) (v : J) : Option Transport.Entity :=
  if n = "uid" then (toStr e.uid v).map fun x => { e with uid := x }
  else if n = "type" then (toStr e.typ v).map fun x => { e with typ := x }
  else if n = "attrs" then (toAttrs e.attrs v).map fun x => { e with attrs := x }
  else some e

def zeroEntity : Transport.Entity := ⟨"", "", GoMap.empty⟩

/-- `json.Unmarshal` into a `marshal.Entity`. -/
def toEntity : J → Option Transport.Entity := toStruct entityNames setEntity zeroEntity

def resourceNames : List String :=
  ["uid", "type", "attrs", "name", "group", "version", "kind", "namespaced"]

def setResource (n : String) (r : Transport.Resource) (v : J) : Option Transport.Resource :=
  if n = "name" then (toStr r.name v).map fun x => { r with name := x }
  else if n = "group" then (toStr r.group v).map fun x => { r with group := x }
  else if n = "version" then (toStr r.version v).map fun x => { r with version := x }
  else if n = "kind" then (toStr r.kind v).map fun x => { r with kind := x }
  else if n = "namespaced" then (toBool r.namespaced v).map fun x => { r with namespaced := x }
  else (setEntity n r.toEntity v).map fun e => { r with toEntity := e }

def zeroResource : Transport.Resource := ⟨zeroEntity, "", "", "", "", false⟩

/-- `json.Unmarshal` into a `marshal.Resource`. -/
def toResource : J → Option Transport.Resource := toStruct resourceNames setResource zeroResource

/-- Into a `*marshal.Resource`: `null` makes it nil; otherwise it is allocated if it was nil. -/
def toResourcePtr (old : Option Transport.Resource) : J → Option (Option Transport.Resource)
  | .null => some none
  | .obj l => (decodeFields resourceNames setResource l (old.getD zeroResource)).map some
  | _ => none

def objectNames : List String := ["uid", "type", "attrs", "name", "namespace", "resource"]

def setObject (n : String) (o : Transport.Object) (v : J) : Option Transport.Object :=
  if n = "name" then (toStr o.name v).map fun x => { o with name := x }
  else if n = "namespace" then (toStr o.ns v).map fun x => { o with ns := x }
  else if n = "resource" then (toResourcePtr o.res v).map fun x => { o with res := x }
  else (setEntity n o.toEntity v).map fun e => { o with toEntity := e }

/-- `json.Unmarshal` into a `marshal.Object`. -/
def toObject : J → Option Transport.Object :=
  toStruct objectNames setObject ⟨zeroEntity, "", "", none⟩

def linkNames : List String := ["uid", "from", "to", "attrs"]

def setLink (n : String) (l : Transport.Link) (v : J) : Option Transport.Link :=
  if n = "uid" then (toStr l.uid v).map fun x => { l with uid := x }
  else if n = "from" then (toStr l.from' v).map fun x => { l with from' := x }
  else if n = "to" then (toStr l.to v).map fun x => { l with to := x }
  else if n = "attrs" then (toAttrs l.attrs v).map fun x => { l with attrs := x }
  else some l

/-- `json.Unmarshal` into a `marshal.Link`. -/
def toLink : J → Option Transport.Link := toStruct linkNames setLink ⟨"", "", "", GoMap.empty⟩

/-! ## The marshaler -/

inductive Err where
  /-- `marshal.ErrUnsuportedType`. -/
  | unsupportedType
  /-- An error from `json.Unmarshal`. -/
  | json
deriving DecidableEq, Repr

/-- A Go value as `Marshal` can see it: for each method of the interfaces in pkg/space/space.go:9-54,
whether the value's type has that method with that signature and, if so, what it returns. -/
structure Dyn where
  uid : Option Uid := none
  typ : Option String := none
  attrs : Option Ref := none
  name : Option String := none
  group : Option String := none
  version : Option String := none
  kind : Option String := none
  namespaced : Option Bool := none
  ns : Option String := none
  resource : Option (Option Space.Resource) := none
  from' : Option Uid := none
  to : Option Uid := none

/-- The type assertion to `space.Resource`. The DOTID is not part of the interface. -/
def asResource (d : Dyn) : Option Space.Resource :=
  match d.uid, d.typ, d.attrs, d.name, d.group, d.version, d.kind, d.namespaced with
  | some u, some t, some a, some n, some g, some v, some k, some b => some ⟨u, t, n, g, v, k, b, "", a⟩
  | _, _, _, _, _, _, _, _ => none

/-- The type assertion to `space.Object`. -/
def asObject (d : Dyn) : Option Space.Object :=
  match d.uid, d.typ, d.attrs, d.name, d.ns, d.resource with
  | some u, some t, some a, some n, some s, some r => some ⟨u, t, n, s, r, "", a⟩
  | _, _, _, _, _, _ => none

/-- The type assertion to `space.Entity`. -/
def asEntity (d : Dyn) : Option Space.Entity :=
  match d.uid, d.typ, d.attrs with
  | some u, some t, some a => some ⟨u, t, "", a⟩
  | _, _, _ => none

/-- The type assertion to `space.Link`. -/
def asLink (d : Dyn) : Option Space.Link :=
  match d.uid, d.from', d.to, d.attrs with
  | some u, some f, some t, some a => some ⟨u, f, t, a⟩
  | _, _, _, _ => none

/-- The iteration orders one `Marshal` call meets: copying the attributes, copying those of an object's
resource, and encoding both maps. -/
structure Orders where
  copy : Order (String × String)
  copy2 : Order (String × String)
  enc : Order (String × String)
  enc2 : Order (String × String)

def Orders.id : Orders := ⟨Order.id, Order.id, Order.id, Order.id⟩

/-- `Marshal` (pkg/space/marshal/json/json.go:19-48). -/
def marshal (h : Heap) (o : Orders) (d : Dyn) : Res Err Bytes :=
  match asResource d with
  | some r => .ok (render (resourceJ o.enc (Transport.resourceFromSpace h o.copy r)))
  | none => match asObject d with
    | some x => .ok (render (objectJ o.enc o.enc2 (Transport.objectFromSpace h o.copy o.copy2 x)))
    | none => match asEntity d with
      | some e => .ok (render (entityJ o.enc (Transport.entityFromSpace h o.copy e)))
      | none => match asLink d with
        | some l => .ok (render (linkJ o.enc (Transport.linkFromSpace h o.copy l)))
        | none => .err .unsupportedType

/-- What `Unmarshal` is asked to fill in: a pointer to one of the four interfaces, or anything else. -/
inductive Target where
  | resource | object | entity | link | other
deriving DecidableEq, Repr

/-- What it fills in. -/
inductive Value where
  | resource (r : Space.Resource)
  | object (o : Space.Object)
  | entity (e : Space.Entity)
  | link (l : Space.Link)

/-- `Unmarshal` (pkg/space/marshal/json/json.go:51-82). -/
def unmarshal (h : Heap) (c : Transport.Choice) (b : Bytes) : Target → Res Err (Value × Heap)
  | .resource => match (parse b).bind toResource with
    | some r => let (r, h) := Transport.resourceToSpace h c r; .ok (.resource r, h)
    | none => .err .json
  | .object => match (parse b).bind toObject with
    | some r => let (r, h) := Transport.objectToSpace h c r; .ok (.object r, h)
    | none => .err .json
  | .entity => match (parse b).bind toEntity with
    | some r => let (r, h) := Transport.entityToSpace h c r; .ok (.entity r, h)
    | none => .err .json
  | .link => match (parse b).bind toLink with
    | some r => let (r, h) := Transport.linkToSpace h c r; .ok (.link r, h)
    | none => .err .json
  | .other => .err .unsupportedType

/-! ## The method sets of the repository's types -/

/-- `*entity.Entity` (pkg/space/entity/entity.go:54-76). -/
def Dyn.entityPtr (e : Space.Entity) : Dyn := { uid := some e.uid, typ := some e.typ, attrs := some e.attrs }

/-- `entity.Entity` by value: `Attrs` has a pointer receiver (entity.go:64). -/
def Dyn.entityVal (e : Space.Entity) : Dyn := { uid := some e.uid, typ := some e.typ }

/-- `entity.Resource` or a pointer to it (pkg/space/entity/resource.go:65-112). -/
def Dyn.ofResource (r : Space.Resource) : Dyn :=
  { uid := some r.uid, typ := some r.typ, attrs := some r.attrs, name := some r.name,
    group := some r.group, version := some r.version, kind := some r.kind,
    namespaced := some r.namespaced }

/-- `*entity.Object` (pkg/space/entity/object.go:67-104). -/
def Dyn.objectPtr (o : Space.Object) : Dyn :=
  { uid := some o.uid, typ := some o.typ, attrs := some o.attrs, name := some o.name, ns := some o.ns,
    resource := some o.res }

/-- `entity.Object` by value: `Attrs` has a pointer receiver (object.go:77). -/
def Dyn.objectVal (o : Space.Object) : Dyn :=
  { uid := some o.uid, typ := some o.typ, name := some o.name, ns := some o.ns, resource := some o.res }

/-- `link.Link` or a pointer to it (pkg/space/link/link.go:45-62). -/
def Dyn.ofLink (l : Space.Link) : Dyn :=
  { uid := some l.uid, from' := some l.from', to := some l.to, attrs := some l.attrs }

/-- A graph node (pkg/graph/memory/node.go:54-76) of the given entity UID and type: it has the methods
of the interface `graph.Entity` it embeds, and its own `Attrs`, whatever else the entity behind that
interface can do. -/
def Dyn.ofNode (uid : Uid) (typ : String) (attrs : Ref) : Dyn :=
  { uid := some uid, typ := some typ, attrs := some attrs }

/-- A graph edge (pkg/graph/memory/edge.go:64-123): its `From` and `To` return nodes, not UIDs. -/
def Dyn.ofEdge (uid : Uid) (attrs : Ref) : Dyn := { uid := some uid, attrs := some attrs }

end Netscrape.Marshal
