import Verif.Model.Pipeline
import Verif.Spec.Json
import Verif.Spec.Space

/-!
# Vocabulary for the ingester, digester and runner
-/

namespace Netscrape.Spec.Pipeline
open Netscrape.Pipeline
open Netscrape.Broker (Msg)
open Netscrape.Spec.Json (Valid ValidMap)
open Netscrape.Spec.Space (SameMap)

/-- The calls of `Pub`. -/
def published : List Call → List (Nat × Nat × String × Msg)
  | [] => []
  | .pub b ctx t m :: r => (b, ctx, t, m) :: published r
  | .marshal _ _ :: r => published r

/-- The calls of `Marshal`. -/
def marshalled : List Call → List (Nat × Data)
  | [] => []
  | .pub _ _ _ _ :: r => marshalled r
  | .marshal m d :: r => (m, d) :: marshalled r

/-! ## Values of the transport types: validity, and equality up to the order of map entries -/

def ValidTEntity (e : Transport.Entity) : Prop := Valid e.uid ∧ Valid e.typ ∧ ValidMap e.attrs

def ValidTResource (r : Transport.Resource) : Prop := ValidTEntity r.toEntity ∧ Valid r.name ∧ Valid r.group ∧
  Valid r.version ∧ Valid r.kind

def ValidTObject (x : Transport.Object) : Prop := ValidTEntity x.toEntity ∧ Valid x.name ∧ Valid x.ns ∧
  ∀ r, x.res = some r → ValidTResource r

def ValidTLink (l : Transport.Link) : Prop := Valid l.uid ∧ Valid l.from' ∧ Valid l.to ∧ ValidMap l.attrs

def SameEntity (a b : Transport.Entity) : Prop := a.uid = b.uid ∧ a.typ = b.typ ∧ SameMap a.attrs b.attrs

def SameResource (a b : Transport.Resource) : Prop := SameEntity a.toEntity b.toEntity ∧ a.name = b.name ∧
  a.group = b.group ∧ a.version = b.version ∧ a.kind = b.kind ∧ a.namespaced = b.namespaced

def SameObject (a b : Transport.Object) : Prop := SameEntity a.toEntity b.toEntity ∧ a.name = b.name ∧
  a.ns = b.ns ∧ match a.res, b.res with
    | none, none => True
    | some r, some r' => SameResource r r'
    | _, _ => False

def SameLink (a b : Transport.Link) : Prop := a.uid = b.uid ∧ a.from' = b.from' ∧ a.to = b.to ∧
  SameMap a.attrs b.attrs

/-- `json.Unmarshal` of a message's payload into a transport struct. -/
def decodeEntity (m : Msg) : Option Transport.Entity := (Json.parse m.data.toList).bind Marshal.toEntity
def decodeResource (m : Msg) : Option Transport.Resource := (Json.parse m.data.toList).bind Marshal.toResource
def decodeObject (m : Msg) : Option Transport.Object := (Json.parse m.data.toList).bind Marshal.toObject
def decodeLink (m : Msg) : Option Transport.Link := (Json.parse m.data.toList).bind Marshal.toLink

/-- The message types with a name of their own (pkg/broker/type.go:8-17). -/
def Named (t : Int) : Prop := t = 0 ∨ t = 1 ∨ t = 2 ∨ t = 3

end Netscrape.Spec.Pipeline
