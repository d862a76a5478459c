import Verif.Model.Space

/-!
# Specification vocabulary for space values and their transport forms
-/

namespace Netscrape.Spec.Space
open Netscrape.Space (Opt)

/-- The UID the last UID option sets. -/
def uidOption (opts : List Opt) : Option Uid :=
  ((opts.filterMap fun o => match o with | .withUID u => some u | _ => none).getLast?).join

/-- The attribute set the last attributes option sets. -/
def attrsOption (opts : List Opt) : Option Ref :=
  ((opts.filterMap fun o => match o with | .withAttrs a => some a | _ => none).getLast?).join

/-- The string the last DOTID option sets; empty when there is none. -/
def dotOption (opts : List Opt) : String :=
  ((opts.filterMap fun o => match o with | .withDOTID s => some s | _ => none).getLast?).getD ""

/-- What a constructor must do about attributes: use the given set and leave the heap alone, or make a
new empty set. -/
def AttrsFrom (opts : List Opt) (h : Heap) (a : Ref) (h' : Heap) : Prop :=
  match attrsOption opts with
  | some r => a = r ∧ h' = h
  | none => ¬ h.Valid a ∧ h'.Valid a ∧ h'.read a = GoMap.empty ∧ h'.Extends h

/-- Two attribute maps hold the same pairs. -/
def SameMap (m m' : AttrMap) : Prop := ∀ k, m.get? k = m'.get? k

/-! ## Same transport value, attributes compared as maps -/

def SameEntity (a b : Transport.Entity) : Prop :=
  a.uid = b.uid ∧ a.typ = b.typ ∧ SameMap a.attrs b.attrs

def SameResource (a b : Transport.Resource) : Prop :=
  SameEntity a.toEntity b.toEntity ∧ a.name = b.name ∧ a.group = b.group ∧ a.version = b.version ∧
    a.kind = b.kind ∧ a.namespaced = b.namespaced

/-- Both absent or both present and related. -/
def OptRel {α β : Type} (R : α → β → Prop) : Option α → Option β → Prop
  | none, none => True
  | some a, some b => R a b
  | _, _ => False

def SameObject (a b : Transport.Object) : Prop :=
  SameEntity a.toEntity b.toEntity ∧ a.name = b.name ∧ a.ns = b.ns ∧ OptRel SameResource a.res b.res

def SameLink (a b : Transport.Link) : Prop :=
  a.uid = b.uid ∧ a.from' = b.from' ∧ a.to = b.to ∧ SameMap a.attrs b.attrs

/-! ## Same space value up to the identity of UID objects and attribute sets, DOTIDs not compared -/

def LikeEntity (h : Heap) (a : Space.Entity) (h' : Heap) (b : Space.Entity) : Prop :=
  a.uid.str = b.uid.str ∧ a.typ = b.typ ∧ SameMap (h.read a.attrs) (h'.read b.attrs)

def LikeResource (h : Heap) (a : Space.Resource) (h' : Heap) (b : Space.Resource) : Prop :=
  a.uid.str = b.uid.str ∧ a.typ = b.typ ∧ a.name = b.name ∧ a.group = b.group ∧
    a.version = b.version ∧ a.kind = b.kind ∧ a.namespaced = b.namespaced ∧
    SameMap (h.read a.attrs) (h'.read b.attrs)

def LikeObject (h : Heap) (a : Space.Object) (h' : Heap) (b : Space.Object) : Prop :=
  a.uid.str = b.uid.str ∧ a.typ = b.typ ∧ a.name = b.name ∧ a.ns = b.ns ∧
    OptRel (fun x y => LikeResource h x h' y) a.res b.res ∧
    SameMap (h.read a.attrs) (h'.read b.attrs)

def LikeLink (h : Heap) (a : Space.Link) (h' : Heap) (b : Space.Link) : Prop :=
  a.uid.str = b.uid.str ∧ a.from'.str = b.from'.str ∧ a.to.str = b.to.str ∧
    SameMap (h.read a.attrs) (h'.read b.attrs)

/-! ## Default DOTIDs -/

def defaultResourceDOT (r : Space.Resource) : String := r.group ++ "/" ++ r.version ++ "/" ++ r.kind

def defaultObjectDOT (o : Space.Object) : String :=
  match o.res with
  | some r => r.group ++ "/" ++ r.version ++ "/" ++ r.kind ++ "/" ++ o.ns ++ "/" ++ o.name
  | none => o.uid.str

end Netscrape.Spec.Space
