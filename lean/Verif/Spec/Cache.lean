import Verif.Model.Cache

/-!
# Specification of the link cache

What the cache retains, as one register per UID, given only the history of calls.
-/

namespace Netscrape.Spec.Cache
open Netscrape.Cache (Op Link)

/-- A bulk call counts as its single calls in order. -/
def expand : Op → List Op
  | .bulkPut ls up => ls.map (fun l => .put l up)
  | .bulkDelete us => us.map .delete
  | op => [op]

/-- What a single call does to the register of UID `u`. `near` is the end of the link that selects
the register (origin for `GetFrom`, end for `GetTo`), `far` the other. A `Put` stores its link, except
that without upsert it keeps a held link with the same far end. -/
def update (near far : Link → Uid) (u : Uid) (held : Option Link) : Op → Option Link
  | .put l up =>
    if near l = u then
      match held with
      | some l' => if far l' = far l ∧ up = false then some l' else some l
      | none => some l
    else held
  | .delete v => if v = u then none else held
  | .clear => none
  | _ => held

/-- The link retained for `u` after a history (oldest first). -/
def register (near far : Link → Uid) (hist : List Op) (u : Uid) : Option Link :=
  (hist.flatMap expand).foldl (update near far u) none

/-- What `GetFrom u` may return. -/
def heldFrom (hist : List Op) (u : Uid) : Option Link := register Link.src Link.dst hist u

/-- What `GetTo u` may return. -/
def heldTo (hist : List Op) (u : Uid) : Option Link := register Link.dst Link.src hist u

end Netscrape.Spec.Cache

namespace Netscrape.Spec.Cache
open Netscrape.Cache (Op Link)

/-- The single calls of a history, bulk calls expanded. -/
def singles (hist : List Op) : List Op := hist.flatMap expand

/-- The calls after which nothing about `u` needs to be remembered. -/
def Forgets (u : Uid) : Op → Prop
  | .delete v => v = u
  | .clear => True
  | _ => False

/-- The UIDs an operation mentions. -/
def uidsOf : Op → List Uid
  | .put l _ => [l.src, l.dst]
  | .delete u => [u]
  | _ => []

/-- UIDs of the calls and `u` are interned: one object per string. -/
def Interned (hist : List Op) (u : Uid) : Prop :=
  ∀ a ∈ u :: (singles hist).flatMap uidsOf, ∀ b ∈ u :: (singles hist).flatMap uidsOf,
    a.str = b.str → a = b

/-- `update` with UIDs compared by their strings. -/
def updateByValue (near far : Link → Uid) (s : String) (held : Option Link) : Op → Option Link
  | .put l up =>
    if (near l).str = s then
      match held with
      | some l' => if (far l').str = (far l).str ∧ up = false then some l' else some l
      | none => some l
    else held
  | .delete v => if v.str = s then none else held
  | .clear => none
  | _ => held

/-- The link retained under the string `s` by a cache that compares UIDs by value. -/
def registerByValue (near far : Link → Uid) (hist : List Op) (s : String) : Option Link :=
  (singles hist).foldl (updateByValue near far s) none

end Netscrape.Spec.Cache
