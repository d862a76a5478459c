import Verif.Model.NilUid
import Verif.Spec.Answers
import Verif.Spec.NilUid

/-!
# The reference store with nil

As `Spec/Store.lean`, with UIDs that may be nil and entities that may have none.
-/

namespace Netscrape.Spec.Store
open Netscrape.Graph (NEnt)
open Netscrape.Store (Err NOp COut)

/-- An entity without UID is not stored; the call panics. -/
def AStore.addN (a : AStore) (e : NEnt) (upsert : Bool) : Res Err Unit × AStore :=
  match e with
  | .ent e => a.add e upsert
  | .nil _ => (.panic, a)

def AStore.deleteN (a : AStore) : Option Uid → Res Err Unit × AStore
  | some u => (.ok (), a.delete u.str)
  | none => (.panic, a)

/-- The second UID is looked at only if the first is known. -/
def AStore.linkN (directed : Bool) (a : AStore) : Option Uid → Option Uid → Res Err Unit × AStore
  | some u, some v => a.link directed u.str v.str
  | some u, none => (if a.ent u.str = none then .err .entityNotFound else .panic, a)
  | none, _ => (.panic, a)

/-- As `linkN`; unlinking what is not stored is fine. -/
def AStore.unlinkN (directed : Bool) (a : AStore) : Option Uid → Option Uid → Res Err Unit × AStore
  | some u, some v => (.ok (), a.unlink directed u.str v.str)
  | some u, none => (if a.ent u.str = none then .ok () else .panic, a)
  | none, _ => (.panic, a)

/-- The calls that may change the store; the others change nothing and are judged by `RightN`. -/
def AStore.stepN (directed : Bool) (a : AStore) : NOp → Option (Res Err Unit × AStore)
  | .add _ e opts => some (a.addN e (upserts opts))
  | .get _ => none
  | .delete u => some (a.deleteN u)
  | .link _ _ f t _ => some (a.linkN directed f t)
  | .unlink f t => some (a.unlinkN directed f t)
  | .bulkAdd es opts => some (stopAtFirst (fun a x => a.addN x.2 (upserts opts)) a es)
  | .bulkGet _ => none
  | .bulkDelete us => some (stopAtFirst AStore.deleteN a us)
  | .bulkLink f us _ => some (stopAtFirst (fun a x => a.linkN directed f x.2.2) a us)
  | .bulkUnlink f us => some (stopAtFirst (fun a u => a.unlinkN directed f u) a us)

/-- The reference store after the history. -/
def afterN (directed : Bool) : AStore → List NOp → AStore
  | a, [] => a
  | a, op :: ops => afterN directed (match a.stepN directed op with
      | some r => r.2
      | none => a) ops

/-- How many entities a history tries to add. -/
def addsN : List NOp → Nat
  | [] => 0
  | .add _ _ _ :: ops => addsN ops + 1
  | .bulkAdd es _ :: ops => addsN ops + es.length
  | _ :: ops => addsN ops

/-- A UID that is not nil and under which something is stored. -/
def AStore.Known (a : AStore) (x : Option Uid) : Prop := ∃ u e, x = some u ∧ a.ent u.str = some e

/-- Right outcomes, as long as there have been fewer than `2^63` additions. `BulkGet` stops at the first UID that is nil or
unknown; what it returns if there is none is property C35. -/
def RightN (directed : Bool) (hist : List NOp) (op : NOp) (o : COut) : Prop :=
  addsN (hist ++ [op]) ≤ 2 ^ 63 →
  match op with
  | .get none => o = .ent .panic
  | .get (some u) => match (afterN directed .empty hist).ent u.str with
    | some e => ∃ n, o = .ent (.ok n) ∧ n.ent = e
    | none => o = .ent (.err .entityNotFound)
  | .bulkGet us => ∃ r, o = .ents r ∧
      (∀ pre x post, us = pre ++ x :: post → (∀ u ∈ pre, (afterN directed .empty hist).Known u) →
        ¬ (afterN directed .empty hist).Known x → r = if x = none then .panic else .err .entityNotFound) ∧
      ((∀ u ∈ us, (afterN directed .empty hist).Known u) → ∃ ns, r = .ok ns ∧ ns.length = us.length)
  | op => ∀ w, (afterN directed .empty hist).stepN directed op = some w → o = .unit w.1

end Netscrape.Spec.Store
