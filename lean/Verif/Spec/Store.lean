import Verif.Model.Store

/-!
# Reference store

What the store is supposed to be, without graphs, IDs or heaps: a table of entities keyed by UID
string, and a set of linked pairs.
-/

namespace Netscrape.Spec.Store
open Netscrape.Graph (Ent)
open Netscrape.Store (Op Err SOpt)

structure AStore where
  ent : String → Option Ent
  adj : String → String → Bool

/-- Nothing stored. -/
def AStore.empty : AStore := ⟨fun _ => none, fun _ _ => false⟩

/-- The first entity added under a string stays until it is deleted. -/
def AStore.add (a : AStore) (e : Ent) (upsert : Bool) : Res Err Unit × AStore :=
  match a.ent e.uid.str with
  | some _ => (if upsert then .ok () else .err .alreadyExists, a)
  | none => (.ok (), { a with ent := fun k => if k = e.uid.str then some e else a.ent k })

/-- Deleting takes the links along. -/
def AStore.delete (a : AStore) (u : String) : AStore :=
  ⟨fun k => if k = u then none else a.ent k, fun p q => a.adj p q && p != u && q != u⟩

/-- Linking two stored entities; in an undirected store both ways. Linking an entity with itself
panics. -/
def AStore.link (directed : Bool) (a : AStore) (u v : String) : Res Err Unit × AStore :=
  match a.ent u, a.ent v with
  | some _, some _ =>
    if u = v then (.panic, a)
    else (.ok (), { a with
      adj := fun p q => a.adj p q || (p == u && q == v) || (!directed && p == v && q == u) })
  | _, _ => (.err .entityNotFound, a)

/-- Unlinking; in an undirected store both ways. -/
def AStore.unlink (directed : Bool) (a : AStore) (u v : String) : AStore :=
  { a with
    adj := fun p q => a.adj p q && !(p == u && q == v) && !(!directed && p == v && q == u) }

/-- Do `f` for each element until the first result that is not ok. -/
def stopAtFirst {α : Type} (f : AStore → α → Res Err Unit × AStore) (a : AStore) :
    List α → Res Err Unit × AStore
  | [] => (.ok (), a)
  | x :: xs => if (f a x).1 = .ok () then stopAtFirst f (f a x).2 xs else f a x

/-- Is the upsert option given? -/
def upserts (opts : List SOpt) : Bool := opts.contains .withUpsert

/-- The attribute set the last attributes option gives. -/
def attrsOption (opts : List SOpt) : Option Ref :=
  ((opts.filterMap fun o => match o with | .withAttrs a => some a | _ => none).getLast?).join

def AStore.step (directed : Bool) (a : AStore) : Op → Res Err Unit × AStore
  | .add _ e opts => a.add e (upserts opts)
  | .delete u => (.ok (), a.delete u.str)
  | .link _ _ f t _ => a.link directed f.str t.str
  | .unlink f t => (.ok (), a.unlink directed f.str t.str)
  | .bulkAdd es opts => stopAtFirst (fun a x => a.add x.2 (upserts opts)) a es
  | .bulkDelete us => stopAtFirst (fun a u => (.ok (), a.delete u.str)) a us
  | .bulkLink f us _ => stopAtFirst (fun a x => a.link directed f.str x.2.2.str) a us
  | .bulkUnlink f us => stopAtFirst (fun a u => (.ok (), a.unlink directed f.str u.str)) a us
  | .env _ => (.ok (), a)

def AStore.run (directed : Bool) (a : AStore) (ops : List Op) : AStore :=
  ops.foldl (fun a op => (a.step directed op).2) a

def AStore.results (directed : Bool) (a : AStore) : List Op → List (Res Err Unit)
  | [] => []
  | op :: ops => (a.step directed op).1 :: AStore.results directed (a.step directed op).2 ops

/-- The stores `NewStore` makes: over the default graph (undirected), or over a new directed or
undirected graph of the caller's. -/
inductive Start : Bool → Graph.St → Prop
  | default (h : Heap) (fresh : Uid) : Start false (Netscrape.Store.newStore h none fresh)
  | given (d : Bool) (h : Heap) (fresh gfresh : Uid) (gopts : List Graph.Opt) :
      Start d (Netscrape.Store.newStore h (some (Graph.new d gfresh gopts)) fresh)

/-- How many entities a history tries to add. -/
def adds : List Op → Nat
  | [] => 0
  | .add _ _ _ :: ops => adds ops + 1
  | .bulkAdd es _ :: ops => adds ops + es.length
  | _ :: ops => adds ops

/-- A call that is not a bulk call. -/
def single : Op → Bool
  | .add _ _ _ | .delete _ | .link _ _ _ _ _ | .unlink _ _ | .env _ => true
  | _ => false

/-- The call does not delete `k`. -/
def keeps (k : String) : Op → Bool
  | .delete u => u.str != k
  | _ => true

/-- The entity the call adds under `k`. -/
def addsAs (k : String) : Op → Option Ent
  | .add _ e _ => if e.uid.str = k then some e else none
  | _ => none

/-- The calls after the last deletion of `k`. -/
def sinceDelete (k : String) (ops : List Op) : List Op :=
  (ops.reverse.takeWhile (keeps k)).reverse

/-- The entity of the earliest addition under `k` since the last deletion of `k`. -/
def earliest (k : String) (ops : List Op) : Option Ent := (sinceDelete k ops).findSome? (addsAs k)

end Netscrape.Spec.Store
