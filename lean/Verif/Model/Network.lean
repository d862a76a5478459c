import Verif.Model.Store
import Verif.Model.EndToEnd

/-!
# A handler that puts what it receives into a store

There is no such handler in the repository (pkg/broker/handlers has only `DumpData`): it is the obvious client of
`Digest`, `Unmarshal` and the in-memory store. It asks `Unmarshal` for what the message's type says, stores
entities, resources and objects with `Add`, connects the ends of links with `Link`, passes on the attributes, and
returns the first error.
-/

namespace Netscrape.Network
open Netscrape.Graph (Ent St)
open Netscrape.Broker (Msg)
open Netscrape.Marshal (Value Target)

/-- What the runtime chooses while one message is handled: in `Unmarshal`; the ID of a new node; the UID
and the address of the UID of a new edge. -/
structure Choice where
  dec : Transport.Choice
  order : Order (Int × Unit)
  fresh : Uid
  addr : Nat

/-- What went wrong: `Unmarshal` or a call of the store returned an error. -/
inductive Err where
  | decode (e : Marshal.Err)
  | store (e : Store.Err)
deriving DecidableEq

/-- What to ask `Unmarshal` for (pkg/broker/type.go:8-17). -/
def target (t : Int) : Target :=
  if t = 0 then .entity else if t = 1 then .object else if t = 2 then .resource else if t = 3 then .link
  else .other

/-- `*entity.Entity` as `store.Entity` (pkg/space/entity/entity.go:54-76, pkg/store/store.go:26-33). -/
def entOfEntity (e : Space.Entity) : Ent := ⟨e.uid, e.typ, e.attrs, some e.dotid⟩

/-- `*entity.Resource` as `store.Entity` (pkg/space/entity/resource.go:65-112). -/
def entOfResource (r : Space.Resource) : Ent := ⟨r.uid, r.typ, r.attrs, some r.dotid⟩

/-- `*entity.Object` as `store.Entity` (pkg/space/entity/object.go:67-104). -/
def entOfObject (o : Space.Object) : Ent := ⟨o.uid, o.typ, o.attrs, some o.dotid⟩

/-- `store.Add(ctx, e, store.WithAttrs(e.Attrs()))` (pkg/store/memory/store.go:95-100). -/
def put (s : St) (c : Choice) (e : Ent) : Res Store.Err Unit × St :=
  Store.add s c.order e [.withAttrs (some e.attrs)]

/-- `store.Link(ctx, l.From(), l.To(), store.WithAttrs(l.Attrs()))` (pkg/store/memory/store.go:158-163). -/
def connect (s : St) (c : Choice) (l : Space.Link) : Res Store.Err Unit × St :=
  Store.link s c.fresh c.addr l.from' l.to [.withAttrs (some l.attrs)]

/-- Return the error of a call of the store. -/
def fromStore : Res Store.Err Unit × St → Res Err Unit × St
  | (.ok (), s) => (.ok (), s)
  | (.err e, s) => (.err (.store e), s)
  | (.panic, s) => (.panic, s)

/-- The handler, a `broker.Handler` (pkg/broker/broker.go:20-21), called on `m` in state `s`. -/
def handle (s : St) (c : Choice) (m : Msg) : Res Err Unit × St :=
  match Marshal.unmarshal s.heap c.dec m.data.toList (target m.typ) with
  | .ok (.entity e, h) => fromStore (put ⟨h, s.g⟩ c (entOfEntity e))
  | .ok (.resource r, h) => fromStore (put ⟨h, s.g⟩ c (entOfResource r))
  | .ok (.object o, h) => fromStore (put ⟨h, s.g⟩ c (entOfObject o))
  | .ok (.link l, h) => fromStore (connect ⟨h, s.g⟩ c l)
  | .err e => (.err (.decode e), s)
  | .panic => (.panic, s)

/-- The state after the handler has been called on these messages, one after the other. -/
def run (s : St) (l : List (Choice × Msg)) : St := l.foldl (fun s x => (handle s x.1 x.2).2) s

/-- What the handler returned for each of them. -/
def results (s : St) : List (Choice × Msg) → List (Res Err Unit)
  | [] => []
  | x :: l => (handle s x.1 x.2).1 :: results (handle s x.1 x.2).2 l

end Netscrape.Network
