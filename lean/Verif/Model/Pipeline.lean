import Verif.Model.Broker
import Verif.Model.Marshal

/-!
# Message types, ingester, digester, runner

pkg/broker/type.go, pkg/broker/ingester/simple/ingester.go, pkg/broker/digester/simple/digester.go,
pkg/broker/handlers/handlers.go, runner.go. Brokers, marshalers, handlers, scrapers, stores, plans and contexts
passed in by the caller are numbers; what their methods do is up to the environment. A nil interface is
`none`; calling a method on it panics.
-/

namespace Netscrape.Pipeline
open Netscrape.Broker (Msg)
open Netscrape.Json (Bytes)

/-- `Type.String` (pkg/broker/type.go:30-43). The constants (:8-19) are 0 for `Entity`, 1 for `Object`, 2 for
`Resource`, 3 for `Link` and 4 for `Unknown`. -/
def typeString (t : Int) : String :=
  if t = 0 then "Entity" else if t = 2 then "Resource" else if t = 3 then "Link" else if t = 1 then "Object"
  else "Unknown"

/-- Errors: those of the environment and those of `encoding/json`. -/
inductive Err where
  | env (e : Nat)
  | json
deriving DecidableEq, Repr

/-- Go values given to `Ingest`, as far as `encoding/json` tells them apart. -/
inductive Data where
  /-- Values of the types in pkg/space/entity and pkg/space/link (or pointers to them). -/
  | entity (e : Space.Entity)
  | resource (r : Space.Resource)
  | object (o : Space.Object)
  | link (l : Space.Link)
  /-- Values of the types in pkg/space/marshal/types.go. -/
  | tEntity (e : Transport.Entity)
  | tResource (r : Transport.Resource)
  | tObject (o : Transport.Object)
  | tLink (l : Transport.Link)
  | string (s : String)
  | bool (b : Bool)
  | nil
  /-- A function or a channel. -/
  | func

/-- `json.Marshal` on these values. Structs are encoded by their exported fields; the types in
pkg/space/entity/entity.go:15-20, resource.go:14-24, object.go:14-22 and pkg/space/link/link.go:12-17 have
none, and no `MarshalJSON` method. `o` and `o2` are the iteration orders of the maps. -/
def jsonMarshal (o o2 : Order (String × String)) : Data → Res Err Bytes
  | .entity _ => .ok (Json.render (.obj .nil))
  | .resource _ => .ok (Json.render (.obj .nil))
  | .object _ => .ok (Json.render (.obj .nil))
  | .link _ => .ok (Json.render (.obj .nil))
  | .tEntity e => .ok (Json.render (Marshal.entityJ o e))
  | .tResource r => .ok (Json.render (Marshal.resourceJ o r))
  | .tObject x => .ok (Json.render (Marshal.objectJ o o2 x))
  | .tLink l => .ok (Json.render (Marshal.linkJ o l))
  | .string s => .ok (Json.render (Marshal.str s))
  | .bool b => .ok (Json.render (.bool b))
  | .nil => .ok (Json.render .null)
  | .func => .err .json

/-! ## Ingester -/

/-- `ingester.Options` (pkg/broker/ingester/options.go:6-8). -/
structure IngestOpts where
  marshaler : Option Nat := none

/-- `WithMarshaler` (pkg/broker/ingester/options.go:14-18). -/
def withMarshaler (m : Option Nat) (o : IngestOpts) : IngestOpts := { o with marshaler := m }

/-- `for _, apply := range opts { apply(&o) }`, as in pkg/broker/ingester/simple/ingester.go:18-21. -/
def applyAll {α : Type} (opts : List (α → α)) (o : α) : α := opts.foldl (fun o f => f o) o

/-- `Ingester` (pkg/broker/ingester/simple/ingester.go:12-14). -/
structure Ingester where
  opts : IngestOpts

/-- `NewIngester` (pkg/broker/ingester/simple/ingester.go:17-26). -/
def newIngester (opts : List (IngestOpts → IngestOpts)) : Ingester := ⟨applyAll opts {}⟩

/-- A call made to the environment. -/
inductive Call where
  /-- `Marshal` of marshaler `m`. -/
  | marshal (m : Nat) (d : Data)
  /-- `Pub` of broker `b`. -/
  | pub (b ctx : Nat) (topic : String) (m : Msg)

/-- How the environment answers. Each call below makes at most one call of each kind, so a function is
enough. -/
structure Env where
  marshal : Nat → Data → Res Err Bytes
  pub : Nat → Nat → String → Msg → Res Err Unit
  /-- The iteration orders `json.Marshal` meets. -/
  order : Order (String × String)
  order2 : Order (String × String)

/-- The message `Ingest` makes (pkg/broker/ingester/simple/ingester.go:35-37, 43, 50). -/
def message (typ : Int) (b : Bytes) : Msg := ⟨"", typ, String.ofList b, GoMap.empty⟩

/-- `return b.Pub(ctx, topic, *msg)` (pkg/broker/ingester/simple/ingester.go:47, 55). -/
def publish (env : Env) (ctx : Nat) (b : Option Nat) (topic : String) (m : Msg) : Res Err Unit × List Call :=
  match b with
  | none => (.panic, [])
  | some b => (env.pub b ctx topic m, [.pub b ctx topic m])

/-- `Ingest` (pkg/broker/ingester/simple/ingester.go:29-56): the result and the calls made. -/
def Ingester.ingest (_ : Ingester) (env : Env) (ctx : Nat) (b : Option Nat) (topic : String) (typ : Int)
    (d : Data) (opts : List (IngestOpts → IngestOpts)) : Res Err Unit × List Call :=
  match (applyAll opts {}).marshaler with
  | none =>
    match jsonMarshal env.order env.order2 d with
    | .err e => (.err e, [])
    | .panic => (.panic, [])
    | .ok x => publish env ctx b topic (message typ x)
  | some m =>
    match env.marshal m d with
    | .err e => (.err e, [.marshal m d])
    | .panic => (.panic, [.marshal m d])
    | .ok x =>
      let r := publish env ctx b topic (message typ x)
      (r.1, .marshal m d :: r.2)

/-! ## Digester -/

/-- A handler: one of the caller's, or `handlers.DumpData`. -/
inductive Handler where
  | user (h : Nat)
  | dumpData
deriving DecidableEq, Repr

/-- `digester.Options` (pkg/broker/digester/options.go:6-9). -/
structure DigestOpts where
  handler : Option Nat := none
  unmarshaler : Option Nat := none

/-- `WithHandler` (pkg/broker/digester/options.go:15-19). -/
def withHandler (h : Option Nat) (o : DigestOpts) : DigestOpts := { o with handler := h }

/-- `Digester` (pkg/broker/digester/simple/digester.go:12-14). -/
structure Digester where
  opts : DigestOpts

/-- `NewDigester` (pkg/broker/digester/simple/digester.go:17-26). -/
def newDigester (opts : List (DigestOpts → DigestOpts)) : Digester := ⟨applyAll opts {}⟩

/-- The handler `Digest` uses (pkg/broker/digester/simple/digester.go:40-48). -/
def Digester.handler (_ : Digester) (opts : List (DigestOpts → DigestOpts)) : Handler :=
  match (applyAll opts {}).handler with
  | none => .dumpData
  | some h => .user h

/-- `handle` (pkg/broker/digester/simple/digester.go:29-35): what it has returned after at most `n` turns of
the loop, if the `k`-th call of `Receive` with handler `h` returns `recv h k`. `none` while it is running. -/
def handle (recv : Handler → Nat → Option Err) (h : Handler) : Nat → Option Err
  | 0 => none
  | n + 1 =>
    match handle recv h n with
    | some e => some e
    | none => recv h n

/-- `Digest` (pkg/broker/digester/simple/digester.go:39-51). -/
def Digester.digest (d : Digester) (recv : Handler → Nat → Option Err)
    (opts : List (DigestOpts → DigestOpts)) (n : Nat) : Option Err := handle recv (d.handler opts) n

/-! ## Runner -/

/-- `Options` (options.go:9-13). -/
structure RunOpts where
  store : Option Nat := none
  broker : Option Nat := none
  marshaler : Option Nat := none
deriving DecidableEq, Repr

/-- `WithStore` (options.go:19-23). -/
def withStore (s : Option Nat) (o : RunOpts) : RunOpts := { o with store := s }
/-- `WithBroker` (options.go:26-30). -/
def withBroker (b : Option Nat) (o : RunOpts) : RunOpts := { o with broker := b }
/-- `WithMarshaler` (options.go:33-37). -/
def withRunMarshaler (m : Option Nat) (o : RunOpts) : RunOpts := { o with marshaler := m }

/-- `Runner` (runner.go:10-12). -/
structure Runner where
  opts : RunOpts

/-- `NewRunner` (runner.go:15-24). -/
def newRunner (opts : List (RunOpts → RunOpts)) : Runner := ⟨applyAll opts {}⟩

/-- A call of `Scrape` of scraper `s`: context, plan, and the options it was passed, applied to empty
`Options`. -/
structure Scrape where
  scraper : Nat
  ctx : Nat
  plan : Option Nat
  opts : RunOpts
deriving DecidableEq, Repr

/-- `Run` (runner.go:27-34): the result and the calls made; `scrape` is what `Scrape` does. -/
def Runner.run (_ : Runner) (scrape : Scrape → Res Err Unit) (ctx : Nat) (plan scraper : Option Nat)
    (opts : List (RunOpts → RunOpts)) : Res Err Unit × List Scrape :=
  match scraper with
  | none => (.panic, [])
  | some s =>
    let c : Scrape := ⟨s, ctx, plan, applyAll [withBroker (applyAll opts {}).broker] {}⟩
    (scrape c, [c])

end Netscrape.Pipeline
