import Verif.Model.Graph

/-!
# Model of pkg/store/memory

The store is a graph behind one mutex; this file is what each method does while it holds the mutex.
-/

namespace Netscrape.Store
open Netscrape.Graph (Ent Node Edge WG St Opt)

/-- The errors a store method returns: its own (pkg/store/errors.go:5-12) or one passed through from
the graph. -/
inductive Err where
  | entityNotFound
  | alreadyExists
  | graph (e : Graph.Err)
deriving DecidableEq, Repr

/-- `store.Options` (pkg/store/options.go:9-13); `Graph` is never read by the store's methods. -/
structure Opts where
  upsert : Bool := false
  attrs : Option Ref := none
deriving DecidableEq, Repr

/-- One `store.Option` (pkg/store/options.go:16-38). -/
inductive SOpt where
  | withUpsert
  | withAttrs (a : Option Ref)
  /-- `WithGraph`. -/
  | other
deriving DecidableEq, Repr

/-- Calling one option on the options struct. -/
def SOpt.apply (o : Opts) : SOpt → Opts
  | .withUpsert => { o with upsert := true }
  | .withAttrs a => { o with attrs := a }
  | .other => o

/-- `for _, apply := range opts { apply(&aopts) }` (pkg/store/memory/store.go:69-72). -/
def applyAll (opts : List SOpt) : Opts := opts.foldl SOpt.apply {}

/-- `NewStore` (pkg/store/memory/store.go:28-53): the given graph, or a new undirected one. `fresh` is
the UID of the new graph. (The store's own UID is never used.) -/
def newStore (h : Heap) (graph : Option WG) (fresh : Uid) : St :=
  ⟨h, graph.getD (Graph.new false fresh [])⟩

/-- `add` (pkg/store/memory/store.go:68-92). `o` is the choice of the ID allocator. -/
def add (s : St) (o : Order (Int × Unit)) (e : Ent) (opts : List SOpt) : Res Err Unit × St :=
  let a := applyAll opts
  match Graph.newNode s.heap s.g o e [.withAttrs a.attrs] with
  | (.panic, h) => (.panic, ⟨h, s.g⟩)
  | (.err x, h) => (.err (.graph x), ⟨h, s.g⟩)
  | (.ok n, h) =>
    if a.upsert = false then
      match Graph.addNode s.g n [] with
      | (.ok (), g) => (.ok (), ⟨h, g⟩)
      | (.err .duplicateNode, g) => (.err .alreadyExists, ⟨h, g⟩)
      | (.err x, g) => (.err (.graph x), ⟨h, g⟩)
      | (.panic, g) => (.panic, ⟨h, g⟩)
    else
      match Graph.addNode s.g n [.withUpsert] with
      | (.ok (), g) => (.ok (), ⟨h, g⟩)
      | (.err x, g) => (.err (.graph x), ⟨h, g⟩)
      | (.panic, g) => (.panic, ⟨h, g⟩)

/-- `get` (pkg/store/memory/store.go:102-117). -/
def get (s : St) (u : Uid) : Res Err Node :=
  match Graph.node s.g u with
  | .ok n => .ok n
  | .err .nodeNotFound => .err .entityNotFound
  | .err x => .err (.graph x)
  | .panic => .panic

/-- `delete` (pkg/store/memory/store.go:127-134); `RemoveNode` returns nil on every path. -/
def delete (s : St) (u : Uid) : Res Err Unit × St := (.ok (), ⟨s.heap, Graph.removeNode s.g u⟩)

/-- `link` (pkg/store/memory/store.go:144-155). `fresh` and `newAddr` are as in `Graph.link`. -/
def link (s : St) (fresh : Uid) (newAddr : Nat) (from' to : Uid) (opts : List SOpt) :
    Res Err Unit × St :=
  match Graph.link s.heap s.g fresh newAddr from' to [.withAttrs (applyAll opts).attrs] with
  | (.ok _, g, h) => (.ok (), ⟨h, g⟩)
  | (.err .nodeNotFound, g, h) => (.err .entityNotFound, ⟨h, g⟩)
  | (.err x, g, h) => (.err (.graph x), ⟨h, g⟩)
  | (.panic, g, h) => (.panic, ⟨h, g⟩)

/-- `unlink` (pkg/store/memory/store.go:165-175); `Unlink` returns nil on every path. -/
def unlink (s : St) (from' to : Uid) : Res Err Unit × St :=
  (.ok (), ⟨s.heap, Graph.unlink s.g from' to⟩)

/-- `for _, x := range xs { if err := f(x); err != nil { return err } }; return nil`, the body of the
bulk writers (pkg/store/memory/store.go:190-195, 221-226, 234-239, 247-252). -/
def loop {α : Type} (f : St → α → Res Err Unit × St) : St → List α → Res Err Unit × St
  | s, [] => (.ok (), s)
  | s, x :: xs =>
    match f s x with
    | (.ok (), s) => loop f s xs
    | r => r

/-- `BulkAdd` (pkg/store/memory/store.go:186-196). Each entity comes with the allocator's choice. -/
def bulkAdd (s : St) (ents : List (Order (Int × Unit) × Ent)) (opts : List SOpt) :
    Res Err Unit × St :=
  loop (fun s x => add s x.1 x.2 opts) s ents

/-- The loop of `BulkGet` (pkg/store/memory/store.go:205-212): `i` stays 0, so every entity is
stored in slot 0. -/
def bulkGetLoop (s : St) : List Uid → List (Option Node) → Res Err (List (Option Node))
  | [], ents => .ok ents
  | u :: us, ents =>
    match get s u with
    | .ok n => bulkGetLoop s us (ents.set 0 (some n))
    | .err x => .err x
    | .panic => .panic

/-- `BulkGet` (pkg/store/memory/store.go:199-214). `none` is a nil entity. -/
def bulkGet (s : St) (us : List Uid) : Res Err (List (Option Node)) :=
  bulkGetLoop s us (List.replicate us.length none)

/-- `BulkDelete` (pkg/store/memory/store.go:217-227). -/
def bulkDelete (s : St) (us : List Uid) : Res Err Unit × St := loop delete s us

/-- `BulkLink` (pkg/store/memory/store.go:230-240). Each UID comes with the identity a new edge
gets. -/
def bulkLink (s : St) (from' : Uid) (us : List (Uid × Nat × Uid)) (opts : List SOpt) :
    Res Err Unit × St :=
  loop (fun s x => link s x.1 x.2.1 from' x.2.2 opts) s us

/-- `BulkUnlink` (pkg/store/memory/store.go:243-253). -/
def bulkUnlink (s : St) (from' : Uid) (us : List Uid) : Res Err Unit × St :=
  loop (fun s u => unlink s from' u) s us

/-! ## Histories -/

/-- A writing call with the choices the runtime makes during it; `env` is anything the rest of the
program does to attribute sets between calls. -/
inductive Op where
  | add (o : Order (Int × Unit)) (e : Ent) (opts : List SOpt)
  | delete (u : Uid)
  | link (fresh : Uid) (newAddr : Nat) (from' to : Uid) (opts : List SOpt)
  | unlink (from' to : Uid)
  | bulkAdd (ents : List (Order (Int × Unit) × Ent)) (opts : List SOpt)
  | bulkDelete (us : List Uid)
  | bulkLink (from' : Uid) (us : List (Uid × Nat × Uid)) (opts : List SOpt)
  | bulkUnlink (from' : Uid) (us : List Uid)
  | env (h : Heap)

def step (s : St) : Op → Res Err Unit × St
  | .add o e opts => add s o e opts
  | .delete u => delete s u
  | .link fresh a f t opts => link s fresh a f t opts
  | .unlink f t => unlink s f t
  | .bulkAdd es opts => bulkAdd s es opts
  | .bulkDelete us => bulkDelete s us
  | .bulkLink f us opts => bulkLink s f us opts
  | .bulkUnlink f us => bulkUnlink s f us
  | .env h => (.ok (), ⟨h, s.g⟩)

def run (s : St) (ops : List Op) : St := ops.foldl (fun s op => (step s op).2) s

/-- What the calls of a history return, oldest first. -/
def results (s : St) : List Op → List (Res Err Unit)
  | [] => []
  | op :: ops => (step s op).1 :: results (step s op).2 ops

end Netscrape.Store
