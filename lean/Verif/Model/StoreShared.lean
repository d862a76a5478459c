import Verif.Model.StoreHandle

/-!
# pkg/store/memory: several stores on one graph

`WithGraph` (pkg/store/memory/options.go:24-29) gives `NewStore` (pkg/store/memory/store.go:28-53) a graph to use.
Nothing keeps two stores from being given the same one. Each store has a mutex of its own
(pkg/store/memory/store.go:51); the graph has one.
-/

namespace Netscrape.Conc

variable {μ ν κ σ ρ : Type}

/-- The same program with other mutexes. -/
def Prog.rename (f : μ → ν) : Prog μ κ σ ρ → Prog ν κ σ ρ
  | ret r => ret r
  | lock m k => lock (f m) (k.rename f)
  | acquire m k => acquire (f m) (k.rename f)
  | unlock m k => unlock (f m) (k.rename f)
  | rlock m k => rlock (f m) (k.rename f)
  | runlock m k => runlock (f m) (k.rename f)
  | read l k => read l (fun s => (k s).rename f)
  | write l g k => write l g (fun s => (k s).rename f)

end Netscrape.Conc

namespace Netscrape.Store.Shared
open Netscrape.Conc

/-- The mutexes: `Memory.mu` of each store (pkg/store/memory/store.go:51) and `WG.mu` of the graph. -/
inductive Mtx where
  | store (i : Nat)
  | graph
deriving DecidableEq

/-- The mutexes as store `i` knows them. -/
def Mtx.of (i : Nat) : Store.Mtx → Mtx
  | .store => .store i
  | .graph => .graph

/-- A call on store `i`, or on the graph that `Memory.Graph` of store `i` returned. -/
abbrev Op := Nat × Handle.Op

/-- The methods (pkg/store/memory/store.go:95-253, pkg/graph/memory/wg.go:71-422), called on store `i` or its
graph. -/
def prog (x : Op) : Graph.GProg Mtx Handle.Out := (Handle.prog x.2).rename (.of x.1)

/-- One call made alone: new state and returned value. It does not matter on which store. -/
def seq (s : Graph.St) (x : Op) : Graph.St × Handle.Out := Handle.seq s x.2

end Netscrape.Store.Shared
