import Verif.Model.Store

/-!
# pkg/store/memory: options of NewStore

What identifies a graph are the fields that `WG.UID` (pkg/graph/memory/wg.go:63-65) and `WG.DOTID` (:398-400) return, see
`Graph.WG`; for a subscription those that `Subscriber.ID` (pkg/broker/memory/subscriber.go:23-25) and `Subscriber.Topic`
(:28-30) return, see `Broker.Sub`.
-/

namespace Netscrape.Store
open Netscrape.Graph (WG St)

/-- `Options` (pkg/store/memory/options.go:9-12). -/
structure NOpts where
  uid : Option Uid := none
  graph : Option WG := none

/-- One `Option`: `WithUID` (pkg/store/memory/options.go:18-22) and `WithGraph` (:25-29). Both can be given nil. -/
inductive NOpt where
  | withUID (u : Option Uid)
  | withGraph (g : Option WG)

/-- Calling one option on the options struct. -/
def NOpt.apply (o : NOpts) : NOpt → NOpts
  | .withUID u => { o with uid := u }
  | .withGraph g => { o with graph := g }

/-- What `UID` (pkg/store/memory/store.go:56-58) returns and the graph that `Graph` (:61-66) hands out, for the store
that `NewStore` makes (:28-53). `fresh` and `freshGraph` are the UIDs made for the store and for a new graph. No method
assigns either field. -/
def create (h : Heap) (fresh freshGraph : Uid) (opts : List NOpt) : Uid × St :=
  let o := opts.foldl NOpt.apply {}
  (o.uid.getD fresh, newStore h o.graph freshGraph)

end Netscrape.Store
