import Verif.Model.Identity
import Verif.Model.StoreShared
import Verif.Spec.Graph
import Verif.Spec.Linearizable

/-!
# What stays the same about a graph
-/

namespace Netscrape.Spec.Identity
open Netscrape.Graph Netscrape.Spec.Graph
open Netscrape.Store (NOpt)

/-- Whether the graph is built on gonum's directed graph. -/
def isDirected (g : WG) : Prop := match g.b.edges with | .directed _ _ => True | .undirected _ => False

/-- UID and DOTID are the same and the graphs are both directed or both undirected. -/
structure Same (g g' : WG) : Prop where
  uid : g'.uid = g.uid
  dotid : g'.dotid = g.dotid
  directed : isDirected g' ↔ isDirected g

/-- The identity a graph made with these options should have. -/
structure MadeWith (directed : Bool) (fresh : Uid) (opts : List Opt) (g : WG) : Prop where
  uid : g.uid = (uidOption opts).getD fresh
  dotid : g.dotid = if dotOption opts = "" then g.uid.str else dotOption opts
  directed : isDirected g ↔ directed = true

/-- The UID the last `WithUID` of a store sets. -/
def storeUid (opts : List NOpt) : Option Uid :=
  ((opts.filterMap fun o => match o with | .withUID u => some u | _ => none).getLast?).join

/-- The graph the last `WithGraph` of a store sets. -/
def storeGraph (opts : List NOpt) : Option WG :=
  ((opts.filterMap fun o => match o with | .withGraph g => some g | _ => none).getLast?).join

end Netscrape.Spec.Identity
