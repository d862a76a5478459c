import Verif.Model.StoreConc

/-!
# pkg/store/memory: a store used together with its graph

`Memory.Graph` (pkg/store/memory/store.go:61-66) hands out the graph the store keeps its entities in. Calls on
it take the graph's mutex and not the store's.
-/

namespace Netscrape.Conc

variable {μ κ σ Op₁ Op₂ Out₁ Out₂ : Type}

/-- Two sets of methods on the same shared state. -/
def both (p₁ : Op₁ → Prog μ κ σ Out₁) (p₂ : Op₂ → Prog μ κ σ Out₂) : Op₁ ⊕ Op₂ → Prog μ κ σ (Out₁ ⊕ Out₂)
  | .inl o => (p₁ o).bind fun r => .ret (.inl r)
  | .inr o => (p₂ o).bind fun r => .ret (.inr r)

end Netscrape.Conc

namespace Netscrape.Store.Handle
open Netscrape.Conc

/-- A call on the store, or a call on the graph `Memory.Graph` returned
(pkg/store/memory/store.go:61-66; `Memory.g` never changes after `NewStore`). -/
abbrev Op := Store.COp ⊕ Graph.COp

/-- What a call returns. -/
abbrev Out := Store.COut ⊕ Graph.COut

/-- The methods: those of the store (pkg/store/memory/store.go:95-253) and those of the graph
(pkg/graph/memory/wg.go:71-422), which share the graph's mutex `WG.mu`. -/
def prog : Op → SProg Out := both Store.prog (Graph.prog .graph)

/-- One call made alone: new state and returned value. -/
def seq (s : Graph.St) : Op → Graph.St × Out
  | .inl o => ((Store.seq s o).1, .inl (Store.seq s o).2)
  | .inr o => ((Graph.seq s o).1, .inr (Graph.seq s o).2)

end Netscrape.Store.Handle
