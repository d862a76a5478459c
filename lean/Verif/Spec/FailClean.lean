import Verif.Model.NilUid

/-!
# Calls that fail
-/

namespace Netscrape.Spec
open Netscrape.Conc

/-- Nodes and edges are the same, and so is what is in every attribute set that was there. -/
def Untouched (s s' : Graph.St) : Prop :=
  s'.g = s.g ∧ ∀ r, s.heap.Valid r → s'.heap.Valid r ∧ s'.heap.read r = s.heap.read r

/-- The gonum graph has one more node, with an ID that was not in use; there is no other difference. -/
def OneMore (n : Graph.Node) (s s' : Graph.St) : Prop :=
  s.g.b.nodes.get? n.id = none ∧ (∀ i, s'.g.b.nodes.get? i = if i = n.id then some n else s.g.b.nodes.get? i) ∧
  s'.g.b.edges = s.g.b.edges ∧ s'.g.nodes = s.g.nodes ∧ s'.g.uid = s.g.uid ∧ s'.g.dotid = s.g.dotid ∧ s'.heap = s.heap

/-- The call of the graph returns an error or panics. -/
def GraphFails : Graph.NOut → Prop
  | .panic => True
  | .ret (.node r) => ∀ x, r ≠ .ok x
  | .ret (.unit r) => ∀ x, r ≠ .ok x
  | .ret (.edge r) => ∀ x, r ≠ .ok x
  | .ret (.graph r) => ∀ x, r ≠ .ok x
  | .ret _ => False

/-- The call of the store returns an error or panics. -/
def StoreFails : Store.COut → Prop
  | .unit r => ∀ x, r ≠ .ok x
  | .ent r => ∀ x, r ≠ .ok x
  | .ents r => ∀ x, r ≠ .ok x

/-- `BulkAdd`, `BulkDelete`, `BulkLink` or `BulkUnlink`. -/
def ManyWrites : Store.NOp → Prop
  | .bulkAdd .. => True
  | .bulkDelete .. => True
  | .bulkLink .. => True
  | .bulkUnlink .. => True
  | _ => False

variable {μ κ σ Op Out : Type} [DecidableEq μ]

/-- **Calls that fail change nothing.** A step of a goroutine changes the shared state; then the call that made the step
does not fail, whatever is done later by whomever. `same s s'` says that nothing changed. -/
def FailsClean (prog : Op → Prog μ κ σ Out) (allowed : Op → Prop) (same : σ → σ → Prop) (fails : Out → Prop) : Prop :=
  ∀ (s : σ) (c c' c'' : Cfg μ κ σ Op Out) (t : Nat) (k : Call μ κ σ Op Out) (as : List (Act Op)) (r : Nat) (out : Out),
    Reach prog (fun _ => True) s c → c.calls t = some k → allowed k.op →
    step prog c (.tau t) = some c' → ¬ same c.data c'.data →
    exec prog c' as = some c'' → Ev.res k.id r out ∈ c''.hist → ¬ fails out

end Netscrape.Spec
