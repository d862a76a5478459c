import Verif.Model.StoreHandle
import Verif.Spec.Parts

/-!
# What is said about a store used together with its graph
-/

namespace Netscrape.Spec.Handle
open Netscrape.Conc

variable {Op₁ Op₂ Out₁ Out₂ : Type}

/-- What an observer sees who watches only the calls of the first kind. -/
def lefts : List (Ev (Op₁ ⊕ Op₂) (Out₁ ⊕ Out₂)) → List (Ev Op₁ Out₁) :=
  List.filterMap fun e => match e with
    | .inv c t (.inl op) => some (.inv c t op)
    | .res c t (.inl out) => some (.res c t out)
    | _ => none

/-- What an observer sees who watches only the calls of the second kind. -/
def rights : List (Ev (Op₁ ⊕ Op₂) (Out₁ ⊕ Out₂)) → List (Ev Op₂ Out₂) :=
  List.filterMap fun e => match e with
    | .inv c t (.inr op) => some (.inv c t op)
    | .res c t (.inr out) => some (.res c t out)
    | _ => none

/-- The graph's methods that only look, other than `SubGraph` and `DOT`. -/
def Looks : Graph.COp → Prop
  | .node _ | .nodes _ | .edge _ _ | .edges _ | .from' _ _ => True
  | _ => False

/-- Store calls of any kind; on the graph only calls that look. -/
def Quiet : Store.Handle.Op → Prop
  | .inl _ => True
  | .inr o => Looks o

/-- Store calls other than those that write in bulk; on the graph only calls that look. -/
def Single : Store.Handle.Op → Prop
  | .inl (.bulkAdd _ _) | .inl (.bulkDelete _) | .inl (.bulkLink _ _ _) | .inl (.bulkUnlink _ _) => False
  | .inl _ => True
  | .inr o => Looks o

/-- Calls other than `Link` and `BulkLink`, on the store or its graph, and other than `DOT`. -/
def Plain : Store.Handle.Op → Prop
  | .inl (.link _ _ _ _ _) | .inl (.bulkLink _ _ _) | .inr (.link _ _ _ _ _) | .inr .dot => False
  | _ => True

/-- Store calls of any kind; on the graph anything but `SubGraph`. -/
def NoSub : Store.Handle.Op → Prop
  | .inr (.subGraph _ _ _ _) => False
  | _ => True

/-- Store calls of any kind; on the graph anything but `DOT`, `SubGraph` and `Link`. -/
def NoDot : Store.Handle.Op → Prop
  | .inr .dot | .inr (.subGraph _ _ _ _) | .inr (.link _ _ _ _ _) => False
  | _ => True

/-- Links an entity to itself. -/
def SelfLink : Store.Handle.Op → Prop
  | .inl (.link _ _ f t _) => f.str = t.str
  | .inl (.bulkLink f us _) => ∃ x ∈ us, f.str = x.2.2.str
  | .inr (.link _ _ f t _) => f.str = t.str
  | _ => False

/-- Store calls of any kind; on the graph anything but adding and removing nodes. -/
def NodesByStore : Store.Handle.Op → Prop
  | .inr (.addNode _ _) | .inr (.removeNode _) => False
  | _ => True

/-- Store calls that add or remove entities. -/
def Renews : Store.COp → Prop
  | .add _ _ _ | .bulkAdd _ _ | .delete _ | .bulkDelete _ => True
  | _ => False

/-- Calls that take an ID for a new node. -/
def Takes : Store.Handle.Op → Prop
  | .inl (.add _ _ _) | .inl (.bulkAdd _ _) | .inr (.newNode _ _ _) => True
  | _ => False

/-- The call panicked. -/
def Panics : Store.Handle.Out → Prop
  | .inl (.unit .panic) | .inl (.ent .panic) | .inl (.ents .panic) => True
  | .inr (.node .panic) | .inr (.unit .panic) | .inr (.edge .panic) => True
  | _ => False

/-- What a call on the store returns that succeeds. -/
def success : Store.Handle.Out := .inl (.unit (.ok ()))

/-- A bulk call that writes is made up of a call for each entity or link. Other calls have one part: themselves. -/
def partsOf : Store.Handle.Op → List Store.Handle.Op
  | .inl (.bulkAdd es opts) => es.map fun x => .inl (.add x.1 x.2 opts)
  | .inl (.bulkDelete us) => us.map fun u => .inl (.delete u)
  | .inl (.bulkLink f us opts) => us.map fun x => .inl (.link x.1 x.2.1 f x.2.2 opts)
  | .inl (.bulkUnlink f us) => us.map fun u => .inl (.unlink f u)
  | op => [op]

/-- What bulk calls that write return: nil if all parts succeeded, otherwise what the part that failed returned.
`n` is the number of parts there are, `outs` what those that were executed returned. -/
def BulkResult (n : Nat) (outs : List Store.Handle.Out) (out : Store.Handle.Out) : Prop :=
  (outs.length = n ∧ (∀ o ∈ outs, o = success) ∧ out = success) ∨ (out ≠ success ∧ outs.getLast? = some out)

/-- Bulk calls that write are executed in parts, until one fails. Calls on the store do not get in between. -/
def inParts : Split Store.Handle.Op Store.Handle.Out where
  parts := partsOf
  goesOn := fun out => out = success
  result := fun op outs out => match op with
    | .inl (.bulkAdd es _) => BulkResult es.length outs out
    | .inl (.bulkDelete us) => BulkResult us.length outs out
    | .inl (.bulkLink _ us _) => BulkResult us.length outs out
    | .inl (.bulkUnlink _ us) => BulkResult us.length outs out
    | _ => outs = [out]
  main := fun op => ∃ o, op = .inl o

end Netscrape.Spec.Handle
