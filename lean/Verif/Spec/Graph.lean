import Verif.Model.Graph

/-!
# Specification vocabulary for graphs
-/

namespace Netscrape.Spec.Graph
open Netscrape.Graph

/-- The node lookups a history of calls and results implies, whatever the graph does inside:
a successful `AddNode` binds the node's UID string, `RemoveNode` unbinds it. The list is oldest
first. -/
def binding (s : String) (bound : Option Node) : Op × Out → Option Node
  | (.addNode n _, .unit (.ok ())) => if n.uid.str = s then some n else bound
  | (.removeNode u, _) => if u.str = s then none else bound
  | _ => bound

def bindings (tr : List (Op × Out)) (s : String) : Option Node := tr.foldl (binding s) none

/-- A node that may be added to `g`: its UID and its ID point at the same node of `g`, or neither
points at any. Nodes freshly obtained from the graph's own `NewNode` are like this. -/
def Fits (g : WG) (n : Node) : Prop :=
  ∀ u m, node g u = .ok m → (m.uid.str = n.uid.str ↔ m.id = n.id)

/-- Every call is allowed. -/
def Any (_ : St) (_ : Op) : Prop := True

/-- `AddNode` is only given nodes that fit. -/
def Disciplined (s : St) : Op → Prop
  | .addNode n _ => Fits s.g n
  | _ => True

/-- Disciplined, and `AddNode` is not asked to replace a node of the graph by a different one: if the
upsert option is given, the graph has no node with this UID or has this very node. -/
def NoReplace (s : St) : Op → Prop
  | .addNode n opts => Fits s.g n ∧ (Opt.withUpsert ∈ opts → ∀ m, node s.g n.uid = .ok m → m = n)
  | _ => True

/-- States reachable from a new graph by allowed calls. -/
inductive Reach (allowed : St → Op → Prop) (directed : Bool) : St → Prop
  | init (h : Heap) (fresh : Uid) (opts : List Opt) : Reach allowed directed ⟨h, new directed fresh opts⟩
  | step (s : St) (op : Op) : Reach allowed directed s → allowed s op →
      Reach allowed directed (step s op).1

theorem Reach.mono {P Q : St → Op → Prop} {d : Bool} (h : ∀ s op, P s op → Q s op) {s : St}
    (hr : Reach P d s) : Reach Q d s := by
  induction hr with
  | init => exact .init _ _ _
  | step s op _ hp ih => exact .step s op ih (h s op hp)

theorem NoReplace.disciplined (s : St) (op : Op) (h : NoReplace s op) : Disciplined s op := by
  cases op <;> first | trivial | exact h.1

/-- A path of exactly `n` edges from `u` to `v`, as `Edge` reports them. -/
inductive Path (g : WG) (u : Uid) : Nat → Uid → Prop
  | here (v : Uid) : u.str = v.str → Path g u 0 v
  | hop (n : Nat) (v w : Uid) (e : Edge) : Path g u n v → edge g v w = .ok e → Path g u (n + 1) w

/-! ## What an option list asks for -/

/-- The value the last DOTID option sets; empty when there is none. -/
def dotOption (opts : List Opt) : String :=
  ((opts.filterMap fun o => match o with | .withDOTID s => some s | _ => none).getLast?).getD ""

/-- The UID the last UID option sets. -/
def uidOption (opts : List Opt) : Option Uid :=
  ((opts.filterMap fun o => match o with | .withUID u => some u | _ => none).getLast?).join

/-- The attribute set the last attributes option sets. -/
def attrsOption (opts : List Opt) : Option Ref :=
  ((opts.filterMap fun o => match o with | .withAttrs a => some a | _ => none).getLast?).join

/-- The weight the last weight option sets; zero when there is none. -/
def weightOption (opts : List Opt) : Int :=
  ((opts.filterMap fun o => match o with | .withWeight w => some w | _ => none).getLast?).getD 0

end Netscrape.Spec.Graph
