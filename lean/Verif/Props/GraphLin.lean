import Verif.Lemmas.GraphLin
import Verif.Lemmas.NotLin
import Verif.Props.GraphConc

/-!
# C78: concurrent graph calls look like calls made one at a time
-/

namespace Netscrape.Props
open Netscrape Netscrape.Conc Netscrape.Spec Netscrape.Graph

/-- **C78** for the methods in `allowed`, on a graph built with nodes from a pool in which UIDs and IDs go
together. -/
def LinearizableStatement (allowed : Graph.COp → Prop) : Prop :=
  ∀ (P : Node → Prop), Pool P → ∀ (s : St), Built P s → ∀ (c : GCfg),
    Reach (Graph.prog ()) (fun op => allowed op ∧ PoolOnly P op) s c → Linearizable Graph.seq s c.hist

/-- Equality of results, except that of graphs only sizes are compared. -/
def sameOut : Graph.COut → Graph.COut → Bool
  | .node r, .node r' => decide (r = r')
  | .unit r, .unit r' => decide (r = r')
  | .edge r, .edge r' => decide (r = r')
  | .nodes l, .nodes l' => decide (l = l')
  | .edges l, .edges l' => decide (l = l')
  | .graph (.ok g), .graph (.ok g') =>
    g.nodes.size == g'.nodes.size &&
      (edgesList g Gonum.EdgeOrder.id).length == (edgesList g' Gonum.EdgeOrder.id).length
  | .graph _, .graph _ => true
  | .dot, .dot => true
  | _, _ => false

theorem sameOut_refl (o : Graph.COut) : sameOut o o = true := by
  cases o with
  | node r => exact decide_eq_true rfl
  | unit r => exact decide_eq_true rfl
  | edge r => exact decide_eq_true rfl
  | nodes l => exact decide_eq_true rfl
  | edges l => exact decide_eq_true rfl
  | graph r => cases r <;> simp [sameOut]
  | dot => rfl

/-- The pool of the example graph, and one more node. -/
def exPool (n : Node) : Prop := n = exNode 0 "a" ∨ n = exNode 1 "b" ∨ n = exNode 2 "c" ∨ n = exNode 3 "d"

theorem exPool_pool : Pool exPool := by
  rintro n m (rfl | rfl | rfl | rfl) (rfl | rfl | rfl | rfl) <;> decide

theorem exSt_built : Built exPool (exSt true) :=
  .call _ (.link ⟨101, "e2"⟩ 201 uB uC [.withWeight 9]) (.call _ (.link ⟨100, "e1"⟩ 200 uA uB [.withWeight 7])
    (.call _ (.addNode (exNode 2 "c") []) (.call _ (.addNode (exNode 1 "b") []) (.call _ (.addNode (exNode 0 "a") [])
      (.new Heap.empty true ⟨0, "graph"⟩ []) (.inl rfl)) (.inr (.inl rfl))) (.inr (.inr (.inl rfl)))) trivial) trivial

/-- A schedule whose history fits no order of the calls. -/
theorem not_lin {allowed : Graph.COp → Prop} (as : List (Act Graph.COp))
    (hok : ∀ a ∈ as, ∀ t op, a = .call t op → allowed op ∧ PoolOnly exPool op)
    (hrun : (exec (Graph.prog ()) (.init (exSt true)) as).map
      (fun c => couldLin Graph.seq sameOut (exSt true) c.hist) = some false) :
    ¬ LinearizableStatement allowed := by
  intro hst
  obtain ⟨c, hc, he⟩ := Option.map_eq_some_iff.mp hrun
  exact not_linearizable sameOut_refl he
    (hst exPool exPool_pool _ exSt_built c (reach_exec as .init hok hc))

/-- **C78 is violated** by `Link` alone: two goroutines that link the same nodes both find no edge, and each is
given an edge of its own, of which the graph keeps one. -/
theorem c78_link_violated : ¬ LinearizableStatement isLink :=
  not_lin ([.call 0 (.link ⟨110, "x"⟩ 210 uA uC []), .call 1 (.link ⟨111, "y"⟩ 211 uA uC [])] ++ taus 0 9 ++ taus 1 9 ++
    taus 0 5 ++ taus 1 5 ++ [.ret 0, .ret 1])
    (by
      intro a ha t op e
      subst e
      simp [taus] at ha
      rcases ha with ⟨-, rfl⟩ | ⟨-, rfl⟩ <;> exact ⟨trivial, trivial⟩) (by decide +kernel)

/-- **C78 is violated** by `NewNode`, which picks the ID in one critical section and looks for the node in
another: it returns a new `c` with ID 3, while at any time there was a `c`, or 3 was taken. -/
theorem c78_newNode_violated : ¬ LinearizableStatement (fun op =>
    (match op with | .newNode .. => true | .addNode .. => true | .removeNode _ => true | _ => false) = true) :=
  not_lin ([.call 1 (.newNode Order.id (exEnt 2 "c") [])] ++ taus 1 4 ++ exAddNode 0 (exNode 3 "d") ++ exRemove 0 uC ++
    taus 1 5 ++ [.ret 1])
    (by
      intro a ha t op e
      subst e
      simp [taus, exAddNode, exRemove] at ha
      rcases ha with ⟨-, rfl⟩ | ⟨-, rfl⟩ | ⟨-, rfl⟩
      · exact ⟨rfl, trivial⟩
      · exact ⟨rfl, .inr (.inr (.inr rfl))⟩
      · exact ⟨rfl, trivial⟩) (by decide +kernel)

/-- **C78 is violated** by `SubGraph`, which collects nodes first and edges later: it returns `a` and `b` without
the edge that made it find `b`. -/
theorem c78_subGraph_violated : ¬ LinearizableStatement (fun op =>
    (match op with | .subGraph .. => true | .unlink .. => true | _ => false) = true) :=
  not_lin ([.call 1 (.subGraph exOra uA 1 [])] ++ taus 1 6 ++ [.call 0 (.unlink uA uB)] ++ taus 0 8 ++ [.ret 0] ++
    taus 1 2 ++ [.ret 1])
    (by
      intro a ha t op e
      subst e
      simp [taus] at ha
      rcases ha with ⟨-, rfl⟩ | ⟨-, rfl⟩ <;> exact ⟨rfl, trivial⟩) (by decide +kernel)

/-- **C78 is violated** by `RemoveNode` if IDs are not fixed: between its critical sections `a` gets another ID and
its old one goes to `w`. `Nodes` then lists `a` only. -/
theorem c78_ids_violated : ¬ ∀ (heap : Heap) (d : Bool) (u : Uid) (opts : List Graph.Opt) (c : GCfg),
    Reach (Graph.prog ()) Simple ⟨heap, new d u opts⟩ c → Linearizable Graph.seq ⟨heap, new d u opts⟩ c.hist := by
  intro hst
  have hrun : (exec (Graph.prog ()) (.init (exInit true)) (exAddNode 0 (exNode 0 "a") ++
      [.call 1 (.removeNode uA)] ++ taus 1 3 ++ exRemove 0 uA ++ exAddNode 0 (exNode 0 "w") ++
      exAddNode 0 (exNode 1 "a") ++ taus 1 5 ++ [.ret 1] ++ [.call 0 (.nodes Order.id)] ++ taus 0 3 ++ [.ret 0])).map
      (fun c => couldLin Graph.seq sameOut (exInit true) c.hist) = some false := by decide +kernel
  obtain ⟨c, hc, he⟩ := Option.map_eq_some_iff.mp hrun
  refine not_linearizable sameOut_refl he (hst Heap.empty true ⟨0, "graph"⟩ [] c (reach_exec _ .init ?_ hc))
  intro a ha t op e
  subst e
  simp [taus, exAddNode, exRemove] at ha
  rcases ha with ⟨-, rfl⟩ | ⟨-, rfl⟩ | ⟨-, rfl⟩ | ⟨-, rfl⟩ | ⟨-, rfl⟩ | ⟨-, rfl⟩ <;> trivial

/-- **C78, what holds**: with fixed IDs, concurrent calls of `AddNode`, `Node`, `Nodes`, `RemoveNode`, `Edge`, `Edges`,
`From` and `Unlink` look like calls made one at a time, on any graph built before (with links). -/
theorem c78_linearizable_partial : LinearizableStatement Simple :=
  fun _ hP _ hs _ hr => simple_linearizable hP (hs.inv hP) hr

/-- Non-vacuity: two overlapping `RemoveNode` calls of `a`, the later of which does nothing, and an `Unlink` of an
edge that disappears in between. -/
def exOverlap : List (Act Graph.COp) :=
  [.call 0 (.removeNode uA), .call 1 (.removeNode uA), .call 2 (.unlink uA uB)] ++ taus 0 3 ++ taus 1 3 ++ taus 2 4 ++
    taus 1 5 ++ [.ret 1] ++ [.call 1 (.addNode (exNode 3 "d") [])] ++ taus 2 4 ++ [.ret 2] ++ taus 1 6 ++ [.ret 1] ++
    taus 0 5 ++ [.ret 0, .call 0 (.nodes Order.id)] ++ taus 0 3 ++ [.ret 0]

example : ((exec (Graph.prog ()) (.init (exSt true)) exOverlap).map
    fun c => (c.hist.length, (nodesList c.data.g Order.id).map fun n => n.uid.str,
      couldLin Graph.seq sameOut (exSt true) c.hist)) = some (10, ["d", "c", "b"], true) := by decide +kernel

example : ∀ a ∈ exOverlap, ∀ t op, a = .call t op → Simple op ∧ PoolOnly exPool op := by
  intro a ha t op e
  subst e
  simp [taus, exOverlap] at ha
  rcases ha with ⟨-, rfl⟩ | ⟨-, rfl⟩ | ⟨-, rfl⟩ | ⟨-, rfl⟩ | ⟨-, rfl⟩
  · exact ⟨trivial, trivial⟩
  · exact ⟨trivial, trivial⟩
  · exact ⟨trivial, trivial⟩
  · exact ⟨trivial, .inr (.inr (.inr rfl))⟩
  · exact ⟨trivial, trivial⟩

end Netscrape.Props
