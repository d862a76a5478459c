import Verif.Lemmas.Progress
import Verif.Spec.GraphConc

/-!
# How the graph's methods use the mutex
-/

namespace Netscrape.Graph
open Netscrape.Conc
open Netscrape.Gonum (EdgeOrder)

/-- Solves `Disc` goals for loop-free bodies. -/
macro "disc" : tactic => `(tactic| (
  repeat' first
    | (refine ⟨0, rfl, fun _ => rfl⟩)
    | (intro _)
    | (refine ⟨rfl, ?_⟩)
    | (refine ⟨_, rfl, fun _ => rfl, ?_⟩)
    | (refine ⟨_, rfl, False.elim, ?_⟩)
    | (refine ⟨_, rfl, False.elim⟩)
    | (refine ⟨_, rfl, ?_⟩)
    | (refine ⟨Hold.noConfusion, by first | exact fun _ => Hold.noConfusion | exact fun _ => rfl
                                          | exact fun h => absurd rfl h.1 | exact fun h => absurd rfl h
                                          | (intro _ h; cases h), ?_⟩)
    | (dsimp only [Prog.excl, Prog.shared, Prog.bind, Disc])
    | (rw [if_pos (Subsingleton.elim (α := Unit) _ _)])
    | split))

/-- The locations the mutex protects: all but the memory of attribute sets, which is only allocated in. -/
def shared (l : Loc) : Prop := l ≠ .heap

theorem disc_newNode (o : Order (Int × Unit)) (e : Ent) (opts : List Opt) :
    Disc () shared True True (prog () (.newNode o e opts)) (.rd 0) := by
  unfold prog newNodeP; disc

theorem disc_addNode (n : Node) (opts : List Opt) :
    Disc () shared True True (prog () (.addNode n opts)) (.rd 0) := by
  unfold prog addNodeP; disc

theorem disc_addForeign : Disc () shared True True (prog () .addForeign) (.rd 0) := by
  unfold prog addForeignP; disc

theorem disc_node (u : Uid) : Disc () shared True True (prog () (.node u)) (.rd 0) := by
  unfold prog nodeP; disc

theorem disc_nodes (o : Order (Int × Node)) : Disc () shared True True (prog () (.nodes o)) (.rd 0) := by
  unfold prog nodesP; disc

theorem disc_removeNode (u : Uid) : Disc () shared True True (prog () (.removeNode u)) (.rd 0) := by
  unfold prog removeNodeP; disc

theorem disc_edge (u v : Uid) : Disc () shared True True (prog () (.edge u v)) (.rd 0) := by
  unfold prog edgeP; disc

theorem disc_edges (o : EdgeOrder) : Disc () shared True True (prog () (.edges o)) (.rd 0) := by
  unfold prog edgesP; disc

theorem disc_from (o : Order (Int × Edge)) (u : Uid) :
    Disc () shared True True (prog () (.from' o u)) (.rd 0) := by
  unfold prog fromP; disc

theorem disc_unlink (f t : Uid) : Disc () shared True True (prog () (.unlink f t)) (.rd 0) := by
  unfold prog unlinkP; disc

theorem disc_link (fresh : Uid) (a : Nat) (f t : Uid) (opts : List Opt) :
    Disc () shared True False (prog () (.link fresh a f t opts)) (.rd 0) := by
  unfold prog linkP edgeP linkApplyP; disc

theorem disc_dot : Disc () shared False False (prog () .dot) (.rd 0) := by
  unfold prog dotP; disc

/-! `SubGraph` reads the gonum graph without the lock, but `g.nodes` only with it. -/

/-- What the mutex protects even from `SubGraph`. -/
def lookup (l : Loc) : Prop := l = .nodes

theorem disc_linkPeers (ora : SubOracle) (sgNodes : GoMap Int Node) (id : Int) (x : Node) :
    ∀ (ps : List Node) (sg : WG) (k : WG → GProg Unit (Res Err WG)),
    (∀ sg', Disc () lookup True True ((k sg').bind fun r => .ret (COut.graph r)) (.rd 0)) →
    Disc () lookup True True
      ((linkPeersP ora sgNodes id x ps sg k).bind fun r => .ret (COut.graph r)) (.rd 0) := by
  intro ps
  induction ps with
  | nil => intro sg k hk; exact hk sg
  | cons p ps ih =>
    intro sg k hk
    unfold linkPeersP
    cases sgNodes.get? p.id with
    | none => exact ih sg k hk
    | some to =>
      refine ⟨Hold.noConfusion, Loc.noConfusion, fun s => ⟨Hold.noConfusion, Loc.noConfusion, fun s' => ?_⟩⟩
      dsimp only
      cases (linkAll ora x.uid to.uid (s.g.b.weightedEdges (ora.edges id p.id)) sg s'.heap).1 with
      | ok sg' => exact ih sg' k hk
      | err e => exact ⟨0, rfl, fun _ => rfl⟩
      | panic => exact ⟨0, rfl, fun _ => rfl⟩

theorem disc_linkNodes (ora : SubOracle) (sgNodes : GoMap Int Node) :
    ∀ (l : List (Int × Node)) (sg : WG),
    Disc () lookup True True ((linkNodesP ora sgNodes l sg).bind fun r => .ret (COut.graph r)) (.rd 0) := by
  intro l
  induction l with
  | nil => intro sg; exact ⟨0, rfl, fun _ => rfl⟩
  | cons p l ih =>
    intro sg
    exact ⟨Hold.noConfusion, Loc.noConfusion, fun s => disc_linkPeers ora sgNodes p.1 p.2 _ sg _ ih⟩

theorem disc_subGraph (ora : SubOracle) (u : Uid) (d : Int) (opts : List Opt) :
    Disc () lookup True True (prog () (.subGraph ora u d opts)) (.rd 0) := by
  refine ⟨0, rfl, fun _ => rfl, Hold.noConfusion, (fun _ h => by cases h), fun s => ?_⟩
  dsimp only
  cases s.g.nodes.get? u.str with
  | none => exact ⟨0, rfl, 0, rfl, fun _ => rfl⟩
  | some root =>
    refine ⟨0, rfl, 0, rfl, fun _ => rfl, Hold.noConfusion, (fun _ h => by cases h), fun s => ⟨0, rfl, ?_⟩⟩
    generalize Gonum.Bfs.walk s.g.b ora.bfs collect (fun _ x => x == d) root
      ⟨new true ora.graphUid opts, GoMap.empty, none⟩ = w
    cases w with
    | none => exact ⟨0, rfl, fun _ => rfl⟩
    | some w =>
      dsimp only
      cases w.acc.err with
      | some e => exact ⟨0, rfl, fun _ => rfl⟩
      | none => exact disc_linkNodes ora _ _ _

/-! ## All methods -/

theorem disc_flat (op : COp) (hl : ¬ isLink op) (hd : ¬ isDot op) :
    Disc () lookup True True (prog () op) (.rd 0) := by
  have hp : ∀ l, lookup l → shared l := by rintro l rfl; exact Loc.noConfusion
  cases op with
  | newNode o e opts => exact (disc_newNode o e opts).mono hp id id
  | addNode n opts => exact (disc_addNode n opts).mono hp id id
  | addForeign => exact disc_addForeign.mono hp id id
  | node u => exact (disc_node u).mono hp id id
  | nodes o => exact (disc_nodes o).mono hp id id
  | removeNode u => exact (disc_removeNode u).mono hp id id
  | link => exact absurd trivial hl
  | edge u v => exact (disc_edge u v).mono hp id id
  | edges o => exact (disc_edges o).mono hp id id
  | from' o u => exact (disc_from o u).mono hp id id
  | unlink f t => exact (disc_unlink f t).mono hp id id
  | subGraph ora u d opts => exact disc_subGraph ora u d opts
  | dot => exact absurd trivial hd

theorem disc_strict (op : COp) (hd : ¬ isDot op) :
    Disc () lookup True False (prog () op) (.rd 0) := by
  by_cases hl : isLink op
  · cases op with
    | link fresh a f t opts =>
      exact (disc_link fresh a f t opts).mono (by rintro l rfl; exact Loc.noConfusion) id id
    | _ => exact absurd hl id
  · exact (disc_flat op hl hd).mono (fun _ => id) id False.elim

theorem disc_lookup (op : COp) : Disc () lookup False False (prog () op) (.rd 0) := by
  by_cases hd : isDot op
  · cases op with
    | dot => exact disc_dot.mono (by rintro l rfl; exact Loc.noConfusion) id id
    | _ => exact absurd hd id
  · exact (disc_strict op hd).mono (fun _ => id) False.elim id

theorem disc_shared (op : COp) (hs : ¬ isSubGraph op) : Disc () shared False False (prog () op) (.rd 0) := by
  have hp : ∀ l, shared l → shared l := fun _ => id
  cases op with
  | newNode o e opts => exact (disc_newNode o e opts).mono hp False.elim False.elim
  | addNode n opts => exact (disc_addNode n opts).mono hp False.elim False.elim
  | addForeign => exact disc_addForeign.mono hp False.elim False.elim
  | node u => exact (disc_node u).mono hp False.elim False.elim
  | nodes o => exact (disc_nodes o).mono hp False.elim False.elim
  | removeNode u => exact (disc_removeNode u).mono hp False.elim False.elim
  | link fresh a f t opts => exact (disc_link fresh a f t opts).mono hp False.elim id
  | edge u v => exact (disc_edge u v).mono hp False.elim False.elim
  | edges o => exact (disc_edges o).mono hp False.elim False.elim
  | from' o u => exact (disc_from o u).mono hp False.elim False.elim
  | unlink f t => exact (disc_unlink f t).mono hp False.elim False.elim
  | subGraph ora u d opts => exact absurd trivial hs
  | dot => exact disc_dot

end Netscrape.Graph
