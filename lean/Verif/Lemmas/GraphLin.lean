import Verif.Lemmas.GraphConc
import Verif.Lemmas.GraphSections
import Verif.Lemmas.Scout
import Verif.Spec.GraphLin

/-!
# The graph's simple methods look before they act
-/

namespace Netscrape.Graph
open Netscrape.Conc
open Netscrape.Gonum (EdgeOrder)

variable {P : Node → Prop}

theorem FixedInv.seq (hP : Pool P) {s : St} (h : FixedInv P s.g) (op : COp) (hop : PoolOnly P op) :
    FixedInv P (Graph.seq s op).1.g := by
  cases op with
  | newNode o e opts => exact h
  | addNode n opts => exact (h.addNode (rem := True) hP n hop opts).1
  | addForeign => exact h
  | node u => exact h
  | nodes o => exact h
  | removeNode u =>
    show FixedInv P (removeNode s.g u)
    unfold removeNode removeLookup
    cases hn : s.g.nodes.get? u.str with
    | none => exact h
    | some n => exact h.removeApply hP u n (h.pool _ _ hn) (h.inv.keyOf _ _ hn)
  | link fresh a f t opts =>
    refine ⟨link_wgInv h.inv s.heap fresh a f t opts, ?_⟩
    have e : (link s.heap s.g fresh a f t opts).2.1.nodes = s.g.nodes := by
      unfold link
      split
      · rfl
      · unfold linkApply
        dsimp only
        split <;> rfl
    intro k n hk
    have hk : (link s.heap s.g fresh a f t opts).2.1.nodes.get? k = some n := hk
    rw [e] at hk
    exact h.pool k n hk
  | edge u v => exact h
  | edges o => exact h
  | from' o u => exact h
  | unlink f t =>
    show FixedInv P (unlink s.g f t)
    unfold unlink
    cases unlinkLookup s.g f t with
    | none => exact h
    | some p => exact ⟨unlinkApply_wgInv h.inv p.1 p.2, h.pool⟩
  | subGraph ora u d opts => exact h
  | dot => exact h

theorem Built.inv (hP : Pool P) {s : St} (h : Built P s) : FixedInv P s.g := by
  induction h with
  | new heap d u opts => exact ⟨wgInv_new d u opts, fun k n hn => by cases hn⟩
  | call s op _ hop ih => exact ih.seq hP op hop

/-- The graph has no node with the ID of a pool node whose UID it does not have. -/
theorem FixedInv.absent (hP : Pool P) {g : WG} (h : FixedInv P g) {n : Node} (hn : P n)
    (hx : g.nodes.get? n.key = none) : g.b.nodes.get? n.id = none := by
  cases hb : g.b.nodes.get? n.id with
  | none => rfl
  | some m =>
    obtain ⟨y, hy, hyi⟩ := h.inv.ofID n.id m.key (by simp [Graph.keyAt, hb])
    have hk : y.key = n.key := (hP y n (h.pool _ _ hy) hn).mpr hyi
    rw [← h.inv.keyOf _ _ hy, hk, hx] at hy
    cases hy

/-- Acting on a node that was found some time ago. -/
theorem FixedInv.removeApply_eq (hP : Pool P) {g : WG} (h : FixedInv P g) (u : Uid) (n : Node) (hn : P n)
    (hu : n.key = u.str) : Graph.removeApply g u n = Graph.removeNode g u := by
  unfold removeNode removeLookup
  cases hx : g.nodes.get? u.str with
  | some n' =>
    show _ = Graph.removeApply g u n'
    unfold Graph.removeApply
    rw [(hP n n' hn (h.pool _ _ hx)).mp (hu.trans (h.inv.keyOf _ _ hx).symm)]
  | none =>
    show _ = g
    unfold Graph.removeApply
    rw [GoMap.del_of_none _ _ hx]
    have : g.b.removeNode n.id = g.b := by
      unfold Gonum.Builder.removeNode; simp [h.absent hP hn (hu ▸ hx)]
    rw [this]

/-- Acting on an edge whose ends were found some time ago. -/
theorem FixedInv.unlinkApply_eq (hP : Pool P) {g : WG} (h : FixedInv P g) (u v : Uid) (f t : Node) (hf : P f)
    (ht : P t) (hfu : f.key = u.str) (htv : t.key = v.str) : Graph.unlinkApply g f t = Graph.unlink g u v := by
  unfold unlink unlinkLookup
  cases hx : g.nodes.get? u.str with
  | none =>
    show _ = g
    unfold unlinkApply Gonum.Builder.removeEdge
    rw [h.absent hP hf (hfu ▸ hx)]
  | some f' =>
    cases hy : g.nodes.get? v.str with
    | none =>
      show _ = g
      unfold unlinkApply Gonum.Builder.removeEdge
      rw [h.absent hP ht (htv ▸ hy)]
      cases g.b.nodes.get? f.id <;> rfl
    | some t' =>
      show _ = unlinkApply g f' t'
      unfold unlinkApply
      rw [(hP f f' hf (h.pool _ _ hx)).mp (hfu.trans (h.inv.keyOf _ _ hx).symm),
        (hP t t' ht (h.pool _ _ hy)).mp (htv.trans (h.inv.keyOf _ _ hy).symm)]

abbrev GScout (P : Node → Prop) (op : COp) : Prop :=
  Scout () (fun s : St => FixedInv P s.g) (fun p => ∀ s : St, FixedInv P s.g → p.eval s = seq s op) (prog () op) .pre

theorem scout_addNode (n : Node) (opts : List Opt) : GScout P (.addNode n opts) := by
  refine ⟨rfl, rfl, .inl ⟨rfl, fun s => ?_⟩⟩
  dsimp only
  cases s.g.b.node? n.id with
  | some _ =>
    refine .inl ⟨rfl, fun s => ?_⟩
    dsimp only
    cases s.g.nodes.get? n.key with
    | some _ =>
      dsimp only
      split
      · exact ⟨rfl, rfl, _, rfl⟩
      · exact ⟨rfl, fun _ => ⟨rfl, fun _ => ⟨rfl, rfl, _, rfl⟩⟩⟩
    | none => exact ⟨rfl, fun _ => ⟨rfl, rfl, _, rfl⟩⟩
  | none =>
    refine ⟨rfl, fun s => ?_⟩
    dsimp only
    cases s.g.b.addNode n with
    | none => exact ⟨rfl, rfl, _, rfl⟩
    | some _ => exact ⟨rfl, fun _ => ⟨rfl, rfl, _, rfl⟩⟩

theorem scout_node (u : Uid) : GScout P (.node u) := by
  refine ⟨rfl, rfl, .inr ⟨rfl, fun s _ => ?_⟩⟩
  dsimp only
  cases s.g.nodes.get? u.str <;> exact ⟨rfl, rfl, .inl ⟨_, rfl⟩⟩

theorem scout_removeNode (hP : Pool P) (u : Uid) : GScout P (.removeNode u) := by
  refine ⟨rfl, rfl, .inr ⟨rfl, fun s hs => ?_⟩⟩
  dsimp only
  cases hn : s.g.nodes.get? u.str with
  | none => exact ⟨rfl, rfl, .inl ⟨_, rfl⟩⟩
  | some n =>
    refine ⟨rfl, rfl, .inr ⟨fun s' hs' => ?_, rfl, rfl, rfl, fun _ => ⟨rfl, fun _ => ⟨rfl, rfl, _, rfl⟩⟩⟩⟩
    show ((⟨s'.heap, removeApply s'.g u n⟩ : St), COut.unit (.ok ())) = _
    rw [hs'.removeApply_eq hP u n (hs.pool _ _ hn) (hs.inv.keyOf _ _ hn)]
    rfl

theorem scout_edge (u v : Uid) : GScout P (.edge u v) := by
  refine ⟨rfl, rfl, .inr ⟨rfl, fun s _ => ?_⟩⟩
  dsimp only
  cases s.g.nodes.get? u.str with
  | none => exact ⟨rfl, rfl, .inl ⟨_, rfl⟩⟩
  | some f =>
    refine .inr ⟨rfl, fun s _ => ?_⟩
    dsimp only
    cases s.g.nodes.get? v.str with
    | none => exact ⟨rfl, rfl, .inl ⟨_, rfl⟩⟩
    | some t =>
      refine .inr ⟨rfl, fun s _ => ?_⟩
      dsimp only
      cases s.g.b.weightedEdge f.id t.id <;> exact ⟨rfl, rfl, .inl ⟨_, rfl⟩⟩

theorem scout_from (o : Order (Int × Edge)) (u : Uid) : GScout P (.from' o u) := by
  refine ⟨rfl, rfl, .inr ⟨rfl, fun s _ => ?_⟩⟩
  dsimp only
  cases s.g.nodes.get? u.str with
  | none => exact ⟨rfl, rfl, .inl ⟨_, rfl⟩⟩
  | some n => exact .inr ⟨rfl, fun s _ => ⟨rfl, rfl, .inl ⟨_, rfl⟩⟩⟩

theorem scout_unlink (hP : Pool P) (f t : Uid) : GScout P (.unlink f t) := by
  refine ⟨rfl, rfl, .inr ⟨rfl, fun s hs => ?_⟩⟩
  dsimp only
  cases hx : s.g.nodes.get? f.str with
  | none => exact ⟨rfl, rfl, .inl ⟨_, rfl⟩⟩
  | some x =>
    refine .inr ⟨rfl, fun s1 hs1 => ?_⟩
    dsimp only
    cases hy : s1.g.nodes.get? t.str with
    | none => exact ⟨rfl, rfl, .inl ⟨_, rfl⟩⟩
    | some y =>
      refine ⟨rfl, rfl, .inr ⟨fun s' hs' => ?_, rfl, rfl, rfl, fun _ => ⟨rfl, rfl, _, rfl⟩⟩⟩
      show ((⟨s'.heap, unlinkApply s'.g x y⟩ : St), COut.unit (.ok ())) = _
      rw [hs'.unlinkApply_eq hP f t x y (hs.pool _ _ hx) (hs1.pool _ _ hy) (hs.inv.keyOf _ _ hx)
        (hs1.inv.keyOf _ _ hy)]
      rfl

theorem gscout (hP : Pool P) (op : COp) (h : Simple op) : GScout P op := by
  cases op with
  | newNode o e opts => exact h.elim
  | addNode n opts => exact scout_addNode n opts
  | addForeign => exact .inr rfl
  | node u => exact scout_node u
  | nodes o => exact ⟨rfl, rfl, .inr ⟨rfl, fun s _ => ⟨rfl, rfl, .inl ⟨_, rfl⟩⟩⟩⟩
  | removeNode u => exact scout_removeNode hP u
  | link fresh a f t opts => exact h.elim
  | edge u v => exact scout_edge u v
  | edges o => exact ⟨rfl, rfl, .inr ⟨rfl, fun s _ => ⟨rfl, rfl, .inl ⟨_, rfl⟩⟩⟩⟩
  | from' o u => exact scout_from o u
  | unlink f t => exact scout_unlink hP f t
  | subGraph ora u d opts => exact h.elim
  | dot => exact h.elim

theorem simple_linearizable (hP : Pool P) {s : St} (hs : FixedInv P s.g) {c : Cfg Unit Loc St COp COut}
    (hr : Conc.Reach (prog ()) (fun op => Simple op ∧ PoolOnly P op) s c) : Spec.Linearizable seq s c.hist :=
  scout_linearizable (m := ()) (Inv := fun s : St => FixedInv P s.g) (prot := lookup) (strict := True) (flat := True)
    (fun op _ h hs => hs.seq hP op h.2)
    (fun op h => disc_flat op (by cases op <;> first | exact id | exact fun _ => h.1)
      (by cases op <;> first | exact id | exact fun _ => h.1))
    (fun op h => gscout hP op h.1) (fun op _ s _ => eval_prog () op s) hs hr

end Netscrape.Graph
