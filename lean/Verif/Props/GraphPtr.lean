import Verif.Lemmas.GraphPtrDot
import Verif.Props.GraphAny

/-!
# C83 – C85: node and edge objects

`Verif.Model.GraphPtr` has nodes and edges as objects. The theorems here are about which object a call
hands out, and hence about where a DOTID set through one handle is seen.
-/

namespace Netscrape.Props
open Netscrape Netscrape.GraphPtr Netscrape.Spec.GraphPtr
open Netscrape.Graph (Opt Err)

/-! ## Concrete graphs -/

/-- Two new node objects with UIDs "a" and "b" and IDs 0 and 1, not yet in a graph. -/
def ptrMem : Mem :=
  ⟨[⟨⟨⟨1, "a"⟩, "entity", 0, none⟩, 0, "a", 0⟩, ⟨⟨⟨2, "b"⟩, "entity", 0, none⟩, 1, "b", 0⟩,
    ⟨⟨⟨1, "a"⟩, "entity", 0, none⟩, 0, "a2", 0⟩], [], Heap.empty⟩

def ptrInit (d : Bool) : St := ⟨ptrMem, new d ⟨0, "g"⟩ []⟩

/-- Add both and link a to b. -/
def ptrOps : List Op :=
  [.addNode 0 [], .addNode 1 [], .link ⟨9, "e"⟩ 0 ⟨1, "a"⟩ ⟨2, "b"⟩ []]

theorem ptr_sound : Sound ptrMem := by
  intro p hp
  exact absurd hp (Nat.not_lt_zero p)

theorem ptr_fits_of {s : St} {p : NPtr}
    (h : ∀ e ∈ s.g.nodes.entries, (s.mem.key e.2 = s.mem.key p ↔ s.mem.id e.2 = s.mem.id p)) : Fits s p := by
  intro u q hq
  unfold node at hq
  split at hq
  · rename_i q' hq'
    cases hq
    exact h (u.str, q) ((GoMap.get?_eq_some _ _ _).mp hq')
  · cases hq

theorem ptr_reach (d : Bool) : Reach NoReplace d (run (ptrInit d) ptrOps) := by
  have h0 : Reach NoReplace d (ptrInit d) := .init _ _ _ ptr_sound
  refine .step _ _ (.step _ _ (.step _ _ h0 ?_ ?_) ?_ ?_) ?_ ?_
  · show (0 : Nat) < 3; decide
  · exact ⟨ptr_fits_of (by cases d <;> decide), fun h => absurd h (by decide)⟩
  · show (1 : Nat) < _; cases d <;> decide
  · exact ⟨ptr_fits_of (by cases d <;> decide), fun h => absurd h (by decide)⟩
  · trivial
  · trivial

theorem Reach.weaken {P Q : St → Op → Prop} (h : ∀ s op, P s op → Q s op) {d : Bool} {s : St}
    (hr : Reach P d s) : Reach Q d s := by
  induction hr with
  | init m f o hm => exact .init m f o hm
  | step s op _ hu hp ih => exact .step s op ih hu (h s op hp)

theorem noReplace_disciplined (s : St) (op : Op) (h : NoReplace s op) : Disciplined s op := by
  cases op <;> first | trivial | exact h.1

/-! ## C83 -/

/-- Wherever the graph shows the node with a given UID, it is the same object. -/
def NodesShared : Prop := ∀ (d : Bool) (s : St), Reach Disciplined d s →
  ∀ (u : Uid) (p q : NPtr) (o : Order (Int × NPtr)), node s.g u = .ok p → q ∈ nodesList s.g o →
    s.mem.key q = u.str → q = p

/-- **C83 fails**: after an upsert, `Node` hands out the new object and `Nodes` the old one, so that a
DOTID set on the one is not seen on the other. -/
theorem c83_violated : ¬ NodesShared := by
  intro h
  have hr : Reach Disciplined true (step (run (ptrInit true) ptrOps) (.addNode 2 [.withUpsert])).1 := by
    refine .step _ _ (Reach.weaken noReplace_disciplined (ptr_reach true)) ?_ ?_
    · show (2 : Nat) < _; decide
    · exact ptr_fits_of (by decide)
  have := h true _ hr ⟨1, "a"⟩ 2 0 Order.id (by decide) (by decide) (by decide)
  revert this
  decide

/-- **C83**: what was added is what is handed out, as long as it is neither removed nor added over. -/
theorem c83_added {s : St} {p : NPtr} {opts : List Opt} (hp : s.mem.NodeOk p)
    (hok : (addNode s.mem s.g p opts).1 = .ok ()) (ops : List Op)
    (hkeep : Allowed (KeepsNode p) (step s (.addNode p opts)).1 ops) :
    node (run (step s (.addNode p opts)).1 ops).g (s.mem.node p).uid = .ok p := by
  have hfirst : (addNode s.mem s.g p opts).2.nodes.get? (s.mem.key p) = some p := by
    revert hok
    unfold addNode
    cases hb : s.g.b.nodes.get? (s.mem.id p) with
    | some q =>
      simp only []
      cases s.g.nodes.get? (s.mem.key p) with
      | none => intro _; simp
      | some r =>
        by_cases hu : (Graph.applyAll opts).upsert = false
        · simp only [if_pos hu]; exact fun e => nomatch e
        · simp only [if_neg hu]; intro _; simp
    | none =>
      simp only [Builder.addNode, hb]
      intro _; simp
  have hall : ∀ (ops : List Op) (t : St), t.mem.NodeOk p → t.mem.key p = s.mem.key p →
      Allowed (KeepsNode p) t ops → t.g.nodes.get? (s.mem.key p) = some p →
      (run t ops).g.nodes.get? (s.mem.key p) = some p := by
    intro ops
    induction ops with
    | nil => exact fun _ _ _ _ h => h
    | cons op ops ih =>
      intro t hok hk hr ht
      refine ih _ (step_node t op hok).1 ((step_key t op hok).trans hk) hr.2.2 ?_
      have h0 := hr.2.1
      cases op with
      | addNode q opts =>
        simp only [KeepsNode] at h0
        have hset : ∀ n : GoMap String NPtr, n.get? (s.mem.key p) = some p →
            (n.set (t.mem.key q) q).get? (s.mem.key p) = some p := by
          intro n hn
          rw [GoMap.get?_set]
          by_cases hq : s.mem.key p = t.mem.key q
          · rw [if_pos hq, h0 (hq.symm.trans hk.symm)]
          · rw [if_neg hq]; exact hn
        show (addNode t.mem t.g q opts).2.nodes.get? _ = _
        unfold addNode
        cases hb : t.g.b.nodes.get? (t.mem.id q) with
        | none => simp only [Builder.addNode, hb]; exact hset _ ht
        | some r =>
          simp only []
          cases t.g.nodes.get? (t.mem.key q) with
          | none => exact hset _ ht
          | some r' =>
            simp only []
            split
            · exact ht
            · exact hset _ (hset _ ht)
      | removeNode u =>
        simp only [KeepsNode, hk] at h0
        show (removeNode t.mem t.g u).nodes.get? _ = _
        unfold removeNode
        cases t.g.nodes.get? u.str with
        | none => exact ht
        | some q =>
          simp only [GoMap.get?_del]
          rw [if_neg (fun e => h0 e.symm)]
          exact ht
      | link fresh a f t' opts =>
        rcases link_cases t.mem t.g fresh a f t' opts with ⟨r, -, -, -, h⟩ | ⟨p, q, -, -, -, -, h⟩
        · simp only [step, h]; exact ht
        · simp only [step, h]; split <;> exact ht
      | unlink f t' =>
        show (unlink t.mem t.g f t').nodes.get? _ = _
        unfold unlink
        cases t.g.nodes.get? f.str with
        | none => exact ht
        | some p =>
          cases t.g.nodes.get? t'.str with
          | none => exact ht
          | some q => exact ht
      | makeNode => exact ht
      | newNode => exact ht
      | addForeign => exact ht
      | edge => exact ht
      | setNodeDOT => exact ht
      | setEdgeDOT => exact ht
      | env => exact ht
  unfold node
  rw [show (s.mem.node p).uid.str = s.mem.key p from rfl,
    hall ops (step s (.addNode p opts)).1 hp rfl hkeep hfirst]

/-- **C83, what holds**: unless a node is replaced, all handles to it are the same object: those from
`Node`, `Nodes` and `From`, and the ends of edges from `Edge` and `Edges`. -/
theorem c83_nodes_partial {d : Bool} {s : St} (hr : Reach NoReplace d s) :
    (∀ o p, p ∈ nodesList s.g o ↔ node s.g (s.mem.node p).uid = .ok p) ∧
    (∀ o u p, p ∈ fromList s.mem s.g o u → node s.g (s.mem.node p).uid = .ok p) ∧
    (∀ u v e m', edge s.mem s.g u v = (.ok e, m') →
      node s.g u = .ok (m'.edge e).src ∧ node s.g v = .ok (m'.edge e).dst) ∧
    (∀ o e, e ∈ edgesList s.mem s.g o →
      node s.g (s.mem.node (s.mem.edge e).src).uid = .ok (s.mem.edge e).src ∧
      node s.g (s.mem.node (s.mem.edge e).dst).uid = .ok (s.mem.edge e).dst) := by
  have hv := ptr_reach_noReplace hr
  have hx := Graph.wgExact_reach hv
  have hends : ∀ u v x, Graph.edge (absG s.mem s.g) u v = .ok x →
      Graph.node (absG s.mem s.g) u = .ok x.src ∧ Graph.node (absG s.mem s.g) v = .ok x.dst := by
    intro u v x hxe
    obtain ⟨f, t, hf, ht, hw⟩ := Graph.edge_ok.mp hxe
    have hE := hx.ends _ _ _ hw
    have h1 := (hx.same f).mp (by rw [hx.inv.keyOf _ _ hf]; exact hf)
    have h2 := (hx.same t).mp (by rw [hx.inv.keyOf _ _ ht]; exact ht)
    have e1 : f = x.src := Option.some.inj (h1.symm.trans hE.1)
    have e2 : t = x.dst := Option.some.inj (h2.symm.trans hE.2)
    exact ⟨(hx.inv.node_eq _ _).mpr (e1 ▸ hf), (hx.inv.node_eq _ _).mpr (e2 ▸ ht)⟩
  refine ⟨fun o p => ?_, fun o u p hp => ?_, fun u v e m' he => ?_, fun o e he => ?_⟩
  · rw [ptr_mem_nodes s.mem s.g o Order.id p, ← ptr_node' (m := s.mem)]
    exact (c17_agree_partial hv Order.id).1 _
  · rw [ptr_mem_from s.mem s.g o Order.id u p] at hp
    exact ptr_node'.mp (((c24_from_exact hv Order.id u).1 _).mp hp).1
  · have h := edge_abs s.mem s.g u v
    cases hxe : Graph.edge (absG s.mem s.g) u v with
    | err x => rw [hxe] at h; rw [h] at he; cases he
    | panic => rw [hxe] at h; exact h.elim
    | ok x =>
      rw [hxe] at h
      obtain ⟨f, t, -, -, -, h | h⟩ := h
      · rw [h.1] at he
        cases he
        have := hends u v x hxe
        rw [h.2] at this
        exact ⟨ptr_node'.mp this.1, ptr_node'.mp this.2⟩
      · rw [h.1] at he
        cases he
        have := hends u v x hxe
        rw [h.2.1] at this
        rw [Mem.reversed, edge_allocEdge_new]
        exact ⟨ptr_node'.mp this.1, ptr_node'.mp this.2⟩
  · have hm : absE s.mem e ∈ Graph.edgesList (absG s.mem s.g) (edgeOrder s.mem o) := by
      rw [edgesList_abs]
      exact List.mem_map.mpr ⟨e, he, rfl⟩
    have := (c25_edges (hv.mono Spec.Graph.NoReplace.disciplined) (edgeOrder s.mem o)).1 _ hm
    have := hends _ _ _ this
    exact ⟨ptr_node'.mp this.1, ptr_node'.mp this.2⟩

/-- **C83** for new nodes: `NewNode` hands out the object of the graph if the graph has a node with the entity's
UID, and otherwise an object nobody had before. Adding that one, `Node` and `Nodes` hand it out. -/
theorem c83_new {P : St → Op → Prop} {d : Bool} {s : St} (hr : Reach P d s) {o : Order (Int × Unit)}
    {e : Graph.Ent} {opts : List Opt} {p : NPtr} (h : (step s (.newNode o e opts)).2 = .node (.ok p)) :
    node s.g e.uid = .ok p ∨
    ((∀ q, node s.g e.uid ≠ .ok q) ∧ ¬ s.mem.NodeOk p ∧ (step s (.newNode o e opts)).1.mem.NodeOk p ∧
      ((step s (.newNode o e opts)).1.mem.node p).uid = e.uid ∧
      ∀ opts', let t := step (step s (.newNode o e opts)).1 (.addNode p opts')
        t.2 = .unit (.ok ()) ∧ node t.1.g e.uid = .ok p ∧ ∀ o', p ∈ nodesList t.1.g o') := by
  have hinv := (Graph.gonumInv_reach (ptr_reach_any hr)).1
  have hN : (newNode s.mem s.g o e opts).1 = .ok p := by
    simp only [step] at h
    exact Out.node.inj h
  simp only [step]
  revert hN
  unfold newNode
  cases hid : s.g.b.newNodeID o with
  | none => intro hN; cases hN
  | some id =>
    have hfree : s.g.b.nodes.get? id = none := by
      have h1 := Gonum.newNodeID_fresh (absB s.mem s.g.b) hinv o id (by
        rw [← hid]
        simp [Gonum.Builder.newNodeID, Builder.newNodeID, absB])
      simpa [absB] using h1
    simp only []
    have hk : (makeNode s.mem id e opts).2.key (makeNode s.mem id e opts).1 = e.uid.str := by
      simp [makeNode, Mem.key, node_allocNode_new, Graph.mkNode, Graph.Node.key]
    cases hg : s.g.nodes.get? ((makeNode s.mem id e opts).2.key (makeNode s.mem id e opts).1) with
    | some q =>
      intro hN
      cases hN
      left
      unfold node
      rw [← hk, hg]
    | none =>
      intro hN
      obtain rfl : (makeNode s.mem id e opts).1 = p := by simpa using hN
      have hg' := hg
      rw [hk] at hg'
      have hi : (makeNode s.mem id e opts).2.id (makeNode s.mem id e opts).1 = id := by
        simp [makeNode, Mem.id, node_allocNode_new, Graph.mkNode]
      refine .inr ⟨fun q => ?_, ?_, ?_, ?_, fun opts' => ?_⟩
      · unfold node; rw [hg']; intro h; cases h
      · exact Nat.lt_irrefl _
      · exact (nodeOk_allocNode ..).2 (.inr rfl)
      · simp [makeNode, node_allocNode_new, Graph.mkNode, Graph.Node.uid]
      · simp only [addNode, hi, hfree, Builder.addNode, true_and]
        refine ⟨by simp [node, hk], fun o' => ?_⟩
        simp only [nodesList, Builder.allNodes, List.mem_map]
        exact ⟨(id, (makeNode s.mem id e opts).1), (o'.mem_run _ _).2 ((GoMap.get?_eq_some _ _ _).1 (by simp)), rfl⟩

/-- Non-vacuity of C83 for new nodes: the entity of a node there and one that is not, in the graph above, where
the ID 0 is taken. -/
example : (step (run (ptrInit true) ptrOps) (.newNode Order.id ⟨⟨5, "a"⟩, "x", 0, none⟩ [])).2 = .node (.ok 0) ∧
    (step (run (ptrInit true) ptrOps) (.newNode Order.id ⟨⟨5, "c"⟩, "x", 0, none⟩ [])).2 = .node (.ok 3) := by
  decide

/-- Non-vacuity of C83. -/
example : Reach NoReplace false (run (ptrInit false) ptrOps) ∧
    nodesList (run (ptrInit false) ptrOps).g Order.id = [1, 0] ∧
    node (run (ptrInit false) ptrOps).g ⟨1, "a"⟩ = .ok 0 ∧
    fromList (run (ptrInit false) ptrOps).mem (run (ptrInit false) ptrOps).g Order.id ⟨2, "b"⟩ = [0] ∧
    (addNode ptrMem (ptrInit false).g 0 []).1 = .ok () ∧
    Allowed (KeepsNode 0) (step (ptrInit false) (.addNode 0 [])).1
      [.addNode 1 [], .setNodeDOT 0 "x", .addNode 0 [.withUpsert], .removeNode ⟨2, "b"⟩] :=
  ⟨ptr_reach false, by decide, by decide, by decide, by decide,
    ⟨by show (1 : Nat) < _; decide, by show _ → _; decide, by show (0 : Nat) < _; decide, trivial,
      by show (0 : Nat) < _; decide, fun _ => rfl, trivial, by show _ ≠ _; decide, trivial⟩⟩

/-! ## C84 -/

/-- A DOTID set on the edge `Edge` handed out is the DOTID of the edge the next `Edge` hands out. -/
def EdgesShared : Prop := ∀ (d : Bool) (s : St), Reach Disciplined d s →
  ∀ (u v : Uid) (e e' : EPtr) (m m' : Mem) (x : String), edge s.mem s.g u v = (.ok e, m) →
    edge (m.setEdgeDOT e x) s.g u v = (.ok e', m') → (m'.edge e').dotid = x

/-- **C84 fails** in undirected graphs: asked from the other end, `Edge` hands out a copy, and a DOTID set
on it is lost. -/
theorem c84_violated : ¬ EdgesShared := by
  intro h
  have := h false _ (Reach.weaken noReplace_disciplined (ptr_reach false)) ⟨2, "b"⟩ ⟨1, "a"⟩ 1 2 _ _ "new"
    (by rfl) (by rfl)
  revert this
  decide

theorem link_keeps {d : Bool} {s : Graph.St} (hr : Spec.Graph.Reach Spec.Graph.Disciplined d s) (fresh : Uid)
    (a : Nat) (u v : Uid) (opts : List Opt) {f t : Uid} {e : Graph.Edge} (he : Graph.edge s.g f t = .ok e) :
    Graph.edge (Graph.link s.heap s.g fresh a u v opts).2.1 f t = .ok e := by
  have hinv := Graph.wgInv_reach hr
  cases hu : Graph.node s.g u with
  | panic => unfold Graph.node at hu; split at hu <;> cases hu
  | err x =>
    have : x = .nodeNotFound := by unfold Graph.node at hu; split at hu <;> cases hu; rfl
    rw [link_missing fresh a opts (.inl (this ▸ hu))]; exact he
  | ok n =>
  cases hv : Graph.node s.g v with
  | panic => unfold Graph.node at hv; split at hv <;> cases hv
  | err x =>
    have : x = .nodeNotFound := by unfold Graph.node at hv; split at hv <;> cases hv; rfl
    rw [link_missing fresh a opts (.inr (this ▸ hv))]; exact he
  | ok n' =>
  by_cases hx : ∃ x, Graph.edge s.g u v = .ok x
  · obtain ⟨x, hx⟩ := hx
    unfold Graph.link Graph.linkLookup
    rw [hx]
    exact he
  · by_cases huv : u.str = v.str
    · have hp := (c20_link_panic_partial hr fresh a u v opts).mpr ⟨huv, n, hu⟩
      revert hp
      unfold Graph.link
      cases Graph.linkLookup s.g u v with
      | done r => exact fun _ => he
      | create x y =>
        simp only [Graph.linkApply]
        cases s.g.b.setWeightedEdge (Graph.mkEdge s.heap fresh a x y opts).1 with
        | none => exact fun _ => he
        | some b => exact fun h => nomatch h
    · obtain ⟨e', g', h', hl, -, -, -, -, -, -, -, hframe⟩ :=
        (c19_link hr fresh a u v huv opts).2.2 n n' hu hv (fun x h => hx ⟨x, h⟩)
      rw [hl]
      show Graph.edge g' f t = _
      have hc : ∀ {p q p' q' : Uid}, p.str = p'.str → q.str = q'.str →
          Graph.edge s.g p q = Graph.edge s.g p' q' := by
        intro p q p' q' h1 h2
        unfold Graph.edge
        rw [h1, h2]
      rw [hframe f t]
      · exact he
      · rintro ⟨h1, h2⟩
        exact hx ⟨e, (hc h1 h2).symm.trans he⟩
      · rintro ⟨rfl, h1, h2⟩
        obtain ⟨e2, he2, -⟩ := c23_undirected (hr.mono fun _ _ _ => trivial) f t e he
        exact hx ⟨e2, (hc h2 h1).symm.trans he2⟩

theorem edge_keeps {d : Bool} {s : St} (hr : Reach Disciplined d s) {op : Op} (hu : Uses s op)
    (hd : Disciplined s op) {f t : Uid} (hk : Keeps f t op) {x : Graph.Edge}
    (hx : Graph.edge (abs s).g f t = .ok x) : Graph.edge (abs (step s op).1).g f t = .ok x := by
  have hv := ptr_reach_disciplined hr
  rw [sim_step (wf_reach hr) op hu]
  cases op with
  | addNode p opts =>
    have hfit := ptr_fits hd s.mem.heap
    have h18 := c18_addNode_partial hv (absN s.mem p) opts hfit
    show Graph.edge (Graph.addNode (absG s.mem s.g) (absN s.mem p) opts).2 f t = .ok x
    by_cases hc : Graph.node (absG s.mem s.g) (absN s.mem p).uid = .err .nodeNotFound ∨ Opt.withUpsert ∈ opts
    · exact ((h18.2 hc).2.2.2 f t x).mpr hx
    · have h1 : ∃ n, Graph.node (absG s.mem s.g) (absN s.mem p).uid = .ok n := by
        unfold Graph.node at hc ⊢
        cases hg : (absG s.mem s.g).nodes.get? (absN s.mem p).uid.str with
        | none => rw [hg] at hc; exact absurd (.inl rfl) hc
        | some n => exact ⟨n, rfl⟩
      have := h18.1 h1 (fun h => hc (.inr h))
      rw [show Graph.addNode (absG s.mem s.g) (absN s.mem p) opts =
        (.err .duplicateNode, absG s.mem s.g) from this]
      exact hx
  | removeNode u =>
    have := (c22_removeNode hv u).2.2.2.2.2.1 f t (Ne.symm hk.1) (Ne.symm hk.2)
    exact this.trans hx
  | link fresh a u v opts =>
    by_cases he : Graph.edge (absG s.mem s.g) u v = .err .edgeNotExist
    · have habs : ∃ h fr uu os, absOps s (.link fresh a u v opts) = [.env h, .link fr uu u v os] := by
        unfold absOps
        simp only [he]
        exact ⟨_, _, _, _, rfl⟩
      obtain ⟨h, fr, uu, os, habs⟩ := habs
      rw [habs]
      exact link_keeps (.step _ (.env h) hv trivial) fr uu u v os hx
    · have habs : absOps s (.link fresh a u v opts) = [] := by
        unfold absOps
        simp only []
      rw [habs]
      exact hx
  | unlink u v =>
    have := (c21_unlink hv u v).2.2.2.2.1 f t (fun h => hk.1 ⟨h.1.symm, h.2.symm⟩)
      (fun h => hk.2 ⟨h.2.2.symm, h.2.1.symm⟩)
    exact this.trans hx
  | _ => exact hx

/-- What `Edge` hands out for the pair whose stored edge is `e`. -/
theorem ptr_edge_of {P : St → Op → Prop} {d : Bool} {s : St} (hr : Reach P d s) {f t : Uid} {e : EPtr}
    (he : Graph.edge (abs s).g f t = .ok (absE s.mem e)) : edge s.mem s.g f t = (.ok e, s.mem) := by
  have h := edge_abs s.mem s.g f t
  rw [show Graph.edge (absG s.mem s.g) f t = _ from he] at h
  obtain ⟨p, q, hp, hq, -, h | h⟩ := h
  · exact h.1
  · obtain ⟨f', t', hf', -, hw⟩ := Graph.edge_ok.mp he
    have h1 := (Gonum.weightedEdge_ends (Graph.gonumInv_reach (ptr_reach_any hr)).1 hw).1
    have h2 : (g : WG) → g.nodes.get? f.str = some p → (absG s.mem g).nodes.get? f.str = some f' →
        f' = absN s.mem p := by
      intro g a b
      simp only [absG, GoMap.get?_mapVals, a] at b
      exact (Option.some.inj b).symm
    rw [h2 s.g hp hf'] at h1
    exact absurd h1 h.2.2.1

theorem ptr_edge_stored {m : Mem} {g : WG} {u v : Uid} {e : EPtr} (he : edge m g u v = (.ok e, m)) :
    Graph.edge (absG m g) u v = .ok (absE m e) ∧ ∃ i j, stored g.b i j = some e := by
  have h := edge_abs m g u v
  cases hx : Graph.edge (absG m g) u v with
  | err x => rw [hx] at h; rw [h] at he; cases he
  | panic => rw [hx] at h; exact h.elim
  | ok x =>
    rw [hx] at h
    obtain ⟨f, t, -, -, hst, h | h⟩ := h
    · rw [h.1] at he
      have : x.uid.addr = e := by injection he with h1 _; exact Res.ok.inj h1
      rw [this] at h hst
      exact ⟨congrArg _ h.2, _, _, hst⟩
    · rw [h.1] at he
      have : (m.reversed x.uid.addr).2 = m := congrArg Prod.snd he
      have := congrArg (fun m => m.edges.length) this
      simp [Mem.reversed, Mem.allocEdge] at this

/-- **C84, what holds in directed graphs**: `Edge` makes no objects, and the edges it hands out are those
`Edges` lists. -/
theorem c84_directed_partial {s : St} (hr : Reach Disciplined true s) (u v : Uid) :
    (edge s.mem s.g u v).2 = s.mem ∧
    ∀ e, (edge s.mem s.g u v).1 = .ok e → ∀ o, e ∈ edgesList s.mem s.g o := by
  have hv := ptr_reach_disciplined hr
  have hd := (Graph.gonumInv_reach hv).2
  have hstored : (edge s.mem s.g u v).2 = s.mem := by
    have h := edge_abs s.mem s.g u v
    split at h
    · obtain ⟨f, t, -, -, -, h | ⟨-, -, -, ed, he⟩⟩ := h
      · rw [h.1]
      · have : (abs s).g.b.isDirected = false := by
          simp only [abs, absG, absB, Gonum.Builder.isDirected, he, absEdges]
        rw [this] at hd; cases hd
    · rw [h]
    · exact h.elim
  refine ⟨hstored, fun e he o => ?_⟩
  obtain ⟨hx, -⟩ := ptr_edge_stored (m := s.mem) (g := s.g) (u := u) (v := v) (e := e)
    (by rw [← he]; exact Prod.ext rfl hstored)
  rcases ((c25_edges hv (edgeOrder s.mem o)).2.1 u v _ hx).2 with h | h
  · rw [show (abs s).g = absG s.mem s.g from rfl, edgesList_abs] at h
    obtain ⟨e', h1, h2⟩ := List.mem_map.mp h
    rw [← absE_inj h2]; exact h1
  · cases h.1

/-- **C84, what holds for `Edges`**: asked from the source of an edge that `Edges` lists to its target,
`Edge` hands out that object and makes none. -/
theorem c84_edges_partial {d : Bool} {s : St} (hr : Reach Disciplined d s) (o : EdgeOrder) (e : EPtr)
    (he : e ∈ edgesList s.mem s.g o) :
    edge s.mem s.g (s.mem.node (s.mem.edge e).src).uid (s.mem.node (s.mem.edge e).dst).uid =
      (.ok e, s.mem) := by
  have hm : absE s.mem e ∈ Graph.edgesList (absG s.mem s.g) (edgeOrder s.mem o) := by
    rw [edgesList_abs]
    exact List.mem_map.mpr ⟨e, he, rfl⟩
  exact ptr_edge_of hr ((c25_edges (ptr_reach_disciplined hr) (edgeOrder s.mem o)).1 _ hm)

/-- **C84, what holds for `Link`**: an edge it creates is a new object, and it is the object `Edge` and
`Link` hand out for the same two UIDs in the same order from then on, as long as the edge is there. -/
theorem c84_link_partial {d : Bool} {s : St} (hr : Reach Disciplined d s) {fresh : Uid} {a : Nat} {f t : Uid}
    {opts : List Opt} {e : EPtr} {g' : WG} {m' : Mem}
    (hno : (edge s.mem s.g f t).1 = .err .edgeNotExist)
    (hl : link s.mem s.g fresh a f t opts = (.ok e, g', m')) (ops : List Op)
    (hops : Allowed Disciplined ⟨m', g'⟩ ops) (hk : ∀ op ∈ ops, Keeps f t op) :
    ¬ s.mem.EdgeOk e ∧ m'.EdgeOk e ∧
    edge (run ⟨m', g'⟩ ops).mem (run ⟨m', g'⟩ ops).g f t = (.ok e, (run ⟨m', g'⟩ ops).mem) ∧
    ∀ fresh a opts, link (run ⟨m', g'⟩ ops).mem (run ⟨m', g'⟩ ops).g fresh a f t opts =
      (.ok e, (run ⟨m', g'⟩ ops).g, (run ⟨m', g'⟩ ops).mem) := by
  have hstep : (step s (.link fresh a f t opts)).1 = ⟨m', g'⟩ := by simp only [step, hl]
  have hr1 : Reach Disciplined d ⟨m', g'⟩ := hstep ▸ .step s (.link fresh a f t opts) hr trivial trivial
  rcases link_cases s.mem s.g fresh a f t opts with ⟨r, -, h1, h2, -⟩ | ⟨p, q, hx, -, hp, hq, h⟩
  · exact absurd (h1.symm.trans hno) h2
  · rw [h] at hl
    cases hb : s.g.b.setWeightedEdge (makeEdge s.mem fresh a p q opts).2
        (makeEdge s.mem fresh a p q opts).1 with
    | none => rw [hb] at hl; cases hl
    | some b' =>
      rw [hb] at hl
      simp only [Prod.mk.injEq, Res.ok.injEq] at hl
      obtain ⟨h1, h2, h3⟩ := hl
      obtain ⟨hm1, hm2, hm3, -⟩ := makeEdge_new s.mem fresh a p q opts
      rw [h1, h3] at hm1
      rw [h1] at hm2
      rw [h1, h3] at hm3
      -- in the value model
      have habs : (absB m' s.g.b).setWeightedEdge (absE m' e) = some (absB m' b') := by
        rw [absB_setWeightedEdge, ← h3, ← h1, hb]
        rfl
      have hev : Evolves s.mem m' := h3 ▸ evolves_makeEdge s.mem fresh a p q opts
      have hpi : (absE m' e).src = absN m' p := by unfold absE; rw [hm3]
      have hqi : (absE m' e).dst = absN m' q := by unfold absE; rw [hm3]
      have hedge : Graph.edge (abs ⟨m', g'⟩).g f t = .ok (absE m' e) := by
        refine Graph.edge_ok.mpr ⟨absN m' p, absN m' q, ?_, ?_, ?_⟩
        · rw [← h2]; simp only [abs, absG, GoMap.get?_mapVals, hp]; rfl
        · rw [← h2]; simp only [abs, absG, GoMap.get?_mapVals, hq]; rfl
        · rw [← h2]
          show (absB m' b').weightedEdge _ _ = _
          rw [Gonum.weightedEdge_set habs, if_pos ⟨by rw [hpi], by rw [hqi]⟩]
      have hall : ∀ (ops : List Op) (s : St), Reach Disciplined d s → Allowed Disciplined s ops →
          (∀ op ∈ ops, Keeps f t op) → s.mem.EdgeOk e → Graph.edge (abs s).g f t = .ok (absE s.mem e) →
          Reach Disciplined d (run s ops) ∧
          Graph.edge (abs (run s ops)).g f t = .ok (absE (run s ops).mem e) := by
        intro ops
        induction ops with
        | nil => exact fun _ h _ _ _ h' => ⟨h, h'⟩
        | cons op ops ih =>
          intro s hr ha hk hok he
          have hev := wf_step (wf_reach hr) op ha.1
          refine ih _ (.step s op hr ha.1 ha.2.1) ha.2.2 (fun op h => hk op (.tail _ h))
            (step_edge s op hok).1 ?_
          rw [hev.2.absE (wf_reach hr).sound hok]
          exact edge_keeps hr ha.1 ha.2.1 (hk op (.head _)) he
      obtain ⟨hr2, he2⟩ := hall ops _ hr1 hops hk hm1 hedge
      have hfin := ptr_edge_of hr2 he2
      refine ⟨hm2, hm1, hfin, fun fresh a opts => ?_⟩
      unfold link
      rw [hfin]

/-- **C84, what holds in undirected graphs**: if from one end `Edge` hands out an edge of the graph
itself, then from the other end it hands out a new object each time: the same edge the other way round,
with the DOTID the edge has now. The graph's own objects stay as they are. -/
theorem c84_reverse_partial {s : St} (hr : Reach Any false s) (u v : Uid) (e : EPtr)
    (he : edge s.mem s.g u v = (.ok e, s.mem)) :
    ∃ e' m', edge s.mem s.g v u = (.ok e', m') ∧ ¬ s.mem.EdgeOk e' ∧ m'.EdgeOk e' ∧
      m'.edge e' = { s.mem.edge e with src := (s.mem.edge e).dst, dst := (s.mem.edge e).src } ∧
      m'.nodes = s.mem.nodes ∧ m'.heap = s.mem.heap ∧
      ∀ p, s.mem.EdgeOk p → m'.edge p = s.mem.edge p := by
  have hv := ptr_reach_any hr
  obtain ⟨hinv, hd⟩ := Graph.gonumInv_reach hv
  obtain ⟨hx, i, j, hst⟩ := ptr_edge_stored he
  obtain ⟨f, t, hf, ht, hw⟩ := Graph.edge_ok.mp hx
  have hends := Gonum.weightedEdge_ends hinv hw
  have hrev : Graph.edge (absG s.mem s.g) v u = .ok (absE s.mem e).rev := by
    refine Graph.edge_ok.mpr ⟨t, f, ht, hf, ?_⟩
    have := Gonum.weightedEdge_symm hinv hd f.id t.id
    rw [show (abs s).g.b.weightedEdge f.id t.id = _ from hw] at this
    exact this
  have h := edge_abs s.mem s.g v u
  rw [hrev] at h
  obtain ⟨p, q, hp, hq, -, h | h⟩ := h
  · have h2 : (absE s.mem e).rev = absE s.mem e := h.2
    have h3 : (absE s.mem e).dst = (absE s.mem e).src := congrArg Graph.Edge.src h2
    have h4 : f.id = t.id := by rw [← hends.1, ← hends.2.1, h3]
    exact absurd h4 hends.2.2.1
  · have hg := grows_reversed s.mem e
    exact ⟨_, _, h.1, by simp [Mem.reversed, Mem.allocEdge, Mem.EdgeOk, Graph.Edge.rev, absE],
      (edgeOk_allocEdge _ _ _).mpr (.inr rfl), edge_allocEdge_new _ _, rfl, rfl,
      fun p hp => (hg.edge hp).2⟩

/-- Non-vacuity of C84. -/
example : (edge (run (ptrInit false) (ptrOps.take 2)).mem (run (ptrInit false) (ptrOps.take 2)).g
      ⟨1, "a"⟩ ⟨2, "b"⟩).1 = .err .edgeNotExist ∧
    (link (run (ptrInit false) (ptrOps.take 2)).mem (run (ptrInit false) (ptrOps.take 2)).g ⟨9, "e"⟩ 0
      ⟨1, "a"⟩ ⟨2, "b"⟩ []).1 = .ok 0 ∧
    edgesList (run (ptrInit false) ptrOps).mem (run (ptrInit false) ptrOps).g EdgeOrder.id = [0] ∧
    (edge (run (ptrInit false) ptrOps).mem (run (ptrInit false) ptrOps).g ⟨1, "a"⟩ ⟨2, "b"⟩).1 = .ok 0 ∧
    (edge (run (ptrInit false) ptrOps).mem (run (ptrInit false) ptrOps).g ⟨2, "b"⟩ ⟨1, "a"⟩).1 = .ok 1 ∧
    (edge (run (ptrInit true) ptrOps).mem (run (ptrInit true) ptrOps).g ⟨1, "a"⟩ ⟨2, "b"⟩).1 = .ok 0 ∧
    (edge (run (ptrInit true) ptrOps).mem (run (ptrInit true) ptrOps).g ⟨2, "b"⟩ ⟨1, "a"⟩).1 =
      .err .edgeNotExist ∧
    Allowed Disciplined (run (ptrInit false) ptrOps) [.setEdgeDOT 0 "x", .edge ⟨2, "b"⟩ ⟨1, "a"⟩] ∧
    Keeps ⟨1, "a"⟩ ⟨2, "b"⟩ (.edge ⟨2, "b"⟩ ⟨1, "a"⟩) :=
  ⟨by decide, by decide, by decide, by decide, by decide, by decide, by decide,
    ⟨by show (0 : Nat) < _; decide, trivial, trivial, trivial, trivial⟩, trivial⟩

/-! ## C85 -/

/-- **C85**: a program that never calls `SetDOTID` gets the same answers from all other calls and ends up
with the same graph; objects differ in nothing but their DOTIDs. -/
theorem c85_erase (s : St) (ops : List Op) :
    let ops' := ops.filter fun op => !isSet op
    ((ops.zip (outs s ops)).filter (fun x => !isSet x.1)).map Prod.snd = outs s ops' ∧
    (run s ops).g = (run s ops').g ∧ (run s ops).mem.heap = (run s ops').mem.heap ∧
    (run s ops).mem.nodes.length = (run s ops').mem.nodes.length ∧
    (run s ops).mem.edges.length = (run s ops').mem.edges.length ∧
    (∀ p, { (run s ops).mem.node p with dotid := "" } = { (run s ops').mem.node p with dotid := "" }) ∧
    (∀ p, { (run s ops).mem.edge p with dotid := "" } = { (run s ops').mem.edge p with dotid := "" }) ∧
    (∀ o, edgesList (run s ops).mem (run s ops).g o = edgesList (run s ops').mem (run s ops').g o) ∧
    (∀ o u, fromList (run s ops).mem (run s ops).g o u = fromList (run s ops').mem (run s ops').g o u) := by
  intro ops'
  obtain ⟨h1, h2, h3⟩ := like_run ops (s := s) (s' := s) rfl rfl
  refine ⟨h3, h2, h1.heap, h1.nodesLen, h1.edgesLen, h1.node, h1.edge, fun o => ?_, fun o u => ?_⟩
  · rw [h2]; exact h1.edgesList _ o
  · rw [h2]; exact h1.fromList _ o u

theorem lastNodeDOT_cons (p : NPtr) (old : String) (op : Op) (ops : List Op) :
    lastNodeDOT p old (op :: ops) = lastNodeDOT p (match op with
      | .setNodeDOT q x => if q = p then x else old
      | _ => old) ops := by
  unfold lastNodeDOT
  cases op with
  | setNodeDOT q x =>
    simp only [List.filterMap_cons]
    by_cases hq : q = p
    · simp only [if_pos hq, List.getLast?_cons, Option.getD_some]
    · simp only [if_neg hq]
  | _ => rfl

theorem lastEdgeDOT_cons (p : EPtr) (old : String) (op : Op) (ops : List Op) :
    lastEdgeDOT p old (op :: ops) = lastEdgeDOT p (match op with
      | .setEdgeDOT q x => if q = p then x else old
      | _ => old) ops := by
  unfold lastEdgeDOT
  cases op with
  | setEdgeDOT q x =>
    simp only [List.filterMap_cons]
    by_cases hq : q = p
    · simp only [if_pos hq, List.getLast?_cons, Option.getD_some]
    · simp only [if_neg hq]
  | _ => rfl

/-- **C85** for nodes: the DOTID of a node is the one set last, whatever else is called. -/
theorem c85_node (s : St) (p : NPtr) (hp : s.mem.NodeOk p) (ops : List Op) :
    (run s ops).mem.node p = { s.mem.node p with dotid := lastNodeDOT p (s.mem.node p).dotid ops } := by
  induction ops generalizing s with
  | nil => rfl
  | cons op ops ih =>
    obtain ⟨h1, h2⟩ := step_node s op hp
    show (run (step s op).1 ops).mem.node p = _
    rw [ih _ h1, h2, lastNodeDOT_cons]
    cases op <;> try rfl
    simp only []
    split <;> rfl

/-- **C85** for edges. -/
theorem c85_edge (s : St) (p : EPtr) (hp : s.mem.EdgeOk p) (ops : List Op) :
    (run s ops).mem.edge p = { s.mem.edge p with dotid := lastEdgeDOT p (s.mem.edge p).dotid ops } := by
  induction ops generalizing s with
  | nil => rfl
  | cons op ops ih =>
    obtain ⟨h1, h2⟩ := step_edge s op hp
    show (run (step s op).1 ops).mem.edge p = _
    rw [ih _ h1, h2, lastEdgeDOT_cons]
    cases op <;> try rfl
    simp only []
    split <;> rfl

/-- Non-vacuity of C85: a history that sets DOTIDs in between other calls. -/
example :
    let ops : List Op := [.setNodeDOT 0 "x", .edge ⟨2, "b"⟩ ⟨1, "a"⟩, .setEdgeDOT 0 "y", .setNodeDOT 0 "z",
      .edge ⟨2, "b"⟩ ⟨1, "a"⟩]
    let s := run (ptrInit false) ptrOps
    ops.filter (fun op => !isSet op) = [.edge ⟨2, "b"⟩ ⟨1, "a"⟩, .edge ⟨2, "b"⟩ ⟨1, "a"⟩] ∧
    s.mem.NodeOk 0 ∧ s.mem.EdgeOk 0 ∧ lastNodeDOT 0 "a" ops = "z" ∧ lastEdgeDOT 0 "e" ops = "y" ∧
    ((run s ops).mem.node 0).dotid = "z" ∧ ((run s ops).mem.edge 1).dotid = "e" ∧
    ((run s ops).mem.edge 2).dotid = "y" :=
  ⟨rfl, by decide, by decide, by decide, by decide, by decide, by decide, by decide⟩

end Netscrape.Props
