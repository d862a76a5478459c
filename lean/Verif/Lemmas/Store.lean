import Verif.Spec.Store
import Verif.Props.SubGraph

/-!
# Facts about the store model
-/

namespace Netscrape.Store
open Netscrape.Graph (Ent Node Edge WG St Opt)
open Netscrape.Spec.Graph (Reach Fits NoReplace Disciplined)
open Netscrape.Spec.Store

/-- The ID allocator has handed out fewer than `k` different IDs, counting from 0. -/
structure Alloc (k : Nat) (b : Gonum.Builder) : Prop where
  low : -1 ≤ b.ids.max
  high : b.ids.max < k
  free : ∀ i x, b.ids.free.get? i = some x → i ≤ b.ids.max

/-- What every store state satisfies after at most `k` additions. -/
structure SInv (d : Bool) (k : Nat) (s : St) : Prop where
  reach : Reach NoReplace d s
  alloc : Alloc k s.g.b

theorem Alloc.mono {k k' : Nat} {b : Gonum.Builder} (h : Alloc k b) (hk : k ≤ k') : Alloc k' b :=
  ⟨h.low, by have := h.high; omega, h.free⟩

theorem SInv.mono {d : Bool} {k k' : Nat} {s : St} (h : SInv d k s) (hk : k ≤ k') : SInv d k' s :=
  ⟨h.reach, h.alloc.mono hk⟩

theorem SInv.disc {d : Bool} {k : Nat} {s : St} (h : SInv d k s) : Reach Disciplined d s :=
  h.reach.mono NoReplace.disciplined

theorem sInv_new (d : Bool) (h : Heap) (fresh : Uid) (opts : List Opt) :
    SInv d 0 ⟨h, Graph.new d fresh opts⟩ := by
  refine ⟨.init _ _ _, ?_⟩
  cases d <;> refine ⟨?_, ?_, ?_⟩ <;>
    simp [Graph.new, Graph.newWG, Gonum.newDirected, Gonum.newUndirected, Gonum.Ids.new]

theorem Alloc.newID {k : Nat} {b : Gonum.Builder} (h : Alloc k b) (hk : k < 2 ^ 63)
    (o : Order (Int × Unit)) : ∃ id, b.newNodeID o = some id ∧ id ≤ b.ids.max + 1 := by
  unfold Gonum.Builder.newNodeID
  split
  · exact ⟨0, rfl, by have := h.low; omega⟩
  · unfold Gonum.Ids.newID
    split
    · rename_i i u rest heq
      refine ⟨i, rfl, ?_⟩
      have hmem : (i, u) ∈ o.run b.ids.free.entries := by rw [heq]; simp
      rw [Order.mem_run, ← GoMap.get?_eq_some] at hmem
      have := h.free _ _ hmem
      omega
    · have := h.high
      rw [if_pos (by unfold Gonum.maxID; omega)]
      exact ⟨_, rfl, by omega⟩

theorem Alloc.add {k : Nat} {b b' : Gonum.Builder} {n : Node} (h : Alloc k b)
    (ha : b.addNode n = some b') (hid : n.id ≤ b.ids.max + 1) : Alloc (k + 1) b' := by
  unfold Gonum.Builder.addNode at ha
  split at ha
  · cases ha
  · cases ha
    have h1 := h.low
    have h2 := h.high
    refine ⟨?_, ?_, ?_⟩
    · simp only [Gonum.Ids.use]; split <;> omega
    · simp only [Gonum.Ids.use]; split <;> omega
    · intro i x hx
      simp only [Gonum.Ids.use, GoMap.get?_del] at hx ⊢
      split at hx
      · cases hx
      · have := h.free _ _ hx
        split <;> omega

theorem Alloc.remove {k : Nat} {b : Gonum.Builder} (h : Alloc k b) (hb : Gonum.Inv b) (id : Int) :
    Alloc k (b.removeNode id) := by
  unfold Gonum.Builder.removeNode
  split
  · exact h
  · rename_i n hn
    refine ⟨h.low, h.high, ?_⟩
    intro i x hx
    simp only [Gonum.Ids.release, GoMap.get?_set] at hx ⊢
    split at hx
    · rename_i hi; rw [hi]; exact hb.leMax _ _ hn
    · exact h.free _ _ hx

theorem Alloc.edge {k : Nat} {b b' : Gonum.Builder} {e : Edge} {x y : Node} (h : Alloc k b)
    (hs : b.setWeightedEdge e = some b') (hx : b.nodes.get? e.src.id = some x)
    (hy : b.nodes.get? e.dst.id = some y) : Alloc k b' := by
  have key : b'.ids = b.ids := by
    unfold Gonum.Builder.setWeightedEdge at hs
    split at hs
    · cases hs
    · rename_i hne
      cases hs
      have h1 : b.touch e.src = { b with nodes := b.nodes.set e.src.id e.src } := by
        simp [Gonum.Builder.touch, Gonum.Builder.addNode, hx]
      have h2 : (b.touch e.src).nodes.get? e.dst.id = some y := by
        rw [Gonum.touch_nodes, GoMap.get?_set, if_neg (Ne.symm hne)]; exact hy
      simp only
      rw [show (b.touch e.src).touch e.dst = { b.touch e.src with
        nodes := (b.touch e.src).nodes.set e.dst.id e.dst } by
          simp [Gonum.Builder.touch, Gonum.Builder.addNode]
          simp [Gonum.Builder.touch, Gonum.Builder.addNode] at h2
          simp [h2]]
      rw [h1]
  exact ⟨by rw [key]; exact h.low, by rw [key]; exact h.high, by rw [key]; exact h.free⟩

theorem applyAll_fields (opts : List SOpt) :
    (applyAll opts).upsert = upserts opts ∧ (applyAll opts).attrs = attrsOption opts := by
  have key : ∀ (opts : List SOpt) (o : Opts),
      (opts.foldl SOpt.apply o).upsert = (o.upsert || upserts opts) ∧
      (opts.foldl SOpt.apply o).attrs =
        ((opts.filterMap fun o => match o with | .withAttrs a => some a | _ => none).getLast?).getD
          o.attrs := by
    intro opts
    induction opts with
    | nil => intro o; simp [upserts]
    | cons x xs ih =>
      intro o
      rw [List.foldl_cons, (ih _).1, (ih _).2]
      cases x with
      | withUpsert => simp [SOpt.apply, upserts]
      | withAttrs a =>
        simp only [SOpt.apply, upserts, List.contains_cons]
        refine ⟨by simp; rfl, ?_⟩
        simp only [List.filterMap_cons, List.getLast?_cons]
        rfl
      | other => exact ⟨by simp [SOpt.apply, upserts], rfl⟩
  obtain ⟨h1, h2⟩ := key opts {}
  refine ⟨by simpa [applyAll] using h1, ?_⟩
  unfold applyAll attrsOption
  rw [h2]
  cases (opts.filterMap _).getLast? <;> rfl

theorem node_cases (g : WG) (u : Uid) :
    (∃ n, Graph.node g u = .ok n) ∨ Graph.node g u = .err .nodeNotFound := by
  unfold Graph.node
  split
  · exact .inl ⟨_, rfl⟩
  · exact .inr rfl

theorem get_ok (s : St) (u : Uid) (n : Node) : get s u = .ok n ↔ Graph.node s.g u = .ok n := by
  unfold get
  rcases node_cases s.g u with ⟨m, h⟩ | h <;> simp [h]

theorem get_err (s : St) (u : Uid) :
    get s u = .err .entityNotFound ↔ Graph.node s.g u = .err .nodeNotFound := by
  unfold get
  rcases node_cases s.g u with ⟨m, h⟩ | h <;> simp [h]

/-- Adding under a new UID. -/
theorem add_absent {d : Bool} {k : Nat} {s : St} (hs : SInv d k s) (hk : k < 2 ^ 63)
    (o : Order (Int × Unit)) (e : Ent) (opts : List SOpt)
    (habs : Graph.node s.g e.uid = .err .nodeNotFound) :
    ∃ n h' g', add s o e opts = (.ok (), ⟨h', g'⟩) ∧ (n.ent = e ∧ n.dotid = e.dot.getD e.uid.str) ∧
      (match attrsOption opts with
        | some r => n.attrs = r ∧ h' = s.heap
        | none => (n.attrs, h') = s.heap.alloc GoMap.empty) ∧
      Graph.node g' e.uid = .ok n ∧
      (∀ u : Uid, u.str ≠ e.uid.str → Graph.node g' u = Graph.node s.g u) ∧
      (∀ u v x, Graph.edge g' u v = .ok x ↔ Graph.edge s.g u v = .ok x) ∧
      SInv d (k + 1) ⟨h', g'⟩ := by
  obtain ⟨id, hid, hle⟩ := hs.alloc.newID hk o
  obtain ⟨hup, hat⟩ := applyAll_fields opts
  have hnone : s.g.nodes.get? e.uid.str = none := by
    unfold Graph.node at habs
    split at habs
    · cases habs
    · assumption
  obtain ⟨-, -, -, -, hd1, hd2, ha1, ha2⟩ :=
    Props.c31_node_identity s.heap id e [.withAttrs (applyAll opts).attrs]
  have hmk : (Graph.mkNode s.heap id e [.withAttrs (applyAll opts).attrs]).1.ent = e := rfl
  have hmd : (Graph.mkNode s.heap id e [.withAttrs (applyAll opts).attrs]).1.dotid = e.dot.getD e.uid.str := by
    cases hd : e.dot with
    | none => exact hd2 rfl hd
    | some x => exact hd1 rfl x hd
  clear hd1 hd2
  have hmi : (Graph.mkNode s.heap id e [.withAttrs (applyAll opts).attrs]).1.id = id := rfl
  have hnew : Graph.newNode s.heap s.g o e [.withAttrs (applyAll opts).attrs] =
      (.ok (Graph.mkNode s.heap id e [.withAttrs (applyAll opts).attrs]).1,
        (Graph.mkNode s.heap id e [.withAttrs (applyAll opts).attrs]).2) := by
    unfold Graph.newNode
    rw [hid]
    simp only [Graph.Node.key, hmk, hnone]
  generalize Graph.mkNode s.heap id e [.withAttrs (applyAll opts).attrs] = nh at *
  obtain ⟨n, h'⟩ := nh
  simp only at hmk hmd hmi hnew ha1 ha2
  have hfit : Fits s.g n := (Props.c15_newNode_fits hs.disc o e _ n (by rw [hnew])).1
  have hr1 : Reach NoReplace d ⟨h', s.g⟩ := by
    have := Reach.step (allowed := NoReplace) s
      (.newNode o e [.withAttrs (applyAll opts).attrs]) hs.reach trivial
    simpa only [Graph.step, hnew] using this
  have hfresh : s.g.b.nodes.get? n.id = none := by
    rw [hmi]
    exact Gonum.newNodeID_fresh _ (Graph.gonumInv_reach hs.reach).1 o id hid
  have huid : n.uid = e.uid := by unfold Graph.Node.uid; rw [hmk]
  have main : ∀ gopts : List Opt, ∃ g', Graph.addNode s.g n gopts = (.ok (), g') ∧
      Graph.node g' e.uid = .ok n ∧
      (∀ u : Uid, u.str ≠ e.uid.str → Graph.node g' u = Graph.node s.g u) ∧
      (∀ u v x, Graph.edge g' u v = .ok x ↔ Graph.edge s.g u v = .ok x) ∧
      SInv d (k + 1) ⟨h', g'⟩ := by
    intro gopts
    obtain ⟨h1, h2, h3, h4⟩ := (Props.c18_addNode_partial hs.disc n gopts hfit).2
      (.inl (by rw [huid]; exact habs))
    rw [huid] at h2 h3
    refine ⟨(Graph.addNode s.g n gopts).2, ?_, h2, h3, h4, ?_, ?_⟩
    · rw [← h1]
    · have := Reach.step (allowed := NoReplace) ⟨h', s.g⟩ (.addNode n gopts) hr1 ⟨hfit, by
        intro _ m hm
        rw [huid, habs] at hm
        cases hm⟩
      simpa only [Graph.step] using this
    · simp only [Graph.addNode, Gonum.Builder.node?, hfresh]
      cases hb : s.g.b.addNode n with
      | none => exact hs.alloc.mono (Nat.le_succ k)
      | some b' => exact hs.alloc.add hb (by rw [hmi]; exact hle)
  have hattrs : (match attrsOption opts with
        | some r => n.attrs = r ∧ h' = s.heap
        | none => (n.attrs, h') = s.heap.alloc GoMap.empty) := by
    rw [hat] at ha1 ha2
    cases hc : attrsOption opts with
    | some r => exact ha1 r (by rw [hc]; rfl)
    | none => exact ha2 (by rw [hc]; rfl)
  by_cases hu : (applyAll opts).upsert = false
  · obtain ⟨g', h1, h2, h3, h4, h5⟩ := main []
    refine ⟨n, h', g', ?_, ⟨hmk, hmd⟩, hattrs, h2, h3, h4, h5⟩
    simp only [add, hnew, hu, if_true, h1]
  · obtain ⟨g', h1, h2, h3, h4, h5⟩ := main [.withUpsert]
    refine ⟨n, h', g', ?_, ⟨hmk, hmd⟩, hattrs, h2, h3, h4, h5⟩
    simp only [add, hnew, if_neg hu, h1]

/-- Adding under a UID that is present. -/
theorem add_present {d : Bool} {k : Nat} {s : St} (hs : SInv d k s) (hk : k < 2 ^ 63)
    (o : Order (Int × Unit)) (e : Ent) (opts : List SOpt) (m : Node)
    (hm : Graph.node s.g e.uid = .ok m) :
    ∃ h' g', add s o e opts =
        (if upserts opts then .ok () else .err .alreadyExists, ⟨h', g'⟩) ∧
      (∀ u : Uid, Graph.node g' u = Graph.node s.g u) ∧
      (∀ u v x, Graph.edge g' u v = .ok x ↔ Graph.edge s.g u v = .ok x) ∧
      (upserts opts = false → g' = s.g) ∧ h'.Extends s.heap ∧
      SInv d (k + 1) ⟨h', g'⟩ := by
  obtain ⟨id, hid, -⟩ := hs.alloc.newID hk o
  obtain ⟨hup, -⟩ := applyAll_fields opts
  have hget : s.g.nodes.get? e.uid.str = some m := by
    unfold Graph.node at hm
    split at hm
    · rename_i heq; cases hm; exact heq
    · cases hm
  have hmk : (Graph.mkNode s.heap id e [.withAttrs (applyAll opts).attrs]).1.ent = e := rfl
  have hext : (Graph.mkNode s.heap id e [.withAttrs (applyAll opts).attrs]).2.Extends s.heap := by
    simp only [Graph.mkNode, Graph.attrsOrNew]
    split
    · exact Heap.Extends.refl _
    · exact Heap.Extends.alloc _ _
  have hnew : Graph.newNode s.heap s.g o e [.withAttrs (applyAll opts).attrs] =
      (.ok m, (Graph.mkNode s.heap id e [.withAttrs (applyAll opts).attrs]).2) := by
    unfold Graph.newNode
    rw [hid]
    simp only [Graph.Node.key, hmk, hget]
  generalize Graph.mkNode s.heap id e [.withAttrs (applyAll opts).attrs] = nh at *
  obtain ⟨n, h'⟩ := nh
  simp only at hmk hnew hext
  obtain ⟨hfit, hstr⟩ := Props.c15_newNode_fits hs.disc o e _ m (by rw [hnew])
  have hm' : Graph.node s.g m.uid = .ok m := by
    unfold Graph.node; rw [hstr, hget]
  have hr1 : Reach NoReplace d ⟨h', s.g⟩ := by
    have := Reach.step (allowed := NoReplace) s
      (.newNode o e [.withAttrs (applyAll opts).attrs]) hs.reach trivial
    simpa only [Graph.step, hnew] using this
  cases hu : upserts opts with
  | false =>
    have hd := (Props.c18_addNode_partial hs.disc m [] hfit).1 ⟨m, hm'⟩ (by simp)
    refine ⟨h', s.g, ?_, fun _ => rfl, fun _ _ _ => Iff.rfl, fun _ => rfl, hext, hr1,
      hs.alloc.mono (Nat.le_succ k)⟩
    rw [hu] at hup
    simp only [add, hnew, hup, if_true, hd]
    rfl
  | true =>
    obtain ⟨h1, h2, h3, h4⟩ := (Props.c18_addNode_partial hs.disc m [.withUpsert] hfit).2
      (.inr (by simp))
    refine ⟨h', (Graph.addNode s.g m [.withUpsert]).2, ?_, ?_, h4, by simp, hext, ?_, ?_⟩
    · rw [hu] at hup
      simp only [add, hnew, hup, Bool.true_eq_false, if_false]
      rw [show Graph.addNode s.g m [.withUpsert] =
        (.ok (), (Graph.addNode s.g m [.withUpsert]).2) by rw [← h1]]
      rfl
    · intro u
      by_cases huu : u.str = m.uid.str
      · have e1 : ∀ g : WG, Graph.node g u = Graph.node g m.uid := by
          intro g; unfold Graph.node; rw [huu]
        rw [e1, e1, h2, hm']
      · exact h3 u huu
    · have := Reach.step (allowed := NoReplace) ⟨h', s.g⟩ (.addNode m [.withUpsert]) hr1
        ⟨hfit, fun _ x hx => by
          simp only at hx
          rw [hm'] at hx; cases hx; rfl⟩
      simpa only [Graph.step] using this
    · have hb : s.g.b.nodes.get? m.id = some m :=
        ((Graph.wgExact_reach hs.reach).same m).mp (by
          rw [show m.key = m.uid.str from rfl, hstr]; exact hget)
      have hk' : s.g.nodes.get? m.key = some m := by
        rw [show m.key = m.uid.str from rfl, hstr]; exact hget
      have : (Graph.addNode s.g m [.withUpsert]).2.b = s.g.b := by
        simp [Graph.addNode, Gonum.Builder.node?, hb, hk', Graph.applyAll, Graph.Opt.apply]
      rw [show (St.mk h' (Graph.addNode s.g m [.withUpsert]).2).g.b = s.g.b from this]
      exact hs.alloc.mono (Nat.le_succ k)

theorem delete_sInv {d : Bool} {k : Nat} {s : St} (hs : SInv d k s) (u : Uid) :
    SInv d k (delete s u).2 := by
  refine ⟨?_, ?_⟩
  · exact Reach.step (allowed := NoReplace) s (.removeNode u) hs.reach trivial
  · simp only [delete, Graph.removeNode]
    split
    · exact hs.alloc
    · exact hs.alloc.remove (Graph.gonumInv_reach hs.reach).1 _

theorem unlink_sInv {d : Bool} {k : Nat} {s : St} (hs : SInv d k s) (f t : Uid) :
    SInv d k (unlink s f t).2 := by
  refine ⟨?_, ?_⟩
  · exact Reach.step (allowed := NoReplace) s (.unlink f t) hs.reach trivial
  · simp only [unlink, Graph.unlink]
    split
    · exact hs.alloc
    · simp only [Graph.unlinkApply, Gonum.Builder.removeEdge]
      split <;> exact ⟨hs.alloc.low, hs.alloc.high, hs.alloc.free⟩

theorem link_eq (s : St) (fresh : Uid) (a : Nat) (f t : Uid) (opts : List SOpt) :
    (link s fresh a f t opts).2 =
      ⟨(Graph.link s.heap s.g fresh a f t [.withAttrs (applyAll opts).attrs]).2.2,
       (Graph.link s.heap s.g fresh a f t [.withAttrs (applyAll opts).attrs]).2.1⟩ := by
  unfold link
  split <;> rename_i h <;> rw [h]

theorem link_sInv {d : Bool} {k : Nat} {s : St} (hs : SInv d k s) (fresh : Uid) (a : Nat) (f t : Uid)
    (opts : List SOpt) : SInv d k (link s fresh a f t opts).2 := by
  rw [link_eq]
  refine ⟨?_, ?_⟩
  · exact Reach.step (allowed := NoReplace) s
      (.link fresh a f t [.withAttrs (applyAll opts).attrs]) hs.reach trivial
  · simp only [Graph.link]
    split
    · exact hs.alloc
    · rename_i x y hl
      obtain ⟨hx, hy, -⟩ := Graph.linkLookup_create hl
      obtain ⟨e1, e2⟩ := Graph.mkEdge_ends s.heap fresh a x y [.withAttrs (applyAll opts).attrs]
      have hex := Graph.wgExact_reach hs.reach
      simp only [Graph.linkApply]
      split
      · exact hs.alloc
      · rename_i b' hb'
        refine hs.alloc.edge hb' (x := x) (y := y) ?_ ?_
        · rw [e1]; exact (hex.same x).mp (by rw [hex.inv.keyOf _ _ hx]; exact hx)
        · rw [e2]; exact (hex.same y).mp (by rw [hex.inv.keyOf _ _ hy]; exact hy)

theorem env_sInv {d : Bool} {k : Nat} {s : St} (hs : SInv d k s) (h : Heap) :
    SInv d k ⟨h, s.g⟩ :=
  ⟨Reach.step (allowed := NoReplace) s (.env h) hs.reach trivial, hs.alloc⟩

end Netscrape.Store
