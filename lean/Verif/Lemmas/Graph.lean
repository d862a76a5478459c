import Verif.Lemmas.Gonum
import Verif.Spec.Graph

/-!
# Invariants of WG over all, disciplined and upsert-free histories
-/

namespace Netscrape.Graph
open Netscrape.Spec.Graph
open Netscrape.Gonum (Builder EdgeOrder)

/-! ## All histories: the gonum graph stays consistent -/

theorem gonumInv_new (d : Bool) (fresh : Uid) (opts : List Opt) : Gonum.Inv (new d fresh opts).b := by
  cases d
  · exact Gonum.inv_newUndirected
  · exact Gonum.inv_newDirected

theorem isDirected_new (d : Bool) (fresh : Uid) (opts : List Opt) :
    (new d fresh opts).b.isDirected = d := by
  cases d <;> rfl

/-- The ways a call can change the gonum graph. -/
theorem step_builder (s : St) (op : Op) :
    (step s op).1.g.b = s.g.b ∨
    (∃ n opts, op = .addNode n opts ∧ s.g.b.addNode n = some (step s op).1.g.b) ∨
    (∃ e, s.g.b.setWeightedEdge e = some (step s op).1.g.b) ∨
    (∃ i, (step s op).1.g.b = s.g.b.removeNode i) ∨
    (∃ f t, (step s op).1.g.b = s.g.b.removeEdge f t) := by
  cases op with
  | newNode o e opts => left; rfl
  | addNode n opts =>
    simp only [step, addNode]
    split
    · split
      · split <;> simp
      · simp
    · cases ha : s.g.b.addNode n with
      | none => simp
      | some b' => right; left; exact ⟨n, opts, rfl, by simp [ha]⟩
  | addForeign => left; rfl
  | removeNode u =>
    simp only [step, removeNode]
    cases removeLookup s.g u with
    | none => left; rfl
    | some n => right; right; right; left; exact ⟨n.id, rfl⟩
  | link fresh a f t opts =>
    simp only [step, link]
    cases linkLookup s.g f t with
    | done r => left; rfl
    | create x y =>
      simp only [linkApply]
      cases hs : s.g.b.setWeightedEdge (mkEdge s.heap fresh a x y opts).1 with
      | none => left; simp
      | some b' => right; right; left; exact ⟨_, by rw [hs]⟩
  | unlink f t =>
    simp only [step, unlink]
    cases unlinkLookup s.g f t with
    | none => left; rfl
    | some p => right; right; right; right; exact ⟨p.1.id, p.2.id, rfl⟩
  | env h => left; rfl

theorem gonumInv_step (s : St) (op : Op) (h : Gonum.Inv s.g.b) : Gonum.Inv (step s op).1.g.b := by
  rcases step_builder s op with hb | ⟨n, o, -, hb⟩ | ⟨e, hb⟩ | ⟨i, hb⟩ | ⟨f, t, hb⟩
  · rw [hb]; exact h
  · exact Gonum.addNode_inv h hb
  · exact Gonum.setWeightedEdge_inv h hb
  · rw [hb]; exact Gonum.removeNode_inv h i
  · rw [hb]; exact Gonum.removeEdge_inv h f t

theorem isDirected_step (s : St) (op : Op) :
    (step s op).1.g.b.isDirected = s.g.b.isDirected := by
  rcases step_builder s op with hb | ⟨n, o, -, hb⟩ | ⟨e, hb⟩ | ⟨i, hb⟩ | ⟨f, t, hb⟩
  · rw [hb]
  · exact Gonum.isDirected_congr (Gonum.addNode_eq hb).2.1
  · exact Gonum.isDirected_put (Gonum.setWeightedEdge_eq hb).2.2
  · rw [hb]; exact Gonum.removeNode_isDirected _ _
  · rw [hb]; exact Gonum.removeEdge_isDirected _ _ _

theorem gonumInv_reach {P : St → Op → Prop} {d : Bool} {s : St} (h : Reach P d s) :
    Gonum.Inv s.g.b ∧ s.g.b.isDirected = d := by
  induction h with
  | init h fresh opts => exact ⟨gonumInv_new d fresh opts, isDirected_new d fresh opts⟩
  | step s op _ _ ih => exact ⟨gonumInv_step s op ih.1, (isDirected_step s op).trans ih.2⟩

/-- `g.nodes` binds a UID string only to nodes with that string, in all histories. -/
theorem keyOf_step (s : St) (op : Op)
    (h : ∀ k n, s.g.nodes.get? k = some n → n.key = k) :
    ∀ k n, (step s op).1.g.nodes.get? k = some n → n.key = k := by
  cases op with
  | newNode o e opts => exact h
  | addNode n opts =>
    have hset : ∀ k m, (s.g.nodes.set n.key n).get? k = some m → m.key = k := by
      intro k m hk
      rw [GoMap.get?_set] at hk
      split at hk
      · cases hk; simp_all
      · exact h k m hk
    have hset2 : ∀ k m, ((s.g.nodes.set n.key n).set n.key n).get? k = some m → m.key = k := by
      intro k m hk
      rw [GoMap.get?_set] at hk
      split at hk
      · cases hk; simp_all
      · exact hset k m hk
    simp only [step, addNode]
    split
    · split
      · split
        · exact h
        · exact hset2
      · exact hset
    · split
      · exact h
      · exact hset
  | addForeign => exact h
  | removeNode u =>
    simp only [step, removeNode]
    split
    · exact h
    · intro k m hk
      simp only [removeApply, GoMap.get?_del] at hk
      split at hk
      · cases hk
      · exact h k m hk
  | link fresh a f t opts =>
    simp only [step, link]
    split
    · exact h
    · simp only [linkApply]
      split <;> exact h
  | unlink f t =>
    simp only [step, unlink]
    split <;> exact h
  | env h' => exact h

theorem keyOf_reach {P : St → Op → Prop} {d : Bool} {s : St} (hr : Reach P d s) :
    ∀ k n, s.g.nodes.get? k = some n → n.key = k := by
  induction hr with
  | init => intro k n hk; simp [new, newWG] at hk
  | step s op _ _ ih => exact keyOf_step s op ih

/-! ## Disciplined histories -/

/-- The UID string registered in gonum for an ID. -/
def keyAt (b : Builder) (i : Int) : Option String := (b.nodes.get? i).map Node.key

/-- UIDs and IDs are in one-to-one correspondence, and stored edges agree with it. -/
structure WGInv (g : WG) : Prop where
  gonum : Gonum.Inv g.b
  keyOf : ∀ k n, g.nodes.get? k = some n → n.key = k
  toID : ∀ k n, g.nodes.get? k = some n → keyAt g.b n.id = some k
  ofID : ∀ i k, keyAt g.b i = some k → ∃ n, g.nodes.get? k = some n ∧ n.id = i
  edgeKeys : ∀ u v e, g.b.weightedEdge u v = some e →
    keyAt g.b u = some e.src.key ∧ keyAt g.b v = some e.dst.key

theorem keyAt_set (b : Builder) (ns : GoMap Int Node) (i : Int) (n : Node) (j : Int)
    (h : b.nodes = ns.set i n) : keyAt b j = if j = i then some n.key else (ns.get? j).map Node.key := by
  unfold keyAt
  rw [h, GoMap.get?_set]
  split <;> rfl

theorem wgInv_new (d : Bool) (fresh : Uid) (opts : List Opt) : WGInv (new d fresh opts) := by
  refine ⟨gonumInv_new d fresh opts, ?_, ?_, ?_, ?_⟩
  · intro k n hk; simp [new, newWG] at hk
  · intro k n hk; simp [new, newWG] at hk
  · intro i k hk
    cases d <;> simp [new, newWG, keyAt, Gonum.newDirected, Gonum.newUndirected] at hk
  · intro u v e he
    cases d <;> simp [new, newWG, Gonum.Builder.weightedEdge, Gonum.newDirected,
      Gonum.newUndirected] at he

theorem WGInv.node_eq {g : WG} (_ : WGInv g) (u : Uid) (n : Node) :
    node g u = .ok n ↔ g.nodes.get? u.str = some n := by
  unfold node
  cases hg : g.nodes.get? u.str <;> simp

theorem fits_iff {g : WG} (hk : ∀ k n, g.nodes.get? k = some n → n.key = k) (n : Node) :
    Fits g n ↔ ∀ k m, g.nodes.get? k = some m → (m.key = n.key ↔ m.id = n.id) := by
  constructor
  · intro h k m hm
    have := hk k m hm
    exact h m.uid m (by
      unfold node
      have hk' : m.uid.str = k := this
      rw [hk', hm])
  · intro h u m hm
    unfold node at hm
    split at hm
    · rename_i n' hn'
      cases hm
      exact h _ _ hn'
    · cases hm

theorem addNode_wgInv {g : WG} (h : WGInv g) (n : Node) (opts : List Opt) (hf : Fits g n) :
    WGInv (addNode g n opts).2 := by
  rw [fits_iff h.keyOf] at hf
  unfold addNode Gonum.Builder.node?
  cases hm : g.b.nodes.get? n.id with
  | some m =>
    simp only
    have hkm : keyAt g.b n.id = some m.key := by simp [keyAt, hm]
    obtain ⟨n', hn', hid'⟩ := h.ofID _ _ hkm
    have hkn : n'.key = n.key := (hf _ _ hn').mpr hid'
    have hmk : m.key = n.key := (h.keyOf _ _ hn').symm.trans hkn
    rw [hmk] at hn' hkm
    rw [hn']
    simp only
    split
    · exact h
    · refine ⟨h.gonum, ?_, ?_, ?_, h.edgeKeys⟩
      · intro k x hx
        simp only [GoMap.get?_set] at hx
        split at hx
        · cases hx; simp_all
        · exact h.keyOf k x hx
      · intro k x hx
        simp only [GoMap.get?_set] at hx
        split at hx
        · rename_i hk; cases hx; rw [hk]; exact hkm
        · exact h.toID k x hx
      · intro i k hik
        obtain ⟨y, hy, hyi⟩ := h.ofID i k hik
        by_cases hk : k = n.key
        · refine ⟨n, by simp [hk], ?_⟩
          rw [← hyi]
          have := (hf _ _ hy).mp ((h.keyOf _ _ hy).trans hk)
          exact this.symm
        · exact ⟨y, by simp [GoMap.get?_set, hk, hy], hyi⟩
  | none =>
    simp only
    cases ha : g.b.addNode n with
    | none => exact h
    | some b' =>
      obtain ⟨hn, he, -⟩ := Gonum.addNode_eq ha
      have hka := fun j => keyAt_set b' g.b.nodes n.id n j hn
      have hfresh : g.nodes.get? n.key = none := by
        cases hx : g.nodes.get? n.key with
        | none => rfl
        | some x =>
          have hid := (hf _ _ hx).mp (h.keyOf _ _ hx)
          have := h.toID _ _ hx
          rw [hid] at this
          simp [keyAt, hm] at this
      refine ⟨Gonum.addNode_inv h.gonum ha, ?_, ?_, ?_, ?_⟩
      · intro k x hx
        simp only [GoMap.get?_set] at hx
        split at hx
        · cases hx; simp_all
        · exact h.keyOf k x hx
      · intro k x hx
        simp only [GoMap.get?_set] at hx
        simp only [hka]
        split at hx
        · rename_i hk; cases hx; simp [hk]
        · have := h.toID k x hx
          by_cases hxi : x.id = n.id
          · rw [hxi] at this; simp [keyAt, hm] at this
          · rw [if_neg hxi]; exact this
      · intro i k hik
        simp only [hka] at hik
        by_cases hi : i = n.id
        · rw [if_pos hi] at hik
          cases hik
          exact ⟨n, by simp, hi.symm⟩
        · rw [if_neg hi] at hik
          obtain ⟨y, hy, hyi⟩ := h.ofID i k hik
          refine ⟨y, ?_, hyi⟩
          have : k ≠ n.key := by rintro rfl; rw [hfresh] at hy; cases hy
          simp [GoMap.get?_set, this, hy]
      · intro u v e hev
        simp only at hev ⊢
        simp only [hka]
        have hold : g.b.weightedEdge u v = some e := by
          rw [← Gonum.weightedEdge_congr he]; exact hev
        obtain ⟨h1, h2⟩ := h.edgeKeys u v e hold
        have hu : u ≠ n.id := by rintro rfl; simp [keyAt, hm] at h1
        have hv : v ≠ n.id := by rintro rfl; simp [keyAt, hm] at h2
        rw [if_neg hu, if_neg hv]
        exact ⟨h1, h2⟩

theorem removeApply_wgInv {g : WG} (h : WGInv g) (u : Uid) (n : Node)
    (hn : g.nodes.get? u.str = some n) : WGInv (removeApply g u n) := by
  have hku := h.toID _ _ hn
  have hka : ∀ j, keyAt (g.b.removeNode n.id) j = if j = n.id then none else keyAt g.b j := by
    intro j
    unfold keyAt
    rw [Gonum.removeNode_nodes]
    split <;> rfl
  refine ⟨Gonum.removeNode_inv h.gonum _, ?_, ?_, ?_, ?_⟩
  · intro k x hx
    simp only [removeApply, GoMap.get?_del] at hx
    split at hx
    · cases hx
    · exact h.keyOf k x hx
  · intro k x hx
    simp only [removeApply, GoMap.get?_del] at hx
    simp only [removeApply, hka]
    split at hx
    · cases hx
    · rename_i hk
      have := h.toID k x hx
      by_cases hxi : x.id = n.id
      · rw [hxi, hku] at this; cases this; exact absurd rfl hk
      · rw [if_neg hxi]; exact this
  · intro i k hik
    simp only [removeApply, hka] at hik
    split at hik
    · cases hik
    · rename_i hi
      obtain ⟨y, hy, hyi⟩ := h.ofID i k hik
      refine ⟨y, ?_, hyi⟩
      have : k ≠ u.str := by
        rintro rfl
        rw [hn] at hy
        cases hy
        exact hi hyi.symm
      simp [removeApply, GoMap.get?_del, this, hy]
  · intro a b e he
    simp only [removeApply] at he ⊢
    rw [Gonum.weightedEdge_removeNode h.gonum] at he
    split at he
    · cases he
    · rename_i hne
      simp only [not_or] at hne
      simp only [hka, if_neg hne.1, if_neg hne.2]
      exact h.edgeKeys a b e he

theorem linkLookup_create {g : WG} {f t : Uid} {x y : Node} (h : linkLookup g f t = .create x y) :
    g.nodes.get? f.str = some x ∧ g.nodes.get? t.str = some y ∧
      g.b.weightedEdge x.id y.id = none := by
  unfold linkLookup edge at h
  cases hf : g.nodes.get? f.str with
  | none => simp [hf] at h
  | some a =>
    cases ht : g.nodes.get? t.str with
    | none => simp [hf, ht] at h
    | some b =>
      cases he : g.b.weightedEdge a.id b.id with
      | some e => simp [hf, ht, he] at h
      | none =>
        simp only [hf, ht, he, LinkStage.create.injEq] at h
        obtain ⟨rfl, rfl⟩ := h
        exact ⟨rfl, rfl, he⟩

theorem mkEdge_ends (h : Heap) (fresh : Uid) (a : Nat) (f t : Node) (opts : List Opt) :
    (mkEdge h fresh a f t opts).1.src = f ∧ (mkEdge h fresh a f t opts).1.dst = t := by
  unfold mkEdge
  simp

theorem keyAt_setWeightedEdge {b b' : Builder} {e : Edge} (hs : b.setWeightedEdge e = some b')
    (j : Int) : keyAt b' j =
      if j = e.dst.id then some e.dst.key else if j = e.src.id then some e.src.key else keyAt b j := by
  obtain ⟨-, hn, -⟩ := Gonum.setWeightedEdge_eq hs
  unfold keyAt
  rw [hn, GoMap.get?_set, GoMap.get?_set]
  split
  · rfl
  · split <;> rfl

/-- Storing an edge between two looked-up nodes does not change which UID an ID stands for. -/
theorem keyAt_link {g : WG} (h : WGInv g) {b' : Builder} {e : Edge} {kf kt : String}
    (hf : g.nodes.get? kf = some e.src) (ht : g.nodes.get? kt = some e.dst)
    (hs : g.b.setWeightedEdge e = some b') (j : Int) : keyAt b' j = keyAt g.b j := by
  rw [keyAt_setWeightedEdge hs]
  have h1 := h.toID _ _ hf
  have h2 := h.toID _ _ ht
  have k1 := h.keyOf _ _ hf
  have k2 := h.keyOf _ _ ht
  split
  · rename_i hj; rw [hj, h2, k2]
  · split
    · rename_i hj; rw [hj, h1, k1]
    · rfl

theorem setEdge_wgInv {g : WG} (h : WGInv g) {b' : Builder} {e : Edge} {kf kt : String}
    (hf : g.nodes.get? kf = some e.src) (ht : g.nodes.get? kt = some e.dst)
    (hs : g.b.setWeightedEdge e = some b') : WGInv { g with b := b' } := by
  have hka := keyAt_link h hf ht hs
  refine ⟨Gonum.setWeightedEdge_inv h.gonum hs, h.keyOf, ?_, ?_, ?_⟩
  · intro k n hk; rw [hka]; exact h.toID k n hk
  · intro i k hik; rw [hka] at hik; exact h.ofID i k hik
  · intro u v x hx
    simp only [hka]
    simp only at hx
    rw [Gonum.weightedEdge_set hs] at hx
    have h1 := h.toID _ _ hf
    have h2 := h.toID _ _ ht
    have k1 := h.keyOf _ _ hf
    have k2 := h.keyOf _ _ ht
    split at hx
    · rename_i huv
      cases hx
      rw [huv.1, huv.2, h1, h2, k1, k2]
      exact ⟨rfl, rfl⟩
    · split at hx
      · rename_i huv
        cases hx
        rw [huv.2.1, huv.2.2, h1, h2]
        simp only [Edge.rev]
        rw [k1, k2]
        exact ⟨rfl, rfl⟩
      · exact h.edgeKeys u v x hx

theorem unlinkApply_wgInv {g : WG} (h : WGInv g) (f t : Node) : WGInv (unlinkApply g f t) := by
  have hka : ∀ j, keyAt (g.b.removeEdge f.id t.id) j = keyAt g.b j := by
    intro j; unfold keyAt; rw [Gonum.removeEdge_nodes]
  refine ⟨Gonum.removeEdge_inv h.gonum _ _, h.keyOf, ?_, ?_, ?_⟩
  · intro k n hk; simp only [unlinkApply, hka]; exact h.toID k n hk
  · intro i k hik; simp only [unlinkApply, hka] at hik; exact h.ofID i k hik
  · intro u v e he
    simp only [unlinkApply, hka] at he ⊢
    rw [Gonum.weightedEdge_removeEdge h.gonum] at he
    split at he
    · cases he
    · exact h.edgeKeys u v e he

theorem link_wgInv {g : WG} (h : WGInv g) (hp : Heap) (fresh : Uid) (a : Nat) (f t : Uid)
    (opts : List Opt) : WGInv (link hp g fresh a f t opts).2.1 := by
  unfold link
  cases hl : linkLookup g f t with
  | done r => exact h
  | create x y =>
    obtain ⟨hf, ht, -⟩ := linkLookup_create hl
    obtain ⟨e1, e2⟩ := mkEdge_ends hp fresh a x y opts
    simp only [linkApply]
    cases hs : g.b.setWeightedEdge (mkEdge hp fresh a x y opts).1 with
    | none => exact h
    | some b' =>
      exact setEdge_wgInv h (e := (mkEdge hp fresh a x y opts).1) (by rw [e1]; exact hf)
        (by rw [e2]; exact ht) hs

theorem wgInv_step {s : St} {op : Op} (h : WGInv s.g) (hd : Disciplined s op) :
    WGInv (step s op).1.g := by
  cases op with
  | newNode o e opts => exact h
  | addNode n opts => exact addNode_wgInv h n opts hd
  | addForeign => exact h
  | removeNode u =>
    simp only [step, removeNode]
    cases hl : removeLookup s.g u with
    | none => exact h
    | some n => exact removeApply_wgInv h u n hl
  | link fresh a f t opts => exact link_wgInv h s.heap fresh a f t opts
  | unlink f t =>
    simp only [step, unlink]
    cases unlinkLookup s.g f t with
    | none => exact h
    | some p => exact unlinkApply_wgInv h p.1 p.2
  | env h' => exact h

theorem wgInv_reach {d : Bool} {s : St} (h : Reach Disciplined d s) : WGInv s.g := by
  induction h with
  | init h fresh opts => exact wgInv_new d fresh opts
  | step s op _ hd ih => exact wgInv_step ih hd

/-- IDs of looked-up nodes are equal exactly when their UID strings are. -/
theorem WGInv.id_inj {g : WG} (h : WGInv g) {k k' : String} {n n' : Node}
    (hn : g.nodes.get? k = some n) (hn' : g.nodes.get? k' = some n') : n.id = n'.id ↔ k = k' := by
  constructor
  · intro hid
    have h1 := h.toID _ _ hn
    have h2 := h.toID _ _ hn'
    rw [hid, h2] at h1
    exact (Option.some.inj h1).symm
  · rintro rfl
    rw [hn] at hn'
    cases hn'
    rfl

/-- When `Edge` finds an edge. -/
theorem edge_ok {g : WG} {u v : Uid} {e : Edge} :
    edge g u v = .ok e ↔ ∃ f t, g.nodes.get? u.str = some f ∧
      g.nodes.get? v.str = some t ∧ g.b.weightedEdge f.id t.id = some e := by
  unfold edge
  cases g.nodes.get? u.str with
  | none => simp
  | some f =>
    cases g.nodes.get? v.str with
    | none => simp
    | some t => cases hE : g.b.weightedEdge f.id t.id <;> simp [hE]

/-- `Edge` depends on the nodes found and on the gonum edge between their IDs. -/
theorem edge_congr {g g' : WG} {u v : Uid} (hu : g'.nodes.get? u.str = g.nodes.get? u.str)
    (hv : g'.nodes.get? v.str = g.nodes.get? v.str)
    (hb : ∀ f t, g.nodes.get? u.str = some f → g.nodes.get? v.str = some t →
      g'.b.weightedEdge f.id t.id = g.b.weightedEdge f.id t.id) : edge g' u v = edge g u v := by
  unfold edge
  rw [hu, hv]
  cases hf : g.nodes.get? u.str with
  | none => rfl
  | some f =>
    cases ht : g.nodes.get? v.str with
    | none => rfl
    | some t => simp only [hb f t hf ht]

/-! ## Options -/

theorem applyAll_fields (opts : List Opt) :
    (applyAll opts).dotid = dotOption opts ∧ (applyAll opts).uid = uidOption opts ∧
    (applyAll opts).attrs = attrsOption opts ∧ (applyAll opts).weight = weightOption opts := by
  have hlast : ∀ {α : Type} (l : List α) (x : α), (x :: l).getLast? = some (l.getLast?.getD x) := by
    intro α l x
    cases l with
    | nil => rfl
    | cons y l => simp [List.getLast?_eq_some_getLast]
  have key : ∀ (opts : List Opt) (o : Opts),
      (opts.foldl Opt.apply o).dotid =
        ((opts.filterMap fun o => match o with | .withDOTID s => some s | _ => none).getLast?).getD
          o.dotid ∧
      (opts.foldl Opt.apply o).uid =
        ((opts.filterMap fun o => match o with | .withUID s => some s | _ => none).getLast?).getD
          o.uid ∧
      (opts.foldl Opt.apply o).attrs =
        ((opts.filterMap fun o => match o with | .withAttrs s => some s | _ => none).getLast?).getD
          o.attrs ∧
      (opts.foldl Opt.apply o).weight =
        ((opts.filterMap fun o => match o with | .withWeight s => some s | _ => none).getLast?).getD
          o.weight := by
    intro opts
    induction opts with
    | nil => intro o; simp
    | cons x xs ih =>
      intro o
      obtain ⟨h1, h2, h3, h4⟩ := ih (x.apply o)
      rw [List.foldl_cons, h1, h2, h3, h4]
      cases x <;> simp [Opt.apply, hlast]
  obtain ⟨h1, h2, h3, h4⟩ := key opts {}
  refine ⟨h1, h2.trans ?_, h3.trans ?_, h4⟩
  · unfold uidOption
    cases (opts.filterMap fun o => match o with | .withUID u => some u | _ => none).getLast? <;> rfl
  · unfold attrsOption
    cases (opts.filterMap fun o => match o with | .withAttrs u => some u | _ => none).getLast? <;> rfl

/-! ## Upsert-free histories -/

/-- Lookup and gonum hold the same nodes, and edges join those nodes. -/
structure WGExact (g : WG) : Prop where
  inv : WGInv g
  same : ∀ n, g.nodes.get? n.key = some n ↔ g.b.nodes.get? n.id = some n
  ends : ∀ u v e, g.b.weightedEdge u v = some e →
    g.b.nodes.get? u = some e.src ∧ g.b.nodes.get? v = some e.dst

theorem upsert_iff (opts : List Opt) : (applyAll opts).upsert = true ↔ Opt.withUpsert ∈ opts := by
  unfold applyAll
  have : ∀ o : Opts, (opts.foldl Opt.apply o).upsert = true ↔
      o.upsert = true ∨ Opt.withUpsert ∈ opts := by
    induction opts with
    | nil => simp
    | cons x xs ih =>
      intro o
      rw [List.foldl_cons, ih]
      cases x <;> simp [Opt.apply]
  rw [this]
  simp

theorem wgExact_new (d : Bool) (fresh : Uid) (opts : List Opt) : WGExact (new d fresh opts) := by
  refine ⟨wgInv_new d fresh opts, ?_, ?_⟩
  · intro n
    cases d <;> simp [new, newWG, Gonum.newDirected, Gonum.newUndirected]
  · intro u v e he
    cases d <;> simp [new, newWG, Gonum.Builder.weightedEdge, Gonum.newDirected,
      Gonum.newUndirected] at he

theorem wgExact_step {s : St} {op : Op} (h : WGExact s.g) (hd : NoReplace s op) :
    WGExact (step s op).1.g := by
  refine ⟨wgInv_step h.inv (NoReplace.disciplined s op hd), ?_, ?_⟩
  · -- lookup and gonum hold the same nodes
    cases op with
    | newNode o e opts => exact h.same
    | addNode n opts =>
      obtain ⟨hf, hup⟩ := hd
      rw [fits_iff h.inv.keyOf] at hf
      simp only [step, addNode, Gonum.Builder.node?]
      cases hm : s.g.b.nodes.get? n.id with
      | some m =>
        have hmid := h.inv.gonum.nodeID _ _ hm
        have hm' := (h.same m).mpr (by rw [hmid]; exact hm)
        have hmk : m.key = n.key := (hf _ _ hm').mpr hmid
        rw [hmk] at hm'
        simp only [hm']
        cases hc : (applyAll opts).upsert with
        | false => exact h.same
        | true =>
          have hmn : m = n := hup ((upsert_iff opts).mp hc) m
            (by unfold node; rw [show n.uid.str = n.key from rfl, hm'])
          subst hmn
          intro x
          simp only [Bool.true_eq_false, if_false, GoMap.get?_set]
          split
          · rename_i hk
            rw [← h.same x, hk, hm']
          · exact h.same x
      | none =>
        simp only
        cases ha : s.g.b.addNode n with
        | none => exact h.same
        | some b' =>
          obtain ⟨hn, -, -⟩ := Gonum.addNode_eq ha
          intro x
          simp only [hn, GoMap.get?_set]
          by_cases hk : x.key = n.key
          · by_cases hi : x.id = n.id
            · simp [hk, hi]
            · rw [if_pos hk, if_neg hi]
              constructor
              · intro hx; cases hx; exact absurd rfl hi
              · intro hx
                have := (h.same x).mpr hx
                exact absurd ((hf _ _ this).mp hk) hi
          · by_cases hi : x.id = n.id
            · rw [if_neg hk, if_pos hi]
              constructor
              · intro hx
                exact absurd ((hf _ _ hx).mpr hi) hk
              · intro hx; cases hx; exact absurd rfl hk
            · rw [if_neg hk, if_neg hi]; exact h.same x
    | addForeign => exact h.same
    | removeNode u =>
      simp only [step, removeNode]
      cases hl : removeLookup s.g u with
      | none => exact h.same
      | some n =>
        intro x
        have hn : s.g.nodes.get? u.str = some n := hl
        simp only [removeApply, GoMap.get?_del, Gonum.removeNode_nodes]
        have hkn := h.inv.keyOf _ _ hn
        have hnb := (h.same n).mp (by rw [hkn]; exact hn)
        by_cases hk : x.key = u.str
        · rw [if_pos hk]
          by_cases hi : x.id = n.id
          · simp [hi]
          · rw [if_neg hi]
            constructor
            · intro hx; cases hx
            · intro hx
              have := (h.same x).mpr hx
              rw [hk, hn] at this
              cases this
              exact absurd rfl hi
        · rw [if_neg hk]
          by_cases hi : x.id = n.id
          · rw [if_pos hi]
            constructor
            · intro hx
              have := (h.same x).mp hx
              rw [hi, hnb] at this
              cases this
              exact absurd hkn hk
            · intro hx; cases hx
          · rw [if_neg hi]; exact h.same x
    | link fresh a f t opts =>
      simp only [step, link]
      cases hl : linkLookup s.g f t with
      | done r => exact h.same
      | create x y =>
        obtain ⟨hf, ht, -⟩ := linkLookup_create hl
        obtain ⟨e1, e2⟩ := mkEdge_ends s.heap fresh a x y opts
        simp only [linkApply]
        cases hs : s.g.b.setWeightedEdge (mkEdge s.heap fresh a x y opts).1 with
        | none => exact h.same
        | some b' =>
          obtain ⟨-, hn, -⟩ := Gonum.setWeightedEdge_eq hs
          rw [e1, e2] at hn
          have hxb := (h.same x).mp (by rw [h.inv.keyOf _ _ hf]; exact hf)
          have hyb := (h.same y).mp (by rw [h.inv.keyOf _ _ ht]; exact ht)
          intro z
          simp only [hn, GoMap.get?_set]
          rw [h.same z]
          split
          · rename_i hz; rw [hz, hyb]
          · split
            · rename_i hz; rw [hz, hxb]
            · rfl
    | unlink f t =>
      simp only [step, unlink]
      cases unlinkLookup s.g f t with
      | none => exact h.same
      | some p =>
        intro x
        simp only [unlinkApply, Gonum.removeEdge_nodes]
        exact h.same x
    | env h' => exact h.same
  · -- edges join registered nodes
    cases op with
    | newNode o e opts => exact h.ends
    | addNode n opts =>
      simp only [step, addNode, Gonum.Builder.node?]
      cases hm : s.g.b.nodes.get? n.id with
      | some m =>
        simp only
        split
        · split <;> exact h.ends
        · exact h.ends
      | none =>
        simp only
        cases ha : s.g.b.addNode n with
        | none => exact h.ends
        | some b' =>
          obtain ⟨hn, he, -⟩ := Gonum.addNode_eq ha
          intro u v e hev
          simp only [Gonum.weightedEdge_congr he] at hev
          obtain ⟨h1, h2⟩ := h.ends u v e hev
          simp only [hn, GoMap.get?_set]
          have hu : u ≠ n.id := by rintro rfl; rw [hm] at h1; cases h1
          have hv : v ≠ n.id := by rintro rfl; rw [hm] at h2; cases h2
          rw [if_neg hu, if_neg hv]
          exact ⟨h1, h2⟩
    | addForeign => exact h.ends
    | removeNode u =>
      simp only [step, removeNode]
      cases hl : removeLookup s.g u with
      | none => exact h.ends
      | some n =>
        intro a b e he
        simp only [removeApply] at he ⊢
        rw [Gonum.weightedEdge_removeNode h.inv.gonum] at he
        split at he
        · cases he
        · rename_i hne
          simp only [not_or] at hne
          simp only [Gonum.removeNode_nodes, if_neg hne.1, if_neg hne.2]
          exact h.ends a b e he
    | link fresh a f t opts =>
      simp only [step, link]
      cases hl : linkLookup s.g f t with
      | done r => exact h.ends
      | create x y =>
        obtain ⟨hf, ht, -⟩ := linkLookup_create hl
        obtain ⟨e1, e2⟩ := mkEdge_ends s.heap fresh a x y opts
        simp only [linkApply]
        cases hs : s.g.b.setWeightedEdge (mkEdge s.heap fresh a x y opts).1 with
        | none => exact h.ends
        | some b' =>
          obtain ⟨hne, hn, -⟩ := Gonum.setWeightedEdge_eq hs
          have hxb := (h.same x).mp (by rw [h.inv.keyOf _ _ hf]; exact hf)
          have hyb := (h.same y).mp (by rw [h.inv.keyOf _ _ ht]; exact ht)
          intro u v e he
          simp only at he ⊢
          rw [Gonum.weightedEdge_set hs] at he
          have hnodes : ∀ j, b'.nodes.get? j = s.g.b.nodes.get? j := by
            intro j
            rw [hn, e1, e2, GoMap.get?_set, GoMap.get?_set]
            split
            · rename_i hz; rw [hz, hyb]
            · split
              · rename_i hz; rw [hz, hxb]
              · rfl
          rw [hnodes, hnodes]
          split at he
          · rename_i huv
            cases he
            rw [huv.1, huv.2, e1, e2]
            exact ⟨hxb, hyb⟩
          · split at he
            · rename_i huv
              cases he
              rw [huv.2.1, huv.2.2]
              simp only [Edge.rev, e1, e2]
              exact ⟨hyb, hxb⟩
            · exact h.ends u v e he
    | unlink f t =>
      simp only [step, unlink]
      cases unlinkLookup s.g f t with
      | none => exact h.ends
      | some p =>
        intro u v e he
        simp only [unlinkApply, Gonum.removeEdge_nodes] at he ⊢
        rw [Gonum.weightedEdge_removeEdge h.inv.gonum] at he
        split at he
        · cases he
        · exact h.ends u v e he
    | env h' => exact h.ends

theorem wgExact_reach {d : Bool} {s : St} (h : Reach NoReplace d s) : WGExact s.g := by
  induction h with
  | init h fresh opts => exact wgExact_new d fresh opts
  | step s op _ hd ih => exact wgExact_step ih hd

end Netscrape.Graph
