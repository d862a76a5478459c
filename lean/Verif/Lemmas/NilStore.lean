import Verif.Lemmas.NilUidEval
import Verif.Lemmas.StoreConc
import Verif.Lemmas.StoreSim
import Verif.Props.Linearizable
import Verif.Spec.NilStore

/-!
# The store with nil simulates the reference store with nil
-/

namespace Netscrape.Store
open Netscrape.Conc
open Netscrape.Graph (NEnt Node St)
open Netscrape.Spec.Store

/-! ## The bodies stay inside the store's critical section -/

theorem inside_newNodeN (o : Order (Int × Unit)) (e : NEnt) (opts : List Graph.Opt) :
    Inside Mtx.store True (Graph.newNodeN Mtx.graph o e opts) := by
  cases e <;> (unfold Graph.newNodeN; inside)

theorem inside_addN (o : Order (Int × Unit)) (e : NEnt) (opts : List SOpt) : Inside Mtx.store True (addN o e opts) := by
  refine Inside.bind (fun r => ?_) (inside_newNodeN _ _ _)
  split
  · trivial
  · trivial
  · split <;> exact Inside.bind (fun r => by split <;> trivial) (inside_addNode _ _)

theorem inside_nodeN (u : Option Uid) : Inside Mtx.store False (Graph.nodeN Mtx.graph u) := by
  cases u with
  | none => unfold Graph.nodeN; inside
  | some u => exact inside_node u

theorem inside_getN (u : Option Uid) : Inside Mtx.store False (getN u) :=
  Inside.bind (fun r => by split <;> trivial) (inside_nodeN u)

theorem inside_deleteN (u : Option Uid) : Inside Mtx.store True (deleteN u) := by
  refine Inside.bind (fun r => by split <;> trivial) ?_
  cases u with
  | none => unfold Graph.removeNodeN; inside
  | some u => exact inside_removeNode u

theorem inside_edgeN (f t : Option Uid) : Inside Mtx.store False (Graph.edgeN Mtx.graph f t) := by
  cases f with
  | none => unfold Graph.edgeN; inside
  | some f =>
    cases t with
    | none => unfold Graph.edgeN; inside
    | some t => exact inside_edge f t

theorem inside_linkN (fresh : Uid) (a : Nat) (f t : Option Uid) (opts : List Graph.Opt) :
    Inside Mtx.store True (Graph.linkN Mtx.graph fresh a f t opts) := by
  have h : Inside Mtx.store True ((Prog.rlock Mtx.graph <| (Graph.edgeN Mtx.graph f t).bind fun r =>
    match r with
    | .err e => .runlock Mtx.graph <| .ret (.err e)
    | r => .ret r : SProg _)) := by
    refine ⟨by decide, Inside.bind (fun r => ?_) (inside_mono (inside_edgeN f t))⟩
    split <;> inside
  cases f with
  | none => exact h
  | some f =>
    cases t with
    | none => exact h
    | some t => exact inside_link fresh a f t opts

theorem inside_storeLinkN (fresh : Uid) (a : Nat) (f t : Option Uid) (opts : List SOpt) :
    Inside Mtx.store True (storeLinkN fresh a f t opts) :=
  Inside.bind (fun r => by split <;> trivial) (inside_linkN _ _ _ _ _)

theorem inside_unlinkN (f t : Option Uid) : Inside Mtx.store True (storeUnlinkN f t) := by
  refine Inside.bind (fun r => by split <;> trivial) ?_
  cases f with
  | none => unfold Graph.unlinkN; inside
  | some f =>
    cases t with
    | none => unfold Graph.unlinkN; inside
    | some t => exact inside_unlink f t

theorem inside_bulkGetN (us : List (Option Uid)) : ∀ ents, Inside Mtx.store False (bulkGetN us ents) := by
  induction us with
  | nil => exact fun _ => trivial
  | cons u us ih =>
    intro ents
    refine Inside.bind (fun r => ?_) (inside_getN u)
    split
    · exact ih _
    · trivial
    · trivial

theorem one_progN (op : NOp) : One Mtx.store (progN op) .pre := by
  cases op with
  | add o e opts => exact one_excl (inside_out _ (inside_addN _ _ _))
  | get u => exact one_shared (inside_out _ (inside_getN _))
  | delete u => exact one_excl (inside_out _ (inside_deleteN _))
  | link fresh a f t opts => exact one_excl (inside_out _ (inside_storeLinkN _ _ _ _ _))
  | unlink f t => exact one_excl (inside_out _ (inside_unlinkN _ _))
  | bulkAdd es opts => exact one_excl (inside_out _ (inside_loop _ (fun _ => inside_addN _ _ _) _))
  | bulkGet us => exact one_shared (inside_out _ (inside_bulkGetN _ _))
  | bulkDelete us => exact one_excl (inside_out _ (inside_loop _ inside_deleteN _))
  | bulkLink f us opts => exact one_excl (inside_out _ (inside_loop _ (fun _ => inside_storeLinkN _ _ _ _ _) _))
  | bulkUnlink f us => exact one_excl (inside_out _ (inside_loop _ (inside_unlinkN f) _))

/-! ## One call made alone -/

/-- A call of `p` made alone, result first. -/
def alone (p : SProg (Res Err Unit)) (s : St) : Res Err Unit × St := ((p.eval s).2, (p.eval s).1)

/-- A simulating call that counts for `c` additions. -/
def Sims (d : Bool) (c : Nat) (p : SProg (Res Err Unit)) (fa : AStore → Res Err Unit × AStore) : Prop :=
  ∀ k s a, SInv d k s → k + c ≤ 2 ^ 63 → Sim s a →
    (alone p s).1 = (fa a).1 ∧ Sim (alone p s).2 (fa a).2 ∧ SInv d (k + c) (alone p s).2

theorem sims_addN (d : Bool) (o : Order (Int × Unit)) (e : NEnt) (opts : List SOpt) :
    Sims d 1 (addN o e opts) fun a => a.addN e (upserts opts) := by
  intro k s a h1 hk h2
  cases e with
  | ent e =>
    unfold alone
    rw [eval_addN, eval_add]
    exact add_sim h1 (by omega) h2 o e opts
  | nil dot =>
    have h : ∃ h', (addN o (.nil dot) opts).eval s = (⟨h', s.g⟩, .panic) := by
      unfold addN
      rw [eval_bind]
      unfold Graph.newNodeN
      simp only [Prog.eval]
      cases s.g.b.newNodeID o with
      | none => exact ⟨_, rfl⟩
      | some i =>
        dsimp only
        by_cases hc : (Graph.applyAll [Graph.Opt.withAttrs (applyAll opts).attrs]).dotid = "" ∧ dot = none
        · rw [if_pos hc]
          exact ⟨_, rfl⟩
        · rw [if_neg hc]
          exact ⟨_, rfl⟩
    obtain ⟨h', h⟩ := h
    unfold alone
    rw [h]
    exact ⟨rfl, ⟨h2.ent, h2.adj⟩, (env_sInv h1 h').mono (Nat.le_add_right _ _)⟩

theorem sims_deleteN (d : Bool) (u : Option Uid) : Sims d 0 (deleteN u) fun a => a.deleteN u := by
  intro k s a h1 hk h2
  cases u with
  | none => exact ⟨rfl, h2, h1⟩
  | some u =>
    unfold alone
    rw [show (deleteN (some u)).eval s = (deleteP u).eval s from rfl, eval_delete]
    exact ⟨rfl, delete_sim h1 h2 u, delete_sInv h1 u⟩

theorem known_cases {s : St} {a : AStore} (h : Sim s a) (u : Uid) :
    (∃ n, s.g.nodes.get? u.str = some n ∧ a.ent u.str = some n.ent) ∨
    (s.g.nodes.get? u.str = none ∧ a.ent u.str = none) := by
  have h := h.ent u
  unfold Graph.node at h
  cases hn : s.g.nodes.get? u.str with
  | none => rw [hn] at h; exact .inr ⟨rfl, h.symm⟩
  | some n => rw [hn] at h; exact .inl ⟨n, rfl, h.symm⟩

theorem sims_linkN (d : Bool) (fresh : Uid) (na : Nat) (f t : Option Uid) (opts : List SOpt) :
    Sims d 0 (storeLinkN fresh na f t opts) fun a => a.linkN d f t := by
  intro k s a h1 hk h2
  cases f with
  | none => exact ⟨rfl, h2, h1⟩
  | some f =>
    cases t with
    | none =>
      unfold alone storeLinkN AStore.linkN
      simp only [eval_bind, Graph.linkN, Graph.edgeN, Prog.eval, eval_shared]
      rcases known_cases h2 f with ⟨n, e1, e2⟩ | ⟨e1, e2⟩
      · simp only [e1, e2, Prog.eval, reduceCtorEq, if_false]
        exact ⟨trivial, h2, h1⟩
      · simp only [e1, e2, Prog.eval, if_true]
        exact ⟨trivial, h2, h1⟩
    | some t =>
      unfold alone
      rw [show (storeLinkN fresh na (some f) (some t) opts).eval s = (storeLinkP fresh na f t opts).eval s from rfl, eval_link]
      exact ⟨(link_sim h1 h2 _ _ _ _ opts).1, (link_sim h1 h2 _ _ _ _ opts).2, link_sInv h1 _ _ _ _ opts⟩

theorem sims_unlinkN (d : Bool) (f t : Option Uid) : Sims d 0 (storeUnlinkN f t) fun a => a.unlinkN d f t := by
  intro k s a h1 hk h2
  cases f with
  | none => exact ⟨rfl, h2, h1⟩
  | some f =>
    cases t with
    | none =>
      unfold alone storeUnlinkN AStore.unlinkN
      simp only [eval_bind, Graph.unlinkN, Prog.eval]
      rcases known_cases h2 f with ⟨n, e1, e2⟩ | ⟨e1, e2⟩
      · simp only [e1, e2, Prog.eval, reduceCtorEq, if_false]
        exact ⟨trivial, h2, h1⟩
      · simp only [e1, e2, Prog.eval, if_true]
        exact ⟨trivial, h2, h1⟩
    | some t =>
      unfold alone
      rw [show (storeUnlinkN (some f) (some t)).eval s = (storeUnlinkP f t).eval s from rfl, eval_unlink]
      exact ⟨rfl, unlink_sim h1 h2 f t, unlink_sInv h1 f t⟩

theorem sims_loop {α : Type} {d : Bool} {c : Nat} {f : α → SProg (Res Err Unit)} {fa : AStore → α → Res Err Unit × AStore}
    (hf : ∀ x, Sims d c (f x) fun a => fa a x) (xs : List α) :
    Sims d (c * xs.length) (loopP f xs) fun a => stopAtFirst fa a xs := by
  intro k s a h1 hk h2
  have := loop_sim (d := d) c (fun s x => alone (f x) s) fa (fun k s a x h1 h2 h3 => hf x k s a h1 h2 h3) xs k s a h1 hk h2
  unfold alone
  rw [eval_loop f (fun s x => alone (f x) s) (fun x s => rfl)]
  exact this

theorem alone_out (p : SProg (Res Err Unit)) (s : St) :
    (Prog.excl Mtx.store (out .unit p)).eval s = ((alone p s).2, .unit (alone p s).1) := by
  simp only [out, eval_excl, eval_bind, Prog.eval, alone]

/-- One call made alone. -/
def seqN (s : St) (op : NOp) : St × COut := (progN op).eval s

theorem step_simN {d : Bool} {k : Nat} {s : St} {a : AStore} (hs : SInv d k s) (hsim : Sim s a) (op : NOp)
    (w : Res Err Unit × AStore) (hw : a.stepN d op = some w) (hk : k + addsN [op] ≤ 2 ^ 63) :
    (seqN s op).2 = .unit w.1 ∧ Sim (seqN s op).1 w.2 ∧ SInv d (k + addsN [op]) (seqN s op).1 := by
  have key : ∀ c (p : SProg (Res Err Unit)) (fa : AStore → Res Err Unit × AStore), Sims d c p fa → w = fa a → k + c ≤ 2 ^ 63 →
      ((Prog.excl Mtx.store (out .unit p)).eval s).2 = .unit w.1 ∧
      Sim ((Prog.excl Mtx.store (out .unit p)).eval s).1 w.2 ∧
      SInv d (k + c) ((Prog.excl Mtx.store (out .unit p)).eval s).1 := by
    intro c p fa h e hc
    obtain ⟨h1, h2, h3⟩ := h k s a hs hc hsim
    subst e
    rw [alone_out]
    exact ⟨congrArg _ h1, h2, h3⟩
  cases op with
  | add o e opts => exact key 1 _ _ (sims_addN d o e opts) (Option.some.inj hw).symm hk
  | get u => cases hw
  | delete u => exact key 0 _ _ (sims_deleteN d u) (Option.some.inj hw).symm hk
  | link fresh na f t opts => exact key 0 _ _ (sims_linkN d fresh na f t opts) (Option.some.inj hw).symm hk
  | unlink f t => exact key 0 _ _ (sims_unlinkN d f t) (Option.some.inj hw).symm hk
  | bulkAdd es opts =>
    have e : addsN [NOp.bulkAdd es opts] = 1 * es.length := by simp [addsN]
    rw [e] at hk ⊢
    exact key _ _ _ (sims_loop (fun x => sims_addN d x.1 x.2 opts) es) (Option.some.inj hw).symm hk
  | bulkGet us => cases hw
  | bulkDelete us =>
    have := key _ _ _ (sims_loop (fun x => sims_deleteN d x) us) (Option.some.inj hw).symm (by rw [Nat.zero_mul]; exact hk)
    rwa [Nat.zero_mul] at this
  | bulkLink f us opts =>
    have := key _ _ _ (sims_loop (fun x : Uid × Nat × Option Uid => sims_linkN d x.1 x.2.1 f x.2.2 opts) us)
      (Option.some.inj hw).symm (by rw [Nat.zero_mul]; exact hk)
    rwa [Nat.zero_mul] at this
  | bulkUnlink f us =>
    have := key _ _ _ (sims_loop (fun x => sims_unlinkN d f x) us) (Option.some.inj hw).symm (by rw [Nat.zero_mul]; exact hk)
    rwa [Nat.zero_mul] at this

theorem eval_getN (u : Option Uid) (s : St) : (getN u).eval s = (s, match u with | some u => get s u | none => .panic) := by
  cases u with
  | none => rfl
  | some u => exact eval_get u s

theorem eval_bulkGetN (us : List (Option Uid)) : ∀ ents s, ((bulkGetN us ents).eval s).1 = s := by
  induction us with
  | nil => intro ents s; rfl
  | cons u us ih =>
    intro ents s
    simp only [bulkGetN, eval_bind, eval_getN]
    cases u with
    | none => rfl
    | some u =>
      dsimp only
      cases get s u with
      | ok n => exact ih _ s
      | err x => rfl
      | panic => rfl

theorem read_simN {d : Bool} {s : St} (a : AStore) (op : NOp) (h : a.stepN d op = none) : (seqN s op).1 = s := by
  cases op with
  | get u => simp only [seqN, progN, out, eval_shared, eval_bind, eval_getN, Prog.eval]
  | bulkGet us => simp only [seqN, progN, out, eval_shared, eval_bind, eval_bulkGetN, Prog.eval]
  | _ => cases h

theorem addsN_cons (op : NOp) (ops : List NOp) : addsN (op :: ops) = addsN [op] + addsN ops := by
  cases op <;> simp [addsN] <;> omega

theorem addsN_append (l l' : List NOp) : addsN (l ++ l') = addsN l + addsN l' := by
  induction l with
  | nil => simp [addsN]
  | cons x l ih => rw [List.cons_append, addsN_cons, ih, addsN_cons x l]; omega

theorem run_simN {d : Bool} (pre : List (Nat × NOp × COut)) : ∀ {k : Nat} {s : St} {a : AStore}, SInv d k s → Sim s a →
    k + addsN (pre.map fun y => y.2.1) ≤ 2 ^ 63 →
    Sim (final seqN s pre) (afterN d a (pre.map fun y => y.2.1)) ∧
    SInv d (k + addsN (pre.map fun y => y.2.1)) (final seqN s pre) := by
  induction pre with
  | nil => intro k s a h1 h2 _; exact ⟨h2, h1⟩
  | cons y pre ih =>
    intro k s a h1 h2 hk
    rw [List.map_cons, addsN_cons] at hk ⊢
    have hstep : Sim (seqN s y.2.1).1 (match a.stepN d y.2.1 with | some r => r.2 | none => a) ∧
        SInv d (k + addsN [y.2.1]) (seqN s y.2.1).1 := by
      cases hw : a.stepN d y.2.1 with
      | none =>
        rw [read_simN a y.2.1 hw]
        exact ⟨h2, h1.mono (Nat.le_add_right _ _)⟩
      | some w => exact (step_simN h1 h2 y.2.1 w hw (by omega)).2
    obtain ⟨g1, g2⟩ := ih hstep.2 hstep.1 (by omega)
    exact ⟨g1, by rw [← Nat.add_assoc]; exact g2⟩

theorem get_known {s : St} {a : AStore} (h : Sim s a) {x : Option Uid} (hx : a.Known x) :
    ∃ n, (match x with | some u => get s u | none => .panic) = .ok n := by
  obtain ⟨u, e, rfl, he⟩ := hx
  have := Props.get_sim h u
  rw [he] at this
  obtain ⟨n, hn, -⟩ := this
  exact ⟨n, hn⟩

theorem bulkGetN_ok {s : St} {a : AStore} (h : Sim s a) (us : List (Option Uid)) (hall : ∀ u ∈ us, a.Known u) : ∀ ents,
    ∃ ns, ((bulkGetN us ents).eval s).2 = .ok ns ∧ ns.length = ents.length := by
  induction us with
  | nil => intro ents; exact ⟨_, rfl, rfl⟩
  | cons u us ih =>
    intro ents
    simp only [bulkGetN, eval_bind, eval_getN]
    obtain ⟨n, hn⟩ := get_known h (hall u List.mem_cons_self)
    rw [hn]
    obtain ⟨ns, h1, h2⟩ := ih (fun u hu => hall u (List.mem_cons_of_mem _ hu)) (ents.set 0 (some n))
    exact ⟨ns, h1, by rw [h2, List.length_set]⟩

theorem bulkGetN_bad {s : St} {a : AStore} (h : Sim s a) (x : Option Uid) (post : List (Option Uid)) (hx : ¬ a.Known x)
    (pre : List (Option Uid)) (hall : ∀ u ∈ pre, a.Known u) : ∀ ents,
    ((bulkGetN (pre ++ x :: post) ents).eval s).2 = if x = none then .panic else .err .entityNotFound := by
  induction pre with
  | nil =>
    intro ents
    simp only [List.nil_append, bulkGetN, eval_bind, eval_getN]
    cases x with
    | none => rfl
    | some u =>
      dsimp only
      have hg := Props.get_sim h u
      cases he : a.ent u.str with
      | none =>
        rw [he] at hg
        rw [hg]
        rfl
      | some e => exact absurd ⟨u, e, rfl, he⟩ hx
  | cons u us ih =>
    intro ents
    simp only [List.cons_append, bulkGetN, eval_bind, eval_getN]
    obtain ⟨n, hn⟩ := get_known h (hall u List.mem_cons_self)
    rw [hn]
    exact ih (fun u hu => hall u (List.mem_cons_of_mem _ hu)) _

theorem rightN {d : Bool} {s₀ : St} (h0 : Start d s₀) (pre : List (Nat × NOp × COut)) (op : NOp) :
    RightN d (pre.map fun y => y.2.1) op (seqN (final seqN s₀ pre) op).2 := by
  intro hn
  rw [addsN_append] at hn
  obtain ⟨i1, i2⟩ := Props.sInv_start h0
  obtain ⟨hsim, hinv⟩ := run_simN pre i1 i2 (by omega)
  rw [Nat.zero_add] at hinv
  generalize final seqN s₀ pre = s at hsim hinv
  generalize pre.map (fun y => y.2.1) = hist at hsim hinv hn
  have hstep : ∀ w, (afterN d .empty hist).stepN d op = some w → (seqN s op).2 = .unit w.1 :=
    fun w hw => (step_simN hinv hsim op w hw hn).1
  cases op with
  | get u =>
    cases u with
    | none => simp only [seqN, progN, out, eval_shared, eval_bind, eval_getN, Prog.eval]
    | some u =>
      have hev : (seqN s (.get (some u))).2 = .ent (get s u) := by
        simp only [seqN, progN, out, eval_shared, eval_bind, eval_getN, Prog.eval]
      rw [hev]
      have := Props.get_sim hsim u
      dsimp only
      split <;> rename_i h <;> rw [h] at this
      · obtain ⟨n, h1, h2⟩ := this
        exact ⟨n, congrArg _ h1, h2⟩
      · exact congrArg _ this
  | bulkGet us =>
    have hev : (seqN s (.bulkGet us)).2 = .ents ((bulkGetN us (List.replicate us.length none)).eval s).2 := by
      simp only [seqN, progN, out, eval_shared, eval_bind, Prog.eval]
    refine ⟨_, hev, ?_, ?_⟩
    · rintro pre x post rfl h1 h2
      exact bulkGetN_bad hsim x post h2 pre h1 _
    · intro h
      obtain ⟨ns, h1, h2⟩ := bulkGetN_ok hsim us h (List.replicate us.length none)
      exact ⟨ns, h1, by rw [h2, List.length_replicate]⟩
  | _ => exact hstep

end Netscrape.Store
