import Verif.Lemmas.GraphEx
import Verif.Lemmas.GraphLeak
import Verif.Lemmas.GraphMixed
import Verif.Lemmas.GraphSections
import Verif.Props.Graph
import Verif.Props.Linearizable
import Verif.Props.SubGraph

/-!
# C40, C41, C42: one graph used by many goroutines

In the theorems `c` is any configuration that any number of goroutines reach, in any interleaving of
their micro-steps.
-/

namespace Netscrape.Props
open Netscrape Netscrape.Conc Netscrape.Spec Netscrape.Graph

abbrev GCfg := Cfg Unit Graph.Loc St Graph.COp Graph.COut

/-! ## C40 -/

/-- **C40** for the methods in `allowed`. -/
def ConsistentStatement (allowed : Graph.COp → Prop) : Prop :=
  ∀ (heap : Heap) (d : Bool) (u : Uid) (opts : List Graph.Opt) (c : GCfg),
    Reach (Graph.prog ()) allowed ⟨heap, new d u opts⟩ c → FromNewNode c.hist →
    (∀ t, c.calls t = none) → SameUids c.data.g

/-- A complete call of `NewNode`, `AddNode` (of a new node), `RemoveNode` (of a node that is there). -/
def exNewNode (t i : Nat) (name : String) : List (Act Graph.COp) :=
  [.call t (.newNode Order.id (exEnt i name) [])] ++ taus t 9 ++ [.ret t]
def exAddNode (t : Nat) (n : Node) : List (Act Graph.COp) := [.call t (.addNode n [])] ++ taus t 6 ++ [.ret t]
def exRemove (t : Nat) (u : Uid) : List (Act Graph.COp) := [.call t (.removeNode u)] ++ taus t 8 ++ [.ret t]

/-- Goroutines 0 and 1 both call `NewNode`, then both call `AddNode`. -/
def exTwoNew : List (Act Graph.COp) :=
  exNewNode 0 1 "a" ++ exNewNode 1 2 "b" ++ exAddNode 0 ⟨exEnt 1 "a", 0, "a", 0⟩ ++
    exAddNode 1 ⟨exEnt 2 "b", 0, "b", 1⟩

/-- Goroutine 1 is between the two critical sections of `RemoveNode a` while 0 removes `a`, adds `w` (which
gets the ID of `a`) and adds `a` again. -/
def exReAdd : List (Act Graph.COp) :=
  exNewNode 0 1 "a" ++ exAddNode 0 ⟨exEnt 1 "a", 0, "a", 0⟩ ++
  [.call 1 (.removeNode uA)] ++ taus 1 3 ++
  exRemove 0 uA ++ exNewNode 0 5 "w" ++ exAddNode 0 ⟨exEnt 5 "w", 0, "w", 1⟩ ++
  exNewNode 0 1 "a" ++ exAddNode 0 ⟨exEnt 1 "a", 1, "a", 2⟩ ++
  taus 1 5 ++ [.ret 1]

/-- A check for `FromNewNode`. -/
def chkNew : List Node → List (Ev Graph.COp Graph.COut) → Bool
  | _, [] => true
  | seen, .inv _ _ (.addNode n _) :: h => decide (n ∈ seen) && chkNew seen h
  | seen, .inv _ _ _ :: h => chkNew seen h
  | seen, .res _ _ (.node (.ok n)) :: h => chkNew (n :: seen) h
  | seen, .res _ _ _ :: h => chkNew seen h

theorem fromNewNode_of_chk : ∀ (h pre : List (Ev Graph.COp Graph.COut)) (seen : List Node),
    (∀ n ∈ seen, ∃ c t, Ev.res c t (.node (.ok n)) ∈ pre) → chkNew seen h = true →
    ∀ c t n opts, Ev.inv c t (.addNode n opts) ∈ h →
      ∃ c' t', Before (Ev.res c' t' (.node (.ok n))) (Ev.inv c t (.addNode n opts)) (pre ++ h) := by
  intro h
  induction h with
  | nil => intro pre seen _ _ c t n opts hm; cases hm
  | cons e h ih =>
    intro pre seen hseen hchk c t n opts hm
    have hgrow : ∀ n ∈ seen, ∃ c t, Ev.res c t (.node (.ok n)) ∈ pre ++ [e] := by
      intro n hn
      obtain ⟨c, t, h⟩ := hseen n hn
      exact ⟨c, t, List.mem_append_left _ h⟩
    have hrest : ∀ seen', (∀ n ∈ seen', ∃ c t, Ev.res c t (.node (.ok n)) ∈ pre ++ [e]) →
        chkNew seen' h = true → Ev.inv c t (.addNode n opts) ∈ h →
        ∃ c' t', Before (Ev.res c' t' (.node (.ok n))) (Ev.inv c t (.addNode n opts)) (pre ++ e :: h) := by
      intro seen' h1 h2 h3
      have := ih (pre ++ [e]) seen' h1 h2 c t n opts h3
      rwa [List.append_assoc] at this
    unfold chkNew at hchk
    rcases List.mem_cons.mp hm with rfl | hm'
    · simp only [Bool.and_eq_true, decide_eq_true_eq] at hchk
      obtain ⟨c', t', hpre⟩ := hseen n hchk.1
      obtain ⟨l1, l2, rfl⟩ := List.append_of_mem hpre
      exact ⟨c', t', l1, l2, h, by simp⟩
    · split at hchk
      · next heq => cases heq
      · next heq =>
        cases heq
        rw [Bool.and_eq_true] at hchk
        exact hrest _ hgrow hchk.2 hm'
      · next heq => cases heq; exact hrest _ hgrow hchk hm'
      · next heq =>
        cases heq
        refine hrest _ ?_ hchk hm'
        intro m hm
        rcases List.mem_cons.mp hm with rfl | hm
        · exact ⟨_, _, List.mem_append_right _ (List.mem_singleton.mpr rfl)⟩
        · exact hgrow m hm
      · next heq => cases heq; exact hrest _ hgrow hchk hm'

/-- The goroutine of a scheduler decision. -/
def who {Op : Type} : Act Op → Nat
  | .call t _ => t
  | .tau t => t
  | .ret t => t

theorem step_other {μ κ σ Op Out : Type} [DecidableEq μ] {prog : Op → Prog μ κ σ Out}
    {c c' : Cfg μ κ σ Op Out} {a : Act Op} (h : step prog c a = some c') {t : Nat} (ht : who a ≠ t) :
    c'.calls t = c.calls t := by
  have key : ∀ (t' : Nat) (k : Option (Call μ κ σ Op Out)), t' ≠ t → upd c.calls t' k t = c.calls t :=
    fun t' k hne => upd_ne _ _ (Ne.symm hne)
  cases a with
  | call t' op =>
    unfold Conc.step at h
    cases hc : c.calls t' with
    | some k => simp only [hc, reduceCtorEq] at h
    | none => simp only [hc, Option.some.injEq] at h; subst h; exact key t' _ ht
  | tau t' =>
    unfold Conc.step at h
    cases hc : c.calls t' with
    | none => simp only [hc, reduceCtorEq] at h
    | some k =>
      simp only [hc] at h
      cases hm : micro c k with
      | none => simp only [hm, reduceCtorEq] at h
      | some r => simp only [hm, Option.some.injEq] at h; subst h; exact key t' _ ht
  | ret t' =>
    unfold Conc.step at h
    cases hc : c.calls t' with
    | none => simp only [hc, reduceCtorEq] at h
    | some k =>
      cases hp : k.prog with
      | ret r => simp only [hc, hp, Option.some.injEq] at h; subst h; exact key t' _ ht
      | _ => simp only [hc, hp, reduceCtorEq] at h

theorem exec_other {μ κ σ Op Out : Type} [DecidableEq μ] {prog : Op → Prog μ κ σ Out} (as : List (Act Op)) :
    ∀ {c c' : Cfg μ κ σ Op Out}, exec prog c as = some c' → ∀ {t : Nat}, (∀ a ∈ as, who a ≠ t) →
    c'.calls t = c.calls t := by
  induction as with
  | nil => intro c c' h t _; simp only [exec, Option.some.injEq] at h; rw [h]
  | cons a as ih =>
    intro c c' h t ht
    simp only [exec] at h
    cases hs : step prog c a with
    | none => simp only [hs, reduceCtorEq] at h
    | some c1 =>
      simp only [hs] at h
      rw [ih h (fun b hb => ht b (by simp [hb])), step_other hs (ht a (by simp))]

/-- A schedule of goroutines 0 and 1 with these observations refutes consistency. -/
theorem not_consistent {allowed : Graph.COp → Prop} (as : List (Act Graph.COp)) (k : String)
    (hok : ∀ a ∈ as, ∀ t op, a = .call t op → allowed op) (hwho : ∀ a ∈ as, who a < 2)
    (hrun : (exec (Graph.prog ()) (.init (exInit true)) as).map (fun c =>
      ((c.calls 0).isNone, (c.calls 1).isNone, chkNew [] c.hist,
        decide (k ∈ (nodesList c.data.g Order.id).map fun n => n.uid.str) !=
          (c.data.g.nodes.get? k).isSome)) = some (true, true, true, true)) :
    ¬ ConsistentStatement allowed := by
  intro hst
  obtain ⟨c, hc, he⟩ := Option.map_eq_some_iff.mp hrun
  simp only [Prod.mk.injEq, Option.isNone_iff_eq_none, bne_iff_ne, ne_eq] at he
  obtain ⟨h0, h1, hchk, hne⟩ := he
  have hidle : ∀ t, c.calls t = none := by
    intro t
    match t with
    | 0 => exact h0
    | 1 => exact h1
    | n + 2 => exact exec_other as hc (fun a ha e => by have := hwho a ha; omega)
  have hs := hst Heap.empty true ⟨0, "graph"⟩ [] c (reach_exec as .init hok hc)
    (fromNewNode_of_chk c.hist [] [] (fun n hn => by cases hn) hchk) hidle Order.id k
  apply hne
  by_cases hk : k ∈ (nodesList c.data.g Order.id).map fun n => n.uid.str
  · obtain ⟨u, n, rfl, hn⟩ := hs.mp hk
    rw [decide_eq_true hk]
    unfold node at hn
    cases hg : c.data.g.nodes.get? u.str with
    | none => rw [hg] at hn; cases hn
    | some m => rfl
  · rw [decide_eq_false hk]
    cases hg : c.data.g.nodes.get? k with
    | none => rfl
    | some m => exact absurd (hs.mpr ⟨⟨0, k⟩, m, rfl, by unfold node; rw [hg]⟩) hk

/-- Decides which methods a schedule calls. -/
theorem allowed_of {P : Graph.COp → Bool} {as : List (Act Graph.COp)}
    (h : as.all (fun a => match a with | .call _ op => P op | _ => true) = true) :
    ∀ a ∈ as, ∀ t op, a = .call t op → P op = true := by
  intro a ha t op e
  subst e
  exact List.all_eq_true.mp h _ ha

/-- **C40 is violated** by goroutines that only create and add nodes: `NewNode` does not reserve the ID it
hands out. -/
theorem c40_new_violated : ¬ ConsistentStatement (fun op =>
    (match op with | .newNode .. => true | .addNode .. => true | _ => false) = true) :=
  not_consistent exTwoNew "b" (allowed_of (by decide)) (by decide) (by decide)

/-- **C40 is violated** without links, even if every node is added before the next one is created: of two
overlapping `RemoveNode` calls the late one removes the wrong node. -/
theorem c40_remove_violated : ¬ ConsistentStatement (fun op =>
    (match op with | .newNode .. => true | .addNode .. => true | .removeNode _ => true | _ => false) = true) :=
  not_consistent exReAdd "a" (allowed_of (by decide)) (by decide) (by decide)

/-- Goroutine 1 is between the two critical sections of `Link a b` while 0 removes `a`. -/
def exLinkGone : List (Act Graph.COp) :=
  exAddNode 0 (exNode 0 "a") ++ exAddNode 0 (exNode 1 "b") ++
  [.call 1 (.link ⟨100, "e"⟩ 200 uA uB [])] ++ taus 1 9 ++
  exRemove 0 uA ++ taus 1 5 ++ [.ret 1]

/-- **C40** for callers who choose IDs themselves, without ever giving one to two UIDs or two to one. -/
def PoolStatement : Prop :=
  ∀ (P : Node → Prop), Pool P → ∀ (heap : Heap) (d : Bool) (u : Uid) (opts : List Graph.Opt) (c : GCfg),
    Reach (Graph.prog ()) (fun op => match op with | .addNode n _ => P n | .dot => False | _ => True)
      ⟨heap, new d u opts⟩ c →
    (∀ t, c.calls t = none) → SameUids c.data.g

/-- **C40 is violated** even then, by one `Link` and one `RemoveNode`: the link brings the node back into the
enumeration but not into the lookup. -/
theorem c40_link_violated : ¬ PoolStatement := by
  intro hst
  have hrun : (exec (Graph.prog ()) (.init (exInit true)) exLinkGone).map (fun c =>
      ((c.calls 0).isNone, (c.calls 1).isNone,
        decide ("a" ∈ (nodesList c.data.g Order.id).map fun n => n.uid.str),
        (c.data.g.nodes.get? "a").isNone)) = some (true, true, true, true) := by decide
  obtain ⟨c, hc, he⟩ := Option.map_eq_some_iff.mp hrun
  simp only [Prod.mk.injEq, Option.isNone_iff_eq_none, decide_eq_true_eq] at he
  obtain ⟨h0, h1, hin, hno⟩ := he
  have hP : Pool (fun n => n = exNode 0 "a" ∨ n = exNode 1 "b") := by
    rintro n m (rfl | rfl) (rfl | rfl) <;> decide
  obtain ⟨u, n, hu, hn⟩ := (hst _ hP Heap.empty true ⟨0, "graph"⟩ [] c
    (reach_exec exLinkGone .init (by
      intro a ha t op e
      subst e
      simp [exLinkGone, exAddNode, exRemove, taus] at ha
      rcases ha with ⟨-, rfl⟩ | ⟨-, rfl⟩ | ⟨-, rfl⟩ | ⟨-, rfl⟩
      · exact .inl rfl
      · exact .inr rfl
      · trivial
      · trivial) hc) (by
      intro t
      match t with
      | 0 => exact h0
      | 1 => exact h1
      | n + 2 => exact exec_other exLinkGone hc (fun a ha e => by
          have : ∀ a ∈ exLinkGone, who a < 2 := by decide
          have := this a ha; omega)) Order.id "a").mp hin
  unfold node at hn
  rw [hu, hno] at hn
  cases hn

/-- **C40, what holds**: if nodes have fixed IDs and there are no `Link` calls (`rem = True`) or no
`RemoveNode` calls (`rem = False`), then whenever nobody has the write lock, `Nodes` and `Node` agree on which
UIDs and IDs exist and go together, and each is listed once. -/
theorem c40_fixed_ids_partial {P : Node → Prop} (hP : Pool P) {rem : Prop} {heap : Heap} {d : Bool} {u : Uid}
    {opts : List Graph.Opt} {c : GCfg} (hr : Reach (Graph.prog ()) (Fixed P rem) ⟨heap, new d u opts⟩ c)
    (hfree : (c.mus ()).wr ≠ .held) (o : Order (Int × Node)) :
    (∀ k i, (∃ n ∈ nodesList c.data.g o, n.uid.str = k ∧ n.id = i) ↔
      ∃ u n, u.str = k ∧ node c.data.g u = .ok n ∧ n.uid.str = k ∧ n.id = i) ∧
    ((nodesList c.data.g o).map (fun n => n.uid.str)).Nodup ∧
    ((nodesList c.data.g o).map Node.id).Nodup :=
  agree_ids (fixedInv hP ⟨wgInv_new d u opts, fun k n hn => by cases hn⟩ hr hfree).inv o

/-- In particular once all calls have returned; `rem` as above. -/
theorem c40_fixed_idle_partial {P : Node → Prop} (hP : Pool P) {rem : Prop} {heap : Heap} {d : Bool} {u : Uid}
    {opts : List Graph.Opt} {c : GCfg} (hr : Reach (Graph.prog ()) (Fixed P rem) ⟨heap, new d u opts⟩ c)
    (hidle : ∀ t, c.calls t = none) : SameUids c.data.g := by
  have hfree := idle_free (fun op h => disc_strict op (by cases op <;> first | exact id | exact fun _ => h))
    hr hidle
  have hinv := (fixedInv hP ⟨wgInv_new d u opts, fun k n hn => by cases hn⟩ hr hfree).inv
  intro o k
  have := (c40_fixed_ids_partial hP hr hfree o).1
  constructor
  · intro hk
    obtain ⟨n, hn, rfl⟩ := List.mem_map.mp hk
    obtain ⟨v, m, h1, h2, -, -⟩ := (this n.uid.str n.id).mp ⟨n, hn, rfl, rfl⟩
    exact ⟨v, m, h1, h2⟩
  · rintro ⟨v, m, rfl, hm⟩
    obtain ⟨n, hn, hk, -⟩ := (this v.str m.id).mpr
      ⟨v, m, rfl, hm, hinv.keyOf _ _ ((hinv.node_eq _ _).mp hm), rfl⟩
    exact List.mem_map.mpr ⟨n, hn, hk⟩

/-- Non-vacuity: with `rem`, two goroutines remove `a` at the same time, and it is added back in between. -/
example : (exec (Graph.prog ()) (.init (exInit true))
    (exAddNode 0 (exNode 0 "a") ++ exAddNode 0 (exNode 1 "b") ++ [.call 1 (.removeNode uA)] ++ taus 1 3 ++
      exRemove 0 uA ++ exAddNode 0 (exNode 0 "a") ++ taus 1 5 ++ [.ret 1])).map (fun c =>
      ((nodesList c.data.g Order.id).map (fun n => n.uid.str), c.data.g.nodes.entries.map (·.1),
        (c.calls 0).isNone, (c.calls 1).isNone)) = some (["b"], ["b"], true, true) := by decide

/-- Non-vacuity: without, a node is replaced between the two critical sections of `Link`. -/
example : (exec (Graph.prog ()) (.init (exInit true))
    (exAddNode 0 (exNode 0 "a") ++ exAddNode 0 (exNode 1 "b") ++ [.call 1 (.link ⟨100, "e"⟩ 200 uA uB [])] ++
      taus 1 9 ++ [.call 0 (.addNode (exNode 0 "a") [.withUpsert])] ++ taus 0 7 ++ [.ret 0] ++
      taus 1 5 ++ [.ret 1])).map (fun c =>
      ((nodesList c.data.g Order.id).map (fun n => n.uid.str), c.data.g.nodes.entries.map (·.1),
        (c.calls 0).isNone, (c.calls 1).isNone)) = some (["b", "a"], ["a", "b"], true, true) := by decide

/-- **C40, what holds** with `Link` and `RemoveNode` at the same time: if nodes have fixed IDs, then whenever
nobody has the write lock, every node that `Node` finds is listed by `Nodes` under the same UID and ID, and
`Nodes` lists each UID and ID once. (Of SameUids only "every listed node is found" can fail, as above.) -/
theorem c40_found_listed_partial {P : Node → Prop} (hP : Pool P) {heap : Heap} {d : Bool} {u : Uid}
    {opts : List Graph.Opt} {c : GCfg}
    (hr : Reach (Graph.prog ()) (fun op => (match op with | .addNode n _ => P n | _ => True) ∧ ¬ isDot op)
      ⟨heap, new d u opts⟩ c)
    (hfree : (c.mus ()).wr ≠ .held) (o : Order (Int × Node)) :
    (∀ v n, node c.data.g v = .ok n →
      n.uid.str = v.str ∧ ∃ m ∈ nodesList c.data.g o, m.uid.str = v.str ∧ m.id = n.id) ∧
    ((nodesList c.data.g o).map (fun n => n.uid.str)).Nodup ∧
    ((nodesList c.data.g o).map Node.id).Nodup := by
  have h : Pooled P c.data.g := (kept_pooled hP).inv (fun _ h => h) (pooled_new P d u opts) hr hfree
  have hids := Gonum.nodup_allNodes_ids h.gonum o
  refine ⟨?_, ?_, hids⟩
  · intro v n hn
    have hn : c.data.g.nodes.get? v.str = some n := by
      unfold node at hn
      cases hg : c.data.g.nodes.get? v.str with
      | none => rw [hg] at hn; cases hn
      | some m => rw [hg] at hn; cases hn; rfl
    have hk : n.uid.str = v.str := h.keyOf _ _ hn
    obtain ⟨m, hm⟩ := h.listed _ _ hn
    have hid := h.gonum.nodeID _ _ hm
    refine ⟨hk, m, (Gonum.mem_allNodes _ o m).mpr ⟨_, hm⟩, ?_, hid⟩
    rw [← hk]
    exact (hP m n (h.bpool _ _ hm) (h.pool _ _ hn)).mpr hid
  · have hPl : ∀ n ∈ nodesList c.data.g o, P n := by
      intro n hn
      obtain ⟨i, hi⟩ := (Gonum.mem_allNodes _ o n).mp hn
      exact h.bpool _ _ hi
    have hids : ((nodesList c.data.g o).map Node.id).Nodup := hids
    generalize nodesList c.data.g o = l at hids hPl
    unfold List.Nodup at hids ⊢
    rw [List.pairwise_map] at hids ⊢
    refine hids.imp_of_mem ?_
    intro a b ha hb hne e
    exact hne ((hP a b (hPl a ha) (hPl b hb)).mp e)

/-- **C40, what holds of the edges**, whatever methods but `DOT` run at the same time and however callers
choose IDs: whenever nobody has the write lock, each edge that `Edges` lists joins two different nodes that
`Nodes` lists, and `Nodes` lists no ID twice. -/
theorem c40_edges_partial {heap : Heap} {d : Bool} {u : Uid} {opts : List Graph.Opt} {c : GCfg}
    (hr : Reach (Graph.prog ()) (fun op => ¬ isDot op) ⟨heap, new d u opts⟩ c)
    (hfree : (c.mus ()).wr ≠ .held) (o : Order (Int × Node)) (eo : Gonum.EdgeOrder) :
    (∀ e ∈ edgesList c.data.g eo, e.src.id ≠ e.dst.id ∧
      (∃ n ∈ nodesList c.data.g o, n.id = e.src.id) ∧ ∃ n ∈ nodesList c.data.g o, n.id = e.dst.id) ∧
    ((nodesList c.data.g o).map Node.id).Nodup := by
  have h : Gonum.Inv c.data.g.b := kept_gonum.inv (fun _ h => ⟨trivial, h⟩) (wgInv_new d u opts).gonum hr hfree
  refine ⟨?_, Gonum.nodup_allNodes_ids h o⟩
  intro e he
  obtain ⟨-, -, hne, ⟨n, hn⟩, m, hm⟩ := Gonum.weightedEdge_ends h (Gonum.weightedEdges_sound h eo he)
  exact ⟨hne, ⟨n, (Gonum.mem_allNodes _ o n).mpr ⟨_, hn⟩, h.nodeID _ _ hn⟩,
    m, (Gonum.mem_allNodes _ o m).mpr ⟨_, hm⟩, h.nodeID _ _ hm⟩

/-- Non-vacuity: after the schedule of `c40_link_violated`, `b` is found and listed, and the link is between
listed nodes. -/
example : (exec (Graph.prog ()) (.init (exInit true)) exLinkGone).map (fun c =>
      ((nodesList c.data.g Order.id).map (fun n => (n.uid.str, n.id)), c.data.g.nodes.entries.map (·.1),
        (edgesList c.data.g Gonum.EdgeOrder.id).map (fun e => (e.src.id, e.dst.id)))) =
    some ([("b", 1), ("a", 0)], ["b"], [(0, 1)]) := by decide

/-! ## C41 -/

/-- **C41** for the methods in `allowed`. -/
def CompletesStatement (allowed : Graph.COp → Prop) : Prop :=
  ∀ (s : St) (c : GCfg), Reach (Graph.prog ()) allowed s c → Completes (Graph.prog ()) c

/-- A schedule of goroutines 0 and 1 after which neither can go on, though 1 is in a call. -/
theorem not_completes {allowed : Graph.COp → Prop} (s : St) (as : List (Act Graph.COp))
    (hok : ∀ a ∈ as, ∀ t op, a = .call t op → allowed op) (hwho : ∀ a ∈ as, who a < 2)
    (hrun : (exec (Graph.prog ()) (.init s) as).map (fun c =>
      ((c.calls 1).isSome, (step (Graph.prog ()) c (.tau 0)).isNone, (step (Graph.prog ()) c (.ret 0)).isNone,
        (step (Graph.prog ()) c (.tau 1)).isNone, (step (Graph.prog ()) c (.ret 1)).isNone)) =
      some (true, true, true, true, true)) : ¬ CompletesStatement allowed := by
  intro hst
  obtain ⟨c, hc, he⟩ := Option.map_eq_some_iff.mp hrun
  simp only [Prod.mk.injEq, Option.isNone_iff_eq_none] at he
  obtain ⟨hin, h0, h0', h1, h1'⟩ := he
  have hother : ∀ n, c.calls (n + 2) = none := fun n =>
    exec_other as hc (fun a ha e => by have := hwho a ha; omega)
  have := (hst s c (reach_exec as .init hok hc)).idle [] c (fun a ha => by cases ha) rfl (by
    intro a ha
    match a, ha with
    | .tau 0, _ => exact h0
    | .tau 1, _ => exact h1
    | .tau (n + 2), _ => unfold Conc.step; simp only [hother]
    | .ret 0, _ => exact h0'
    | .ret 1, _ => exact h1'
    | .ret (n + 2), _ => unfold Conc.step; simp only [hother]) 1
  rw [this] at hin
  cases hin

/-- **C41 is violated** by `Link`: a writer announces itself between its two read locks. -/
theorem c41_link_violated : ¬ CompletesStatement (fun op => ¬ isDot op) :=
  not_completes (exSt true) [.call 0 (.link ⟨100, "e"⟩ 200 uA uC []), .tau 0,
    .call 1 (.addNode (exNode 3 "d") []), .tau 1]
    (by
      intro a ha t op e
      subst e
      simp at ha
      rcases ha with ⟨-, rfl⟩ | ⟨-, rfl⟩ <;> exact id) (by decide) (by decide)

/-- **C41 is violated** by `DOT`, which returns with the read lock held (twice): no later writer ever gets
the lock. -/
theorem c41_dot_violated : ¬ CompletesStatement (fun op => ¬ isLink op) :=
  not_completes (exSt true) [.call 0 .dot, .tau 0, .tau 0, .tau 0, .ret 0,
    .call 1 (.addNode (exNode 3 "d") []), .tau 1]
    (by
      intro a ha t op e
      subst e
      simp at ha
      rcases ha with ⟨-, rfl⟩ | ⟨-, rfl⟩ <;> exact id) (by decide) (by decide)

/-- **C41, what holds**: calls of any methods but `Link` and `DOT` run to completion, under every scheduler. -/
theorem c41_completes_partial : CompletesStatement (fun op => ¬ isLink op ∧ ¬ isDot op) :=
  fun _ _ hr => completes (fun _ => no_deadlock () (fun _ => rfl) (fun op h => disc_flat op h.1 h.2)) hr

/-- **C41, what holds** with `Link`: every deadlock is of the kind above. Some `Link` call that has the read
lock is waiting to take it again, and a writer has announced itself. -/
theorem c41_deadlock_partial {s : St} {c : GCfg} (hr : Reach (Graph.prog ()) (fun op => ¬ isDot op) s c)
    (hd : Deadlock (Graph.prog ()) c) :
    (∃ t k p, c.calls t = some k ∧ isLink k.op ∧ (k.mine ()).readers ≠ 0 ∧ k.prog = .rlock () p) ∧
    (∃ t k p, c.calls t = some k ∧ (k.mine ()).wr = .announced ∧ k.prog = .acquire () p) := by
  have hdisc := fun op (h : ¬ isDot op) => disc_strict op h
  obtain ⟨t, k, n, p, hk, hm, hp⟩ := deadlock_nested () (fun _ => rfl) hdisc hr hd
  have hi := lockInv hdisc hr
  refine ⟨⟨t, k, p, hk, ?_, by rw [hm]; exact Nat.succ_ne_zero n, hp⟩, ?_⟩
  · apply Classical.byContradiction
    intro hl
    obtain ⟨h, hm', hd'⟩ := discCall (ops := fun op => ¬ isLink op)
      (fun op h1 h2 => disc_flat op h2 h1) hr t k hk hl
    rw [hp] at hd'
    simp only [Disc, if_true] at hd'
    obtain ⟨n', rfl, h0, -⟩ := hd'
    rw [hm', h0 trivial] at hm
    cases hm
  · -- the read lock is refused, so a writer is there; nobody can hold the lock beside a reader
    have hmic := tau_isSome hk (hd.2 t).1
    have hwr : (c.mus ()).wr ≠ .free := by
      intro hf
      unfold micro at hmic
      simp only [hp, hf, if_true, reduceCtorEq] at hmic
    obtain ⟨t', ht', -⟩ := hi.count.one hwr
    have hnh : (c.mus ()).wr ≠ .held := fun hh =>
      hi.count.readers_ne (t := t) (by rw [mineOf_some hk, hm]; exact Nat.succ_ne_zero n) (hi.count.held hh)
    have hann : (c.mus ()).wr = .announced := by
      cases h : (c.mus ()).wr with
      | free => exact absurd h hwr
      | announced => rfl
      | held => exact absurd h hnh
    rw [hann] at ht'
    cases hc : c.calls t' with
    | none => unfold mineOf at ht'; simp only [hc] at ht'; cases ht'
    | some k' =>
      rw [mineOf_some hc] at ht'
      obtain ⟨h, hm', hd'⟩ := hi.disc t' k' hc
      cases h with
      | rd n => rw [hm'] at ht'; cases ht'
      | wr => rw [hm'] at ht'; cases ht'
      | ann =>
        cases hp' : k'.prog with
        | acquire m q => exact ⟨t', k', q, hc, ht', hp'⟩
        | ret r => rw [hp'] at hd'; obtain ⟨_, e, _⟩ := hd'; cases e
        | lock m q => rw [hp'] at hd'; simp only [Disc, if_true, reduceCtorEq, false_and] at hd'
        | unlock m q => rw [hp'] at hd'; simp only [Disc, if_true, reduceCtorEq, false_and] at hd'
        | rlock m q => rw [hp'] at hd'; simp only [Disc, if_true] at hd'; obtain ⟨_, e, _⟩ := hd'; cases e
        | runlock m q => rw [hp'] at hd'; simp only [Disc, if_true] at hd'; obtain ⟨_, e, _⟩ := hd'; cases e
        | read l q => rw [hp'] at hd'; exact absurd rfl hd'.1
        | write l f q => rw [hp'] at hd'; exact absurd rfl hd'.1

/-- Non-vacuity: the schedule of `c41_link_violated` reaches such a deadlock. -/
example : ((exec (Graph.prog ()) (.init (exSt true)) [.call 0 (.link ⟨100, "e"⟩ 200 uA uC []), .tau 0,
    .call 1 (.addNode (exNode 3 "d") []), .tau 1]).map fun c =>
      (c.mus (), (step (Graph.prog ()) c (.tau 0)).isNone, (step (Graph.prog ()) c (.tau 1)).isNone)) =
    some (⟨1, .announced⟩, true, true) := by decide

/-- **C41, how far the damage goes**: once a call of `DOT` has returned (in `c`), no call of `NewNode`, or of
`AddNode` with a node of this package, that is made from then on ever returns, whatever else goroutines do. -/
theorem c41_after_dot_partial {s : St} {c c' : GCfg} (hr : Reach (Graph.prog ()) (fun _ => True) s c)
    {i t t' : Nat} {out : Graph.COut} (hcall : Ev.inv i t Graph.COp.dot ∈ c.hist) (hret : Ev.res i t' out ∈ c.hist)
    {as : List (Act Graph.COp)} (he : exec (Graph.prog ()) c as = some c') {j r : Nat} {op : Graph.COp}
    (hop : (∃ o e opts, op = .newNode o e opts) ∨ ∃ n opts, op = .addNode n opts)
    (hnew : Ev.inv j r op ∉ c.hist) (hmade : Ev.inv j r op ∈ c'.hist) (r' : Nat) (out' : Graph.COut) :
    Ev.res j r' out' ∉ c'.hist := by
  refine writer_stuck leaves_prog hr (DotDone.left ⟨i, t, t', out, hcall, hret⟩) (fun _ _ _ _ _ => trivial) he ?_ hnew
    hmade r' out'
  rcases hop with ⟨o, e, opts, rfl⟩ | ⟨n, opts, rfl⟩
  · exact mustLock_newNode o e opts
  · exact mustLock_addNode n opts

/-- **C41, how far the damage goes**: if a writer is waiting besides, no call of any method made from then on
ever returns (but `AddNode` of a foreign node, which needs no lock). -/
theorem c41_dot_writer_partial {s : St} {c c' : GCfg} (hr : Reach (Graph.prog ()) (fun _ => True) s c)
    {i t t' : Nat} {out : Graph.COut} (hcall : Ev.inv i t Graph.COp.dot ∈ c.hist) (hret : Ev.res i t' out ∈ c.hist)
    (hwr : (c.mus ()).wr = .announced)
    {as : List (Act Graph.COp)} (he : exec (Graph.prog ()) c as = some c') {j r : Nat} {op : Graph.COp}
    (hop : op ≠ .addForeign) (hnew : Ev.inv j r op ∉ c.hist) (hmade : Ev.inv j r op ∈ c'.hist) (r' : Nat)
    (out' : Graph.COut) : Ev.res j r' out' ∉ c'.hist := by
  exact user_stuck leaves_prog hr (DotDone.left ⟨i, t, t', out, hcall, hret⟩) hwr (fun _ _ _ _ _ => trivial) he
    (mustUse op hop) hnew hmade r' out'

/-- Non-vacuity: a `DOT` call returns, an `AddNode` call waits for the lock, then even `Node` cannot begin. -/
example : (exec (Graph.prog ()) (.init (exSt true)) [.call 0 .dot, .tau 0, .tau 0, .tau 0, .ret 0,
    .call 1 (.addNode (exNode 3 "d") []), .tau 1, .call 0 (.node uA)]).map (fun c =>
      (c.mus (), c.hist.length, (step (Graph.prog ()) c (.tau 0)).isNone, (step (Graph.prog ()) c (.tau 1)).isNone)) =
    some (⟨2, .announced⟩, 4, true, true) := by decide

/-! ## C42 -/

/-- **C42**: goroutines never race on `g.nodes` or on the gonum graph. -/
def GraphRaceStatement : Prop :=
  ∀ (s : St) (c : GCfg) (l : Graph.Loc), Reach (Graph.prog ()) (fun _ => True) s c → l ≠ .heap → ¬ Race c l

/-- **C42 is violated** by `SubGraph`, which reads the gonum graph without the lock while, say, `AddNode`
writes it. -/
theorem c42_violated : ¬ GraphRaceStatement := by
  intro hst
  have hrun : (exec (Graph.prog ()) (.init (exSt true))
      [.call 0 (.subGraph exOra uA 1 []), .tau 0, .tau 0, .tau 0, .tau 0, .tau 0, .tau 0,
       .call 1 (.addNode (exNode 3 "d") []), .tau 1, .tau 1, .tau 1]).map (fun c =>
        ((c.calls 0).map access, (c.calls 1).map access)) =
      some (some (some (.builder, false)), some (some (.builder, true))) := by decide
  obtain ⟨c, hc, he⟩ := Option.map_eq_some_iff.mp hrun
  simp only [Prod.mk.injEq] at he
  obtain ⟨k0, hk0, ha0⟩ := Option.map_eq_some_iff.mp he.1
  obtain ⟨k1, hk1, ha1⟩ := Option.map_eq_some_iff.mp he.2
  exact hst _ c .builder (reach_exec _ .init (fun _ _ _ _ _ => trivial) hc) (by decide)
    ⟨1, 0, k1, k0, false, by decide, hk1, hk0, ha1, ha0⟩

/-- **C42, what holds**: every race on the graph's maps is on the gonum graph and has a `SubGraph` call on
one of its sides. In particular the other methods do not race with each other, and nothing races on
`g.nodes`. -/
theorem c42_races_partial {s : St} {c : GCfg} (hr : Reach (Graph.prog ()) (fun _ => True) s c)
    {l : Graph.Loc} (hl : l ≠ .heap) {t t' : Nat} {k k' : Call Unit Graph.Loc St Graph.COp Graph.COut} {w : Bool}
    (hne : t ≠ t') (hk : c.calls t = some k) (hk' : c.calls t' = some k') (ha : access k = some (l, true))
    (ha' : access k' = some (l, w)) : l = .builder ∧ (isSubGraph k.op ∨ isSubGraph k'.op) := by
  have hdisc := fun op (_ : True) => disc_lookup op
  constructor
  · cases l with
    | nodes => exact absurd ⟨t, t', k, k', w, hne, hk, hk', ha, ha'⟩ (no_race hdisc hr (l := .nodes) rfl)
    | builder => rfl
    | heap => exact absurd rfl hl
  · apply Classical.byContradiction
    intro h
    have hd := discCall (ops := fun op => ¬ isSubGraph op) (fun op _ h => disc_shared op h) hr
    exact no_race_calls (prot := Graph.shared) (lockInv hdisc hr).count hl hne hk hk' (hd t k hk (fun x => h (.inl x)))
      (hd t' k' hk' (fun x => h (.inr x))) ha ha'

/-- **C42, what holds**: without `SubGraph` there are no races at all, not even between calls that `DOT` left
holding locks. -/
theorem c42_no_race_partial {s : St} {c : GCfg} (hr : Reach (Graph.prog ()) (fun op => ¬ isSubGraph op) s c)
    {l : Graph.Loc} (hl : l ≠ .heap) : ¬ Race c l :=
  no_race (fun op h => disc_shared op h) hr hl

/-- Non-vacuity: `Edge` and `From` about to read the same map. -/
example : ((exec (Graph.prog ()) (.init (exSt true))
    [.call 0 (.edge uA uB), .tau 0, .call 1 (.from' Order.id uA), .tau 1]).map fun c =>
      ((c.calls 0).map access, (c.calls 1).map access)) =
    some (some (some (.nodes, false)), some (some (.nodes, false))) := by decide

end Netscrape.Props
