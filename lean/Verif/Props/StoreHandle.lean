import Verif.Lemmas.NotLin
import Verif.Lemmas.StoreParts
import Verif.Props.GraphConc
import Verif.Props.Linearizable

/-!
# C90, C91, C92: a store and its graph used by many goroutines

`Memory.Graph` gives away the graph that the store keeps its entities in. In the theorems `c` is any
configuration that any number of goroutines reach, in any interleaving of their micro-steps, calling the
store's methods and the graph's.
-/

namespace Netscrape.Props
open Netscrape Netscrape.Conc Netscrape.Spec
open Netscrape.Spec.Handle
open Netscrape.Graph (exSt exNode uA uB uC)

abbrev HCfg := Cfg Store.Mtx Graph.Loc Graph.St Store.Handle.Op Store.Handle.Out

/-! ## C90: others look at the graph -/

/-- **C90.** While others look at the graph of a new store, calls on the store itself return what they return
in some sequential order of the calls on the store that respects real time, judged by the reference store of
`Spec/Store.lean`. -/
theorem c90_store_linearizable {d : Bool} {s₀ : Graph.St} (h0 : Spec.Store.Start d s₀) {c : HCfg}
    (hr : Reach Store.Handle.prog Quiet s₀ c) :
    ∃ lin, Explains lin (lefts c.hist) ∧ AllRight (Spec.Store.Right d) lin := by
  obtain ⟨g, c', hr', hs⟩ := Store.quiet_erase hr
  obtain ⟨lin, h1, h2⟩ := c39_store_linearizable_from hr'
  refine right_of_legal (store_right h0) ⟨lin.map fun x => (g x.1, x.2), legal_ren lin h1, ?_⟩
  rw [hs.hist]
  exact explains_ren hs.mono h2

/-- **C90**, from any state, with the sequential model as the specification. -/
theorem c90_store_linearizable_from {s : Graph.St} {c : HCfg} (hr : Reach Store.Handle.prog Quiet s c) :
    Linearizable Store.seq s (lefts c.hist) := by
  obtain ⟨g, c', hr', hs⟩ := Store.quiet_erase hr
  obtain ⟨lin, h1, h2⟩ := c39_store_linearizable_from hr'
  refine ⟨lin.map fun x => (g x.1, x.2), legal_ren lin h1, ?_⟩
  rw [hs.hist]
  exact explains_ren hs.mono h2

/-- **C90**: what others see does not depend on being watched: some execution without the calls on the graph
reaches the same data. -/
theorem c90_same_data {s : Graph.St} {c : HCfg} (hr : Reach Store.Handle.prog Quiet s c) :
    ∃ c', Reach Store.prog (fun _ => True) s c' ∧ c'.data = c.data := by
  obtain ⟨g, c', hr', hs⟩ := Store.quiet_erase hr
  exact ⟨c', hr', hs.data.symm⟩

/-- **C90**: there are no data races. -/
theorem c90_no_race {s : Graph.St} {c : HCfg} (hr : Reach Store.Handle.prog Quiet s c) (l : Graph.Loc) :
    ¬ Race c l := by
  by_cases h : l = .heap
  · exact no_race Store.handle_store hr h
  · exact no_race Store.handle_graph hr h

/-- **C90**: all calls run to completion, under every scheduler. -/
theorem c90_completes {s : Graph.St} {c : HCfg} (hr : Reach Store.Handle.prog Quiet s c) :
    Completes Store.Handle.prog c :=
  completes (fun _ => Store.quiet_no_deadlock) hr

/-- 1 adds `a` and `b` in bulk. In the middle of it 0 lists the nodes of the graph, and 2 looks for `b`. -/
def exWatch : List (Act Store.Handle.Op) :=
  [.call 1 (.inl (.bulkAdd [(Order.id, exE 1 "a" "x"), (Order.id, exE 2 "b" "y")] []))] ++ taus 1 17 ++
  [.call 0 (.inr (.nodes Order.id))] ++ taus 0 3 ++ [.ret 0, .call 2 (.inr (.node ⟨3, "b"⟩))] ++ taus 2 3 ++ [.ret 2]

theorem quiet_watch : ∀ a ∈ exWatch, ∀ t op, a = .call t op → Quiet op := by
  intro a ha t op e
  subst e
  simp only [exWatch, taus, List.cons_append, List.nil_append, List.mem_append, List.mem_cons,
    List.mem_replicate, reduceCtorEq, and_false, Act.call.injEq, false_or, or_false, List.not_mem_nil] at ha
  rcases ha with ⟨-, rfl⟩ | ⟨-, rfl⟩ | ⟨-, rfl⟩ <;> trivial

/-- Non-vacuity of C90: the store's call is still running, the calls on the graph have returned. -/
example : (exec Store.Handle.prog (.init exStore) exWatch).map (fun c => (c.hist.filterMap fun e =>
      match e with
      | .res n t (.inr (.nodes l)) => some (n, t, l.map fun x => x.uid.str)
      | .res n t (.inr (.node (.err .nodeNotFound))) => some (n, t, [])
      | _ => none, (c.calls 1).isSome, (lefts c.hist).length, c.mus .store)) =
    some ([(1, 0, ["a"]), (2, 2, [])], true, 1, ⟨0, .held⟩) := by decide

/-! ## C91: is a store call atomic to those who look? -/

/-- **C91**: calls on the store and calls on the graph that look can be ordered together. -/
def WatchStatement : Prop :=
  ∀ (s : Graph.St) (c : HCfg), Reach Store.Handle.prog Quiet s c → Linearizable Store.Handle.seq s c.hist

/-- Compares what `Nodes` returned. -/
def sameNodes : Store.Handle.Out → Store.Handle.Out → Bool
  | .inr (.nodes l), .inr (.nodes l') => decide (l = l')
  | _, _ => true

/-- **C91 is violated** by the bulk calls: `Nodes` sees the first of two entities that `BulkAdd` adds. -/
theorem c91_violated : ¬ WatchStatement := by
  intro hst
  have hrun : (exec Store.Handle.prog (.init exStore) exWatch).map
      (fun c => couldLin Store.Handle.seq sameNodes exStore c.hist) = some false := by decide +kernel
  obtain ⟨c, hc, he⟩ := Option.map_eq_some_iff.mp hrun
  refine not_linearizable (eqo := sameNodes) (fun o => ?_) he (hst _ c (reach_exec _ .init quiet_watch hc))
  match o with
  | .inl _ => rfl
  | .inr (.nodes l) => exact decide_eq_true rfl
  | .inr (.node _) | .inr (.unit _) | .inr (.edge _) | .inr (.edges _) | .inr (.graph _) | .inr .dot => rfl

/-- **C91, what holds**: without the bulk calls that write, every call on the store (`Add`, which is two calls
on the graph, included) is atomic to those who look at the graph as well. -/
theorem c91_single_partial {s : Graph.St} {c : HCfg} (hr : Reach Store.Handle.prog Single s c) :
    Linearizable Store.Handle.seq s c.hist := Store.single_linearizable hr

/-- Non-vacuity: 1 is between the two calls on the graph that make up `Add` of `b`; 0 looks for `b` and does
not find it, then for `a`, which is there, and 2 begins to wait for the store. -/
example : (exec Store.Handle.prog (.init exStore)
    ([.call 1 (.inl (.add Order.id (exE 1 "a" "x") []))] ++ taus 1 18 ++
     [.ret 1, .call 1 (.inl (.add Order.id (exE 2 "b" "y") []))] ++ taus 1 11 ++
     [.call 0 (.inr (.node ⟨3, "b"⟩))] ++ taus 0 3 ++ [.ret 0, .call 0 (.inr (.node ⟨3, "a"⟩))] ++ taus 0 3 ++
     [.ret 0, .call 2 (.inl (.get ⟨4, "b"⟩))])).map (fun c => (c.hist.filterMap fun e =>
      match e with
      | .res n t (.inr (.node (.ok x))) => some (n, t, x.uid.str)
      | .res n t (.inr (.node (.err .nodeNotFound))) => some (n, t, "-")
      | _ => none, (c.calls 1).isSome, (step Store.Handle.prog c (.tau 2)).isSome)) =
    some ([(2, 0, "-"), (3, 0, "a")], true, false) := by decide

/-- **C91, what holds with the bulk calls**: all calls can be ordered together if a bulk call that writes counts as
one call for each of its entities or links, made in order until one fails. Calls on the store do not get in between
these, so only those who look at the graph can tell; and what they see is the state after some of the parts. -/
theorem c91_parts_partial {s : Graph.St} {c : HCfg} (hr : Reach Store.Handle.prog Quiet s c) :
    LinearizableInParts inParts Store.Handle.seq s c.hist := Store.quiet_parts hr

/-- Non-vacuity: `exWatch`, in which `Nodes` sees one of two entities, goes on: 1's bulk call returns, and `b` is
found. -/
example : (exec Store.Handle.prog (.init exStore) (exWatch ++ taus 1 16 ++
    [.ret 1, .call 2 (.inr (.node ⟨3, "b"⟩))] ++ taus 2 3 ++ [.ret 2])).map (fun c => c.hist.filterMap fun e =>
      match e with
      | .res n t (.inr (.nodes l)) => some (n, t, l.map fun x => x.uid.str)
      | .res n t (.inr (.node (.ok x))) => some (n, t, [x.uid.str])
      | .res n t (.inr (.node (.err .nodeNotFound))) => some (n, t, [])
      | .res n t (.inl (.unit (.ok ()))) => some (n, t, ["ok"])
      | _ => none) =
    some [(1, 0, ["a"]), (2, 2, []), (0, 1, ["ok"]), (3, 2, ["b"])] := by decide

/-! ## C92: others use the graph -/

/-- **C92**: calls on the store and on its graph run to completion. -/
def HandleCompletes (allowed : Store.Handle.Op → Prop) : Prop :=
  ∀ (s : Graph.St) (c : HCfg), Reach Store.Handle.prog allowed s c → Completes Store.Handle.prog c

/-- Two goroutines are stuck. -/
theorem not_handle_completes {allowed : Store.Handle.Op → Prop} (s : Graph.St) (as : List (Act Store.Handle.Op))
    (hok : ∀ a ∈ as, ∀ t op, a = .call t op → allowed op) (hwho : ∀ a ∈ as, who a < 2)
    (hrun : (exec Store.Handle.prog (.init s) as).map (fun c =>
      ((c.calls 1).isSome, (step Store.Handle.prog c (.tau 0)).isNone, (step Store.Handle.prog c (.ret 0)).isNone,
        (step Store.Handle.prog c (.tau 1)).isNone, (step Store.Handle.prog c (.ret 1)).isNone)) =
      some (true, true, true, true, true)) : ¬ HandleCompletes allowed := by
  intro hst
  obtain ⟨c, hc, he⟩ := Option.map_eq_some_iff.mp hrun
  simp only [Prod.mk.injEq, Option.isNone_iff_eq_none] at he
  obtain ⟨hin, h0, h0', h1, h1'⟩ := he
  have hother : ∀ n, c.calls (n + 2) = none := fun n =>
    exec_other as hc (fun a ha e => by have := hwho a ha; omega)
  have := (hst s c (reach_exec as .init hok hc)).idle [] c (fun a ha => by cases ha) rfl (by
    intro a ha
    match a, ha with
    | .tau 0, _ => exact h0
    | .tau 1, _ => exact h1
    | .tau (n + 2), _ => unfold Conc.step; simp only [hother]
    | .ret 0, _ => exact h0'
    | .ret 1, _ => exact h1'
    | .ret (n + 2), _ => unfold Conc.step; simp only [hother]) 1
  rw [this] at hin
  cases hin

/-- **C92 is violated** by `DOT`: it leaves the graph locked for reading, and `Add` of the store never returns. -/
theorem c92_dot_violated : ¬ HandleCompletes (fun op => op = .inr .dot ∨ ∃ o e opts, op = .inl (.add o e opts)) :=
  not_handle_completes exStore ([.call 0 (.inr .dot), .tau 0, .tau 0, .tau 0, .ret 0,
    .call 1 (.inl (.add Order.id (exE 1 "a" "x") []))] ++ taus 1 3)
    (by
      intro a ha t op e
      subst e
      simp [taus] at ha
      rcases ha with ⟨-, rfl⟩ | ⟨-, rfl⟩
      · exact .inl rfl
      · exact .inr ⟨_, _, _, rfl⟩) (by decide) (by decide)

/-- **C92 is violated** by `Link` of the store and `RemoveNode` of the graph, say: the one has the graph's read
lock and waits to take it again, the other has announced itself as a writer. -/
theorem c92_link_violated : ¬ HandleCompletes NoDot :=
  not_handle_completes (exSt true) ([.call 1 (.inr (.removeNode uC))] ++ taus 1 3 ++
    [.call 0 (.inl (.link ⟨100, "e"⟩ 200 uA uB []))] ++ taus 0 3 ++ taus 1 1)
    (by
      intro a ha t op e
      subst e
      simp [taus] at ha
      rcases ha with ⟨-, rfl⟩ | ⟨-, rfl⟩ <;> trivial) (by decide) (by decide)

/-- **C92, what holds**: calls of any methods but `Link` (and `BulkLink`) and `DOT`, on the store and on its graph,
run to completion, under every scheduler. -/
theorem c92_completes_partial : HandleCompletes Plain := fun _ _ hr => completes (fun _ => Store.plain_no_deadlock) hr

/-- Non-vacuity: `Add` is between its two critical sections of the graph, `RemoveNode` has announced itself, and
`Delete` waits for the store. -/
example : (exec Store.Handle.prog (.init (exSt true))
    ([.call 0 (.inl (.add Order.id (exE 1 "z" "x") []))] ++ taus 0 11 ++
     [.call 1 (.inr (.removeNode uC))] ++ taus 1 4 ++ [.call 2 (.inl (.delete uA))])).map (fun c =>
      (c.mus .store, c.mus .graph, (step Store.Handle.prog c (.tau 0)).isSome,
        (step Store.Handle.prog c (.tau 1)).isSome, (step Store.Handle.prog c (.tau 2)).isSome)) =
    some (⟨0, .held⟩, ⟨0, .announced⟩, false, true, false) := by decide

/-- **C92**: calls on the store and on its graph do not race on the graph's maps. -/
def HandleRaces : Prop :=
  ∀ (s : Graph.St) (c : HCfg) (l : Graph.Loc), Reach Store.Handle.prog (fun _ => True) s c → l ≠ .heap → ¬ Race c l

/-- **C92 is violated** by `SubGraph` of the graph and `Add` of the store. -/
theorem c92_race_violated : ¬ HandleRaces := by
  intro hst
  have hrun : (exec Store.Handle.prog (.init (exSt true))
      ([.call 0 (.inr (.subGraph exOra uA 1 [])), .tau 0, .tau 0, .tau 0, .tau 0, .tau 0, .tau 0,
       .call 1 (.inl (.add Order.id (exE 1 "z" "x") []))] ++ taus 1 14)).map (fun c =>
        ((c.calls 0).map access, (c.calls 1).map access)) =
      some (some (some (.builder, false)), some (some (.builder, true))) := by decide
  obtain ⟨c, hc, he⟩ := Option.map_eq_some_iff.mp hrun
  simp only [Prod.mk.injEq] at he
  obtain ⟨k0, hk0, ha0⟩ := Option.map_eq_some_iff.mp he.1
  obtain ⟨k1, hk1, ha1⟩ := Option.map_eq_some_iff.mp he.2
  exact hst _ c .builder (reach_exec _ .init (fun _ _ _ _ _ => trivial) hc) (by decide)
    ⟨1, 0, k1, k0, false, by decide, hk1, hk0, ha1, ha0⟩

/-- **C92, what holds**: without `SubGraph` there are no races on the graph's maps. -/
theorem c92_no_race_partial {s : Graph.St} {c : HCfg} (hr : Reach Store.Handle.prog NoSub s c) {l : Graph.Loc}
    (hl : l ≠ .heap) : ¬ Race c l := no_race Store.noSub_disc hr hl

/-- Non-vacuity: `AddNode` of the graph and `Delete` of the store, one about to write a map, the other waiting. -/
example : (exec Store.Handle.prog (.init (exSt true))
    ([.call 0 (.inr (.addNode (exNode 3 "d") []))] ++ taus 0 3 ++ [.call 1 (.inl (.delete uA))] ++ taus 1 2)).map
      (fun c => ((c.calls 0).map access, (step Store.Handle.prog c (.tau 1)).isSome)) =
    some (some (some (.builder, true)), false) := by decide

/-- **C92**: no call on the store panics, if nodes are added to the graph only as `NewNode` returned them and
nobody links an entity to itself (which panics: C38). -/
def HandlePanics : Prop :=
  ∀ (d : Bool) (s : Graph.St) (c : HCfg), Spec.Store.Start d s →
    Reach Store.Handle.prog (fun op => NoDot op ∧ ¬ SelfLink op) s c →
    Graph.FromNewNode (rights c.hist) → c.hist.length < 2 ^ 62 → ∀ i t, Ev.res i t (.inl (.unit .panic)) ∉ c.hist

/-- The node that `NewNode` makes of `z` in a new store. -/
def exZ : Graph.Node := ⟨exE 9 "z" "t", 0, "z", 0⟩

/-- **C92 is violated**: a node made by `NewNode` of the graph has the ID that `Add` of the store uses next. When
both are in, `Link` of the two panics. -/
theorem c92_panic_violated : ¬ HandlePanics := by
  intro hst
  have hrun : (exec Store.Handle.prog (.init exStore)
      ([.call 0 (.inr (.newNode Order.id (exE 9 "z" "t") []))] ++ taus 0 9 ++ [.ret 0,
        .call 0 (.inl (.add Order.id (exE 1 "a" "x") []))] ++ taus 0 18 ++ [.ret 0,
        .call 0 (.inr (.addNode exZ []))] ++ taus 0 6 ++ [.ret 0,
        .call 0 (.inl (.link ⟨10, "e"⟩ 11 ⟨3, "a"⟩ ⟨4, "z"⟩ []))] ++ taus 0 17 ++ [.ret 0])).map (fun c =>
        (chkNew [] (rights c.hist), decide (c.hist.length < 2 ^ 62), decide (outOf 3 (lefts c.hist) = some (Store.COut.unit .panic)))) =
      some (true, true, true) := by decide +kernel
  obtain ⟨c, hc, he⟩ := Option.map_eq_some_iff.mp hrun
  simp only [Prod.mk.injEq, decide_eq_true_eq] at he
  obtain ⟨hchk, hlen, hout⟩ := he
  obtain ⟨t, ht⟩ := outOf_mem hout
  obtain ⟨e, hm, he⟩ := List.mem_filterMap.mp ht
  have hin : Ev.res 3 t (Sum.inl (Store.COut.unit .panic)) ∈ c.hist := by
    split at he <;> cases he
    exact hm
  refine hst false exStore c (.default _ _) (reach_exec _ .init ?_ hc)
    (fromNewNode_of_chk (rights c.hist) [] [] (fun n hn => by cases hn) hchk) hlen 3 t hin
  intro a ha t op e
  subst e
  simp [taus] at ha
  rcases ha with ⟨-, rfl⟩ | ⟨-, rfl⟩ | ⟨-, rfl⟩ | ⟨-, rfl⟩ <;> exact ⟨trivial, by simp [SelfLink]⟩

end Netscrape.Props
