import Verif.Lemmas.StoreShared
import Verif.Props.StoreHandle

/-!
# C95: several stores on one graph

`WithGraph` lets several stores keep their entities in the same graph. In the theorems `c` is any configuration
that any number of goroutines reach, in any interleaving of their micro-steps, calling the methods of any number
of such stores, and of the graph where that is allowed.
-/

namespace Netscrape.Props
open Netscrape Netscrape.Conc Netscrape.Spec
open Netscrape.Spec.Handle Netscrape.Spec.Shared
open Netscrape.Graph (exSt exNode uA uB uC)

abbrev SCfg := Cfg Store.Shared.Mtx Graph.Loc Graph.St Store.Shared.Op Store.Handle.Out

/-! ## Races -/

/-- **C95, what holds**: stores that share a graph do not race on the graph's maps, not even if the graph is
used directly as well, other than by `SubGraph`. -/
theorem c95_no_race_partial {s : Graph.St} {c : SCfg} (hr : Reach Store.Shared.prog (fun x => NoSub x.2) s c)
    {l : Graph.Loc} (hl : l ≠ .heap) : ¬ Race c l := no_race Store.Shared.disc_maps hr hl

/-- Non-vacuity: both stores are inside `Add`, each with its own mutex; one is about to write a map, the other
waits for the graph. -/
example : (exec Store.Shared.prog (.init (exSt true))
    ([.call 0 (0, .inl (.add Order.id (exE 1 "y" "x") []))] ++ taus 0 14 ++
     [.call 1 (1, .inl (.add Order.id (exE 2 "z" "x") []))] ++ taus 1 2)).map (fun c =>
      ((c.calls 0).map access, (step Store.Shared.prog c (.tau 1)).isSome, c.mus (.store 0), c.mus (.store 1))) =
    some (some (some (.builder, true)), false, ⟨0, .held⟩, ⟨0, .held⟩) := by decide

/-! ## Completion -/

/-- **C95**: calls on stores that share a graph run to completion. -/
def SharedCompletes (allowed : Store.Shared.Op → Prop) : Prop :=
  ∀ (s : Graph.St) (c : SCfg), Reach Store.Shared.prog allowed s c → Completes Store.Shared.prog c

/-- 1 deletes `c` from one store while 0 links `a` and `b` in the other. -/
def exStuck : List (Act Store.Shared.Op) :=
  [.call 1 (1, .inl (.delete uC))] ++ taus 1 5 ++ [.call 0 (0, .inl (.link ⟨100, "e"⟩ 200 uA uB []))] ++ taus 0 3 ++
    taus 1 1

/-- **C95 is violated** by `Link` on one store and `Delete` on the other: the one has the graph's read lock and
waits to take it again, the other has announced itself as a writer. -/
theorem c95_link_violated : ¬ SharedCompletes OnStores := by
  intro hst
  have hrun : (exec Store.Shared.prog (.init (exSt true)) exStuck).map (fun c =>
      ((c.calls 1).isSome, (step Store.Shared.prog c (.tau 0)).isNone, (step Store.Shared.prog c (.ret 0)).isNone,
        (step Store.Shared.prog c (.tau 1)).isNone, (step Store.Shared.prog c (.ret 1)).isNone)) =
      some (true, true, true, true, true) := by decide
  obtain ⟨c, hc, he⟩ := Option.map_eq_some_iff.mp hrun
  simp only [Prod.mk.injEq, Option.isNone_iff_eq_none] at he
  obtain ⟨hin, h0, h0', h1, h1'⟩ := he
  have hwho : ∀ a ∈ exStuck, who a < 2 := by decide
  have hother : ∀ n, c.calls (n + 2) = none := fun n =>
    exec_other _ hc (fun a ha e => by have := hwho a ha; omega)
  have := (hst _ c (reach_exec _ .init (by
      intro a ha t op e
      subst e
      simp [exStuck, taus] at ha
      rcases ha with ⟨-, rfl⟩ | ⟨-, rfl⟩ <;> rfl) hc)).idle [] c (fun a ha => by cases ha) rfl (by
    intro a ha
    match a, ha with
    | .tau 0, _ => exact h0
    | .tau 1, _ => exact h1
    | .tau (n + 2), _ => unfold Conc.step; simp only [hother]
    | .ret 0, _ => exact h0'
    | .ret 1, _ => exact h1'
    | .ret (n + 2), _ => unfold Conc.step; simp only [hother]) 1
  rw [this] at hin
  cases hin

/-- **C95, what holds**: calls of any methods but `Link` (and `BulkLink`) and `DOT`, on any of the stores and on
the graph, run to completion, under every scheduler. -/
theorem c95_completes_partial : SharedCompletes (fun x => Plain x.2) :=
  fun _ _ hr => completes (fun _ => Store.Shared.no_deadlock) hr

/-- Non-vacuity: store 0 is between the two critical sections of `Add`, store 1 has announced itself to the
graph, two goroutines wait for stores 0 and 1, and the graph itself is being read. -/
example : (exec Store.Shared.prog (.init (exSt true))
    ([.call 0 (0, .inl (.add Order.id (exE 1 "z" "x") []))] ++ taus 0 11 ++
     [.call 4 (7, .inr (.node uA))] ++ taus 4 1 ++
     [.call 1 (1, .inl (.delete uC))] ++ taus 1 6 ++
     [.call 2 (0, .inl (.get uA)), .call 3 (1, .inl (.delete uA))])).map (fun c =>
      (c.mus (.store 0), c.mus (.store 1), c.mus .graph,
        [0, 1, 2, 3, 4].map fun t => (step Store.Shared.prog c (.tau t)).isSome)) =
    some (⟨0, .held⟩, ⟨0, .held⟩, ⟨1, .announced⟩, [false, false, false, false, true]) := by decide

/-! ## Atomicity -/

/-- **C95**: calls on stores that share a graph, made at the same time, return what they return in some
sequential order. -/
def SharedAtomic (allowed : Store.Shared.Op → Prop) : Prop :=
  ∀ (s : Graph.St) (c : SCfg), Reach Store.Shared.prog allowed s c → Linearizable Store.Shared.seq s c.hist

/-- Compares what the stores returned. -/
def sameLeft : Store.Handle.Out → Store.Handle.Out → Bool
  | .inl x, .inl y => decide (x = y)
  | _, _ => true

/-- Two stores add `a` and `b`, the one while the other is between its two calls on the graph. Then both are looked
up. -/
def exTwoAdds : List (Act Store.Shared.Op) :=
  [.call 0 (0, .inl (.add Order.id (exE 1 "a" "x") []))] ++ taus 0 11 ++
  [.call 1 (1, .inl (.add Order.id (exE 2 "b" "y") []))] ++ taus 1 18 ++ [.ret 1] ++ taus 0 7 ++ [.ret 0]

/-- **C95 is violated** by `Add` on two stores: both nodes get the same ID, which no sequential order gives. -/
theorem c95_atomic_violated : ¬ SharedAtomic (fun x => (∃ o e opts, x.2 = .inl (.add o e opts)) ∨
    ∃ u, x.2 = .inl (.get u)) := by
  intro hst
  have hrun : (exec Store.Shared.prog (.init exStore)
      (exTwoAdds ++ [.call 0 (0, .inl (.get ⟨3, "a"⟩))] ++ taus 0 5 ++
        [.ret 0, .call 0 (0, .inl (.get ⟨4, "b"⟩))] ++ taus 0 5 ++ [.ret 0])).map
      (fun c => couldLin Store.Shared.seq sameLeft exStore c.hist) = some false := by decide +kernel
  obtain ⟨c, hc, he⟩ := Option.map_eq_some_iff.mp hrun
  refine not_linearizable (eqo := sameLeft) (fun o => ?_) he (hst _ c (reach_exec _ .init ?_ hc))
  · cases o with
    | inl x => exact decide_eq_true rfl
    | inr x => rfl
  · intro a ha t op e
    subst e
    simp [exTwoAdds, taus] at ha
    rcases ha with ⟨-, rfl⟩ | ⟨-, rfl⟩ | ⟨-, rfl⟩ | ⟨-, rfl⟩
    · exact .inl ⟨_, _, _, rfl⟩
    · exact .inl ⟨_, _, _, rfl⟩
    · exact .inr ⟨_, rfl⟩
    · exact .inr ⟨_, rfl⟩

/-- **C95**: no call on stores that share a graph panics, unless it links an entity to itself (C38). -/
def SharedPanics : Prop :=
  ∀ (d : Bool) (s : Graph.St) (c : SCfg), Spec.Store.Start d s →
    Reach Store.Shared.prog (fun x => OnStores x ∧ ¬ SelfLink x.2) s c → c.hist.length < 2 ^ 62 →
    ∀ i t, Ev.res i t (.inl (.unit .panic)) ∉ c.hist

/-- A call on a store panicked. -/
def panicked : Store.Handle.Out → Bool
  | .inl (.unit .panic) => true
  | _ => false

/-- **C95 is violated**: `Link` of two entities that were added through two stores at the same time panics. -/
theorem c95_panic_violated : ¬ SharedPanics := by
  intro hst
  have hrun : (exec Store.Shared.prog (.init exStore)
      (exTwoAdds ++ [.call 0 (0, .inl (.link ⟨10, "e"⟩ 11 ⟨3, "a"⟩ ⟨4, "b"⟩ []))] ++ taus 0 17 ++ [.ret 0])).map
      (fun c => (decide (c.hist.length < 2 ^ 62), (outOf 2 c.hist).map panicked)) = some (true, some true) := by
    decide +kernel
  obtain ⟨c, hc, he⟩ := Option.map_eq_some_iff.mp hrun
  simp only [Prod.mk.injEq, decide_eq_true_eq] at he
  obtain ⟨o, ho, hp⟩ := Option.map_eq_some_iff.mp he.2
  obtain ⟨t, ht⟩ := outOf_mem ho
  have ho' : o = .inl (.unit .panic) := by
    unfold panicked at hp
    split at hp
    · rfl
    · cases hp
  refine hst false exStore c (.default _ _) (reach_exec _ .init ?_ hc) he.1 2 t (ho' ▸ ht)
  intro a ha t op e
  subst e
  simp [exTwoAdds, taus] at ha
  rcases ha with ⟨-, rfl⟩ | ⟨-, rfl⟩ | ⟨-, rfl⟩ <;> exact ⟨rfl, by simp [SelfLink]⟩

/-- **C95, what holds**: as long as one of the stores does all the writing, and not in bulk, and the others are
asked with `Get` (and the graph is only looked at), everything is atomic. -/
theorem c95_reader_partial (w : Nat) : SharedAtomic (OneWriter w) := fun _ _ => Store.Shared.oneWriter_linearizable

/-- Non-vacuity: store 0 is in the middle of `Add` of `b`. Store 1 looks for `a`, which is there, and for `b`, which
is not; one who wants to look through store 0 has to wait. -/
example : (exec Store.Shared.prog (.init exStore)
    ([.call 0 (0, .inl (.add Order.id (exE 1 "a" "x") []))] ++ taus 0 18 ++
     [.ret 0, .call 0 (0, .inl (.add Order.id (exE 2 "b" "y") []))] ++ taus 0 11 ++
     [.call 1 (1, .inl (.get ⟨3, "a"⟩))] ++ taus 1 5 ++ [.ret 1, .call 1 (1, .inl (.get ⟨3, "b"⟩))] ++ taus 1 5 ++
     [.ret 1, .call 2 (0, .inl (.get ⟨4, "b"⟩))])).map (fun c => (c.hist.filterMap fun e =>
      match e with
      | .res n t (.inl (.ent (.ok x))) => some (n, t, x.uid.str)
      | .res n t (.inl (.ent (.err .entityNotFound))) => some (n, t, "-")
      | _ => none, (c.calls 0).isSome, (step Store.Shared.prog c (.tau 2)).isSome)) =
    some ([(2, 1, "a"), (3, 1, "-")], true, false) := by decide

/-- **C95, what holds with the bulk calls**: as long as one store writes, the others are asked with `Get` and the
graph is looked at, all calls can be ordered together if a bulk call that writes counts as one call for each of its
entities or links, made in order until one fails. Calls on the writing store do not get in between these. -/
theorem c95_parts_partial {w : Nat} {s : Graph.St} {c : SCfg} (hr : Reach Store.Shared.prog (OneBulkWriter w) s c) :
    LinearizableInParts (Spec.Shared.inParts w) Store.Shared.seq s c.hist := Store.Shared.bulkWriter_parts hr

/-- Non-vacuity: store 0 is in the middle of `BulkAdd` of `a` and `b`. Store 1 looks for `a`, which is there, and for
`b`, which is not; one who wants to look through store 0 has to wait. -/
example : (exec Store.Shared.prog (.init exStore)
    ([.call 0 (0, .inl (.bulkAdd [(Order.id, exE 1 "a" "x"), (Order.id, exE 2 "b" "y")] []))] ++ taus 0 17 ++
     [.call 1 (1, .inl (.get ⟨3, "a"⟩))] ++ taus 1 5 ++ [.ret 1, .call 1 (1, .inl (.get ⟨3, "b"⟩))] ++ taus 1 5 ++
     [.ret 1, .call 2 (0, .inl (.get ⟨4, "b"⟩))])).map (fun c => (c.hist.filterMap fun e =>
      match e with
      | .res n t (.inl (.ent (.ok x))) => some (n, t, x.uid.str)
      | .res n t (.inl (.ent (.err .entityNotFound))) => some (n, t, "-")
      | _ => none, (c.calls 0).isSome, (step Store.Shared.prog c (.tau 2)).isSome)) =
    some ([(1, 1, "a"), (2, 1, "-")], true, false) := by decide

end Netscrape.Props
