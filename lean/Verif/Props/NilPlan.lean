import Verif.Lemmas.NilPlan
import Verif.Props.Starve

/-!
# C104: plans and link caches withstand nil

Any number of goroutines, any interleaving of micro-steps, resources, UIDs and links that may be nil.
-/

namespace Netscrape.Props
open Netscrape Netscrape.Conc Netscrape.Spec

/-- **C104** for a plan: a call with a nil resource, a resource without UID or a nil UID panics; the other calls return
what they return in some sequential order, consistent with real time, in which the calls with nil are not made. -/
theorem c104_plan_linearizable {c : Cfg Unit Unit Plan.Simple Plan.NOp Plan.NOut}
    (hr : Reach Plan.progN (fun _ => True) Plan.new c) : ∃ lin, Explains lin c.hist ∧ AllRight Spec.Plan.RightN lin :=
  right_of_legal Plan.rightN (linearizable (fun op _ => Plan.one_progN op) (fun op _ => Plan.eval_progN op) hr)

/-- **C104** for a link cache: a call with a nil link panics; the other calls return what they return in some sequential
order, consistent with real time, in which `Put` of a nil link is not made and `BulkPut` puts the links before the first
that is nil. -/
theorem c104_cache_linearizable {c : Cfg Unit Cache.Loc Cache.Links Cache.NOp Cache.NOut}
    (hr : Reach Cache.progN (fun _ => True) Cache.new c) : ∃ lin, Explains lin c.hist ∧ AllRight Spec.Cache.RightN lin :=
  right_of_legal Cache.rightN (linearizable (fun op _ => Cache.one_progN op) (fun op _ => Cache.eval_progN op) hr)

/-- **C104**: there are no races. -/
theorem c104_no_race :
    (∀ (p : Plan.Simple) c l, Reach Plan.progN (fun _ => True) p c → ¬ Race c l) ∧
    (∀ (s : Cache.Links) c l, Reach Cache.progN (fun _ => True) s c → ¬ Race c l) :=
  ⟨fun _ _ _ h => no_race (fun op _ => (Plan.one_progN op).disc) h trivial,
   fun _ _ _ h => no_race (fun op _ => (Cache.one_progN op).disc) h trivial⟩

/-- **C104**: under every scheduler all calls in progress come to their end, returning or panicking, whatever panicked
before. -/
theorem c104_completes :
    (∀ (p : Plan.Simple) c, Reach Plan.progN (fun _ => True) p c → Completes Plan.progN c) ∧
    (∀ (s : Cache.Links) c, Reach Cache.progN (fun _ => True) s c → Completes Cache.progN c) :=
  ⟨fun _ _ h => completes (fun _ => no_deadlock () (fun _ => rfl) (fun op _ => (Plan.one_progN op).disc)) h,
   fun _ _ h => completes (fun _ => no_deadlock () (fun _ => rfl) (fun op _ => (Cache.one_progN op).disc)) h⟩

/-- **C104**: every call comes to its end also if others never stop calling, with nil or without. -/
theorem c104_returns :
    (∀ (p : Plan.Simple) f acts, Reach Plan.progN (fun _ => True) p (f 0) →
      FairExec Plan.progN (fun _ => True) f acts → AllReturn f) ∧
    (∀ (s : Cache.Links) f acts, Reach Cache.progN (fun _ => True) s (f 0) →
      FairExec Cache.progN (fun _ => True) f acts → AllReturn f) :=
  ⟨fun _ _ _ hr hf => all_return_flat () (fun _ => rfl) (fun op _ => (Plan.one_progN op).disc) hf hr,
   fun _ _ _ hr hf => all_return_flat () (fun _ => rfl) (fun op _ => (Cache.one_progN op).disc) hf hr⟩

/-- **C104**: once a step of a call has changed the plan, this call neither panics nor returns an error; once a step of a
call other than `BulkPut` has changed the cache, this call does not panic. -/
theorem c104_clean :
    FailsClean Plan.progN (fun _ => True) (· = ·) Spec.Plan.Fails ∧
    FailsClean Cache.progN (fun op => ∀ xs up, op ≠ .bulkPut xs up) (· = ·) Spec.Cache.Fails :=
  ⟨failsClean (fun _ => rfl) fun op _ => Plan.clean_progN op, failsClean (fun _ => rfl) fun op h => Cache.clean_progN op h⟩

/-! ## Non-vacuity -/

/-- 1 waits to delete a nil UID while 0 adds `b`; then 1 panics; 0 adds nil and panics; 1 gets `b`. -/
def exPlanNil : List (Act Plan.NOp) :=
  [.call 0 (.add (some (exRes 2 "b"))), .tau 0, .call 1 (.delete none)] ++ taus 0 3 ++ [.ret 0] ++ taus 1 3 ++ [.ret 1] ++
  [.call 0 (.add none)] ++ taus 0 3 ++ [.call 1 (.get (some ⟨7, "b"⟩)), .ret 0] ++ taus 1 3 ++ [.ret 1]

example : ((exec Plan.progN (.init Plan.new) exPlanNil).map fun c => c.hist.filterMap fun e =>
    match e with | .res n t o => some (n, t, o) | _ => none) =
    some [(0, 0, .ret .done), (1, 1, .panic), (2, 0, .panic), (3, 1, .ret (.got (.ok (exRes 2 "b"))))] := by
  decide +kernel

/-- 1 puts `ab`, nil and `ac` while 0 waits to read; then 0 puts nil and reads again. -/
def exCacheNil : List (Act Cache.NOp) :=
  [.call 1 (.bulkPut [some exLinkAB, none, some exLinkAC] true)] ++ taus 1 5 ++ [.call 0 (.other (.getFrom Order.id ⟨1, "a"⟩))] ++
  taus 1 4 ++ [.ret 1] ++ taus 0 4 ++ [.ret 0, .call 0 (.put none true)] ++ taus 0 3 ++
  [.ret 0, .call 0 (.put (some exLinkAC) false)] ++ taus 0 11 ++ [.ret 0]

example : ((exec Cache.progN (.init Cache.new) exCacheNil).map fun c => c.hist.filterMap fun e =>
    match e with | .res n t o => some (n, t, o) | _ => none) =
    some [(0, 1, .panic), (1, 0, .ret (.links [exLinkAB])), (2, 0, .panic), (3, 0, .ret .done)] := by decide +kernel

-- the third step of the schedule changes the plan, and its call succeeds
example : ((exec Plan.progN (.init Plan.new) (exPlanNil.take 4)).map fun c =>
    (c.data.index.size, (step Plan.progN c (.tau 0)).map fun c => c.data.index.size)) = some (0, some 1) := by decide +kernel

/-- For comparison: `BulkPut` panics after it has put a link. -/
example : ((Cache.progN (.bulkPut [some exLinkAB, none] true)).eval Cache.new).1.fr.size = 1 ∧
    ((Cache.progN (.bulkPut [some exLinkAB, none] true)).eval Cache.new).2 = .panic := by decide +kernel

/-- Again and again 0 adds nil to a plan, and 1 wants to read and finds that 0 has announced itself. -/
def exPlanNilLoop : List (Act Plan.NOp) :=
  [.call 0 (.add none), .call 1 (.get (some ⟨9, "b"⟩))] ++ taus 0 3 ++ [.ret 0] ++ taus 1 3 ++ [.ret 1]

example : ∃ f, Reach Plan.progN (fun _ => True) exPlanState (f 0) ∧
    FairExec Plan.progN (fun _ => True) f (fun n => exPlanNilLoop[n % exPlanNilLoop.length]?) := by
  refine loop_rest (by decide) (fun n h => ⟨_, rfl, rfl, rfl, fun t => ?_⟩) (fun _ _ _ _ _ => trivial) ?_
  · rcases t with _ | _ | t <;> rfl
  · intro t op h
    simp [exPlanNilLoop, taus] at h
    rcases h with ⟨rfl, -⟩ | ⟨rfl, -⟩ <;> simp [exPlanNilLoop, taus]

end Netscrape.Props
