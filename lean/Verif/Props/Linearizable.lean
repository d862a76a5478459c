import Verif.Lemmas.CacheConc
import Verif.Lemmas.PlanConc
import Verif.Lemmas.StoreConc
import Verif.Props.Cache
import Verif.Props.Plan
import Verif.Props.Store
import Verif.Spec.Answers

/-!
# C06, C14, C39, C63, C64: plan, link cache and store used by many goroutines

In the theorems `c` is any configuration that any number of goroutines reach, in any interleaving of
their micro-steps.
-/

namespace Netscrape.Props
open Netscrape Netscrape.Conc Netscrape.Spec

/-- In a sequential run each call returns what it returns in the state after the calls before it. -/
theorem legal_at {σ Op Out : Type} {seq : σ → Op → σ × Out} {x : Nat × Op × Out}
    {post : List (Nat × Op × Out)} : ∀ {pre : List (Nat × Op × Out)} {s : σ},
    Legal seq s (pre ++ x :: post) → (seq (final seq s pre) x.2.1).2 = x.2.2 := by
  intro pre
  induction pre with
  | nil => intro s h; exact h.1
  | cons y pre ih => intro s h; exact ih h.2

/-- Linearizability with the answers judged by a specification. -/
theorem right_of_legal {σ Op Out : Type} {seq : σ → Op → σ × Out} {s : σ}
    {right : List Op → Op → Out → Prop}
    (h : ∀ (pre : List (Nat × Op × Out)) (op : Op),
      right (pre.map fun y => y.2.1) op (seq (final seq s pre) op).2)
    {hist : List (Ev Op Out)} (hl : Linearizable seq s hist) :
    ∃ lin, Explains lin hist ∧ AllRight right lin := by
  obtain ⟨lin, h1, h2⟩ := hl
  refine ⟨lin, h2, ?_⟩
  intro pre x post e
  subst e
  rw [← legal_at h1]
  exact h pre x.2.1

/-! ## C06 -/

/-- `n` micro-steps of goroutine `t`. -/
def taus {Op : Type} (t n : Nat) : List (Act Op) := List.replicate n (.tau t)

theorem plan_right (pre : List (Nat × Plan.Op × Plan.Out)) (op : Plan.Op) :
    Spec.Plan.Right (pre.map fun y => y.2.1) op (Plan.step (final Plan.step Plan.new pre) op).2 := by
  have hrun : ∀ (pre : List (Nat × Plan.Op × Plan.Out)) (p : Plan.Simple),
      final Plan.step p pre = Plan.run p (pre.map fun y => y.2.1) := by
    intro pre
    induction pre with
    | nil => intro p; rfl
    | cons y pre ih => intro p; exact ih _
  rw [hrun]
  cases op with
  | add r => rfl
  | delete u => rfl
  | get u => exact c04_plan_get _ u
  | getAll o =>
    obtain ⟨l, h1, h2, h3, -⟩ := c05_plan_getAll (pre.map fun y => y.2.1) o
    exact ⟨l, h1, h2, h3⟩

/-- **C06.** Whatever goroutines do with a new plan, the results they get are those of some sequential
order of the same calls that respects real time, in which `Get` and `GetAll` return exactly what is live. -/
theorem c06_plan_linearizable {c : Cfg Unit Unit Plan.Simple Plan.Op Plan.Out}
    (hr : Reach Plan.prog (fun _ => True) Plan.new c) :
    ∃ lin, Explains lin c.hist ∧ AllRight Spec.Plan.Right lin :=
  right_of_legal plan_right
    (linearizable (fun op _ => Plan.one_prog op) (fun op _ => Plan.eval_prog op) hr)

/-- **C06**, from any plan, with the sequential model as the specification. -/
theorem c06_plan_linearizable_from {p : Plan.Simple} {c : Cfg Unit Unit Plan.Simple Plan.Op Plan.Out}
    (hr : Reach Plan.prog (fun _ => True) p c) : Linearizable Plan.step p c.hist :=
  linearizable (fun op _ => Plan.one_prog op) (fun op _ => Plan.eval_prog op) hr

/-- Resources for the examples. -/
def exRes (i : Nat) (name : String) : Plan.Resource := ⟨⟨i, name⟩, "g", "v", "k"⟩

/-- A schedule: goroutine 0 adds `a`; then 1 starts to add `b` while 2 is already inside `Get b`; 1 has
to wait for 2, announced; 2 does not find `b`; 1 adds `b`; 0 calls `GetAll`. -/
def exPlanSchedule : List (Act Plan.Op) :=
  [.call 0 (.add (exRes 1 "a")), .tau 0, .tau 0, .tau 0, .tau 0, .ret 0,
   .call 2 (.get ⟨9, "b"⟩), .tau 2, .call 1 (.add (exRes 2 "b")), .tau 1, .tau 2, .tau 2, .tau 1, .ret 2,
   .tau 1, .tau 1, .ret 1,
   .call 0 (.getAll Order.id), .tau 0, .tau 0, .tau 0, .tau 0, .tau 0, .ret 0]

/-- Non-vacuity of C06: the schedule runs and the overlapping `Get` misses the resource. -/
example : (exec Plan.prog (.init Plan.new) exPlanSchedule).map (fun c => c.hist.filterMap fun e =>
    match e with | .res n t o => some (n, t, o) | _ => none) =
    some [(0, 0, .done), (1, 2, .got (.err .resourceNotFound)), (2, 1, .done),
      (3, 0, .all [exRes 2 "b", exRes 1 "a"])] := by decide

/-- And a schedule that the mutex forbids: 1 cannot enter while 2 is inside. -/
example : (exec Plan.prog (.init Plan.new)
    [.call 2 (.get ⟨9, "b"⟩), .tau 2, .call 1 (.add (exRes 2 "b")), .tau 1, .tau 1]).isNone := by decide

/-! ## C14 -/

theorem cache_right (pre : List (Nat × Cache.COp × Cache.COut)) (op : Cache.COp) :
    Spec.Cache.Right (pre.map fun y => y.2.1) op (Cache.seq (final Cache.seq Cache.new pre) op).2 := by
  have hrun : ∀ (pre : List (Nat × Cache.COp × Cache.COut)) (p : Cache.Links),
      final Cache.seq p pre = (Spec.Cache.writes (pre.map fun y => y.2.1)).foldl Cache.step p := by
    intro pre
    induction pre with
    | nil => intro p; rfl
    | cons y pre ih =>
      intro p
      obtain ⟨n, op, out⟩ := y
      show final Cache.seq (Cache.seq p op).1 pre = _
      rw [ih]
      cases op <;> rfl
  rw [hrun]
  rw [show ∀ l : List Cache.Op, l.foldl Cache.step Cache.new = Cache.run l from fun _ => rfl]
  generalize pre.map (fun y => y.2.1) = hist
  have hbulk : ∀ (us : List Uid) (u : Uid) (x : Option Cache.Link),
      (if u ∈ us ∧ x.toList ≠ [] then some x.toList else none) =
        if u ∈ us then x.map (fun l => [l]) else none := by
    intro us u x
    cases x <;> by_cases h : u ∈ us <;> simp [h]
  cases op with
  | write w => rfl
  | getFrom o u => exact congrArg Cache.COut.links (Cache.getFrom_run _ o u)
  | getTo o u => exact congrArg Cache.COut.links (Cache.getTo_run _ o u)
  | bulkGetFrom os us =>
    refine ⟨_, rfl, fun u => ?_⟩
    rw [(c12_bulk _).2.2.1 os us Order.id u, Cache.getFrom_run]
    exact hbulk us u _
  | bulkGetTo os us =>
    refine ⟨_, rfl, fun u => ?_⟩
    rw [(c12_bulk _).2.2.2.1 os us Order.id u, Cache.getTo_run]
    exact hbulk us u _

/-- **C14.** Whatever goroutines do with a new link cache, the results they get are those of some
sequential order of the same calls that respects real time; in it each read returns exactly the retained
links (the registers of C13), bulk calls being single atomic calls. -/
theorem c14_cache_linearizable {c : Cfg Unit Cache.Loc Cache.Links Cache.COp Cache.COut}
    (hr : Reach Cache.prog (fun _ => True) Cache.new c) :
    ∃ lin, Explains lin c.hist ∧ AllRight Spec.Cache.Right lin :=
  right_of_legal cache_right
    (linearizable (fun op _ => Cache.one_prog op) (fun op _ => Cache.eval_prog op) hr)

/-- **C14**, from any cache, with the sequential model as the specification. -/
theorem c14_cache_linearizable_from {l : Cache.Links} {c : Cfg Unit Cache.Loc Cache.Links Cache.COp Cache.COut}
    (hr : Reach Cache.prog (fun _ => True) l c) : Linearizable Cache.seq l c.hist :=
  linearizable (fun op _ => Cache.one_prog op) (fun op _ => Cache.eval_prog op) hr

/-- A schedule: goroutine 1 is half-way through `BulkPut [a→b, a→c]` when 0 calls `GetFrom a`; 0 has to
wait and sees the whole effect. -/
def exCacheSchedule : List (Act Cache.COp) :=
  [.call 1 (.write (.bulkPut [exLinkAB, exLinkAC] false))] ++ taus 1 9 ++
  [.call 0 (.getFrom Order.id ⟨1, "a"⟩)] ++ taus 1 10 ++ taus 0 3 ++ [.ret 1] ++ taus 0 1 ++ [.ret 0]

/-- Non-vacuity of C14. -/
example : (exec Cache.prog (.init Cache.new) exCacheSchedule).map (fun c => c.hist.filterMap fun e =>
    match e with | .res n t o => some (n, t, o) | _ => none) =
    some [(0, 1, .done), (1, 0, .links [exLinkAC])] := by decide

/-! ## C39 -/

theorem store_right {d : Bool} {s₀ : Graph.St} (h0 : Spec.Store.Start d s₀)
    (pre : List (Nat × Store.COp × Store.COut)) (op : Store.COp) :
    Spec.Store.Right d (pre.map fun y => y.2.1) op (Store.seq (final Store.seq s₀ pre) op).2 := by
  have hrun : ∀ (pre : List (Nat × Store.COp × Store.COut)) (p : Graph.St),
      final Store.seq p pre = Store.run p (Spec.Store.writes (pre.map fun y => y.2.1)) := by
    intro pre
    induction pre with
    | nil => intro p; rfl
    | cons y pre ih =>
      intro p
      obtain ⟨n, op, out⟩ := y
      show final Store.seq (Store.seq p op).1 pre = _
      rw [ih]
      cases op <;> rfl
  rw [hrun]
  generalize pre.map (fun y => y.2.1) = hist
  intro hn
  have hadds : ∀ l l', Spec.Store.adds (l ++ l') = Spec.Store.adds l + Spec.Store.adds l' := by
    intro l l'
    induction l with
    | nil => simp [Spec.Store.adds]
    | cons x l ih => rw [List.cons_append, Store.adds_cons, ih, Store.adds_cons x l]; omega
  have hn' : Spec.Store.adds (Spec.Store.writes hist) +
      Spec.Store.adds (Spec.Store.writes [op]) ≤ 2 ^ 63 := by
    rw [← hadds]; unfold Spec.Store.writes at hn ⊢; rwa [← List.filterMap_append]
  obtain ⟨-, hsim, hinv⟩ := run_start h0 (Spec.Store.writes hist) (by omega)
  have hget := get_sim hsim
  have hstep : ∀ w, Spec.Store.asWrite op = some w →
      (Store.step (Store.run s₀ (Spec.Store.writes hist)) w).1 =
        ((Spec.Store.after d hist).step d w).1 := by
    intro w hw
    refine (Store.step_sim hinv hsim w ?_).1
    have : Spec.Store.writes [op] = [w] := by simp [Spec.Store.writes, hw]
    rwa [this] at hn'
  cases op with
  | get u =>
    have := hget u
    show match (Spec.Store.after d hist).ent u.str with | some e => _ | none => _
    unfold Spec.Store.after
    split <;> rename_i h <;> rw [h] at this
    · obtain ⟨n, h1, h2⟩ := this
      exact ⟨n, congrArg _ h1, h2⟩
    · exact congrArg _ this
  | bulkGet us =>
    refine ⟨_, rfl, ?_, ?_⟩
    · rintro ⟨u, hu, he⟩
      refine (c35_bulkGet_partial _ us).1 ⟨u, hu, ?_⟩
      have := hget u
      unfold Spec.Store.after at he
      rwa [he] at this
    · intro h
      obtain ⟨ns, h1, h2, -⟩ := (c35_bulkGet_partial (Store.run s₀ (Spec.Store.writes hist)) us).2 (by
        intro u hu
        obtain ⟨e, he⟩ := h u hu
        have := hget u
        unfold Spec.Store.after at he
        rw [he] at this
        obtain ⟨n, h1, -⟩ := this
        exact ⟨n, h1⟩)
      exact ⟨ns, h1, h2⟩
  | add o e opts => intro w hw; rw [← hstep w hw]; cases hw; rfl
  | delete u => intro w hw; rw [← hstep w hw]; cases hw; rfl
  | link fresh a f t opts => intro w hw; rw [← hstep w hw]; cases hw; rfl
  | unlink f t => intro w hw; rw [← hstep w hw]; cases hw; rfl
  | bulkAdd es opts => intro w hw; rw [← hstep w hw]; cases hw; rfl
  | bulkDelete us => intro w hw; rw [← hstep w hw]; cases hw; rfl
  | bulkLink f us opts => intro w hw; rw [← hstep w hw]; cases hw; rfl
  | bulkUnlink f us => intro w hw; rw [← hstep w hw]; cases hw; rfl

/-- **C39.** Whatever goroutines do with a new store (and not with its graph directly), the results they
get are those of some sequential order of the same calls that respects real time, judged by the
reference store of `Spec/Store.lean`; bulk calls are single atomic calls. -/
theorem c39_store_linearizable {d : Bool} {s₀ : Graph.St} (h0 : Spec.Store.Start d s₀)
    {c : Cfg Store.Mtx Graph.Loc Graph.St Store.COp Store.COut}
    (hr : Reach Store.prog (fun _ => True) s₀ c) :
    ∃ lin, Explains lin c.hist ∧ AllRight (Spec.Store.Right d) lin :=
  right_of_legal (store_right h0)
    (linearizable (fun op _ => Store.one_prog op) (fun op _ => Store.eval_prog op) hr)

/-- **C39**, from any state, with the sequential model as the specification. -/
theorem c39_store_linearizable_from {s : Graph.St}
    {c : Cfg Store.Mtx Graph.Loc Graph.St Store.COp Store.COut}
    (hr : Reach Store.prog (fun _ => True) s c) : Linearizable Store.seq s c.hist :=
  linearizable (fun op _ => Store.one_prog op) (fun op _ => Store.eval_prog op) hr

/-- A schedule: 1 adds `a` and `b` in bulk; in the middle of it 0 calls `Delete a`, which has to wait. 2
reads `a` afterwards. -/
def exStoreSchedule : List (Act Store.COp) :=
  [.call 1 (.bulkAdd [(Order.id, exE 1 "a" "x"), (Order.id, exE 2 "b" "y")] [])] ++ taus 1 12 ++
  [.call 0 (.delete ⟨3, "a"⟩)] ++ taus 1 21 ++ [.ret 1] ++ taus 0 11 ++
  [.call 2 (.get ⟨4, "a"⟩)] ++ taus 2 5 ++ [.ret 2, .ret 0]

/-- Non-vacuity of C39. -/
example : (exec Store.prog (.init exStore) exStoreSchedule).map (fun c => c.hist.filterMap fun e =>
    match e with | .res n t o => some (n, t, o) | _ => none) =
    some [(0, 1, .unit (.ok ())), (2, 2, .ent (.err .entityNotFound)), (1, 0, .unit (.ok ()))] := by decide

/-! ## C63 -/

/-- **C63.** Goroutines using a plan, a link cache or a store never access the same map (or, in the
store, the graph or attribute memory) at the same time unless all of them only read. -/
theorem c63_no_race :
    (∀ (p : Plan.Simple) c l, Reach Plan.prog (fun _ => True) p c → ¬ Race c l) ∧
    (∀ (s : Cache.Links) c l, Reach Cache.prog (fun _ => True) s c → ¬ Race c l) ∧
    (∀ (s : Graph.St) c l, Reach Store.prog (fun _ => True) s c → ¬ Race c l) :=
  ⟨fun _ _ _ h => no_race (fun op _ => (Plan.one_prog op).disc) h trivial,
   fun _ _ _ h => no_race (fun op _ => (Cache.one_prog op).disc) h trivial,
   fun _ _ _ h => no_race (fun op _ => (Store.one_prog op).disc) h trivial⟩

/-- Non-vacuity of C63: two goroutines about to read the plan's map at the same time, which is no race. -/
example : ((exec Plan.prog (.init Plan.new)
    [.call 0 (.get ⟨9, "b"⟩), .tau 0, .call 1 (.get ⟨9, "b"⟩), .tau 1]).map fun c =>
      ((c.calls 0).map access, (c.calls 1).map access)) =
    some (some (some ((), false)), some (some ((), false))) := by decide

/-! ## C64 -/

/-- **C64.** Calls on a plan, a link cache or a store run to completion under every scheduler. In the store
this includes `Link`, although the graph it calls takes its read lock twice. -/
theorem c64_completes :
    (∀ (p : Plan.Simple) c, Reach Plan.prog (fun _ => True) p c → Completes Plan.prog c) ∧
    (∀ (s : Cache.Links) c, Reach Cache.prog (fun _ => True) s c → Completes Cache.prog c) ∧
    (∀ (s : Graph.St) c, Reach Store.prog (fun _ => True) s c → Completes Store.prog c) :=
  ⟨fun _ _ h => completes (fun _ => no_deadlock () (fun _ => rfl) (fun op _ => (Plan.one_prog op).disc)) h,
   fun _ _ h => completes (fun _ => no_deadlock () (fun _ => rfl) (fun op _ => (Cache.one_prog op).disc)) h,
   fun _ _ h => completes (fun _ => no_deadlock_two (by decide) (fun op _ => Store.two_prog op)) h⟩

/-- Non-vacuity of C64: 0 is inside `Link` of the store and holds the graph's read lock once, about to
take it again, while 1 waits to write to the store and 2 waits to read it. -/
example : ((exec Store.prog (.init exStore)
    ([.call 0 (.bulkAdd [(Order.id, exE 1 "a" "x"), (Order.id, exE 2 "b" "y")] [])] ++ taus 0 33 ++
      [.ret 0, .call 0 (.link ⟨10, "e"⟩ 11 ⟨3, "a"⟩ ⟨4, "b"⟩ [])] ++ taus 0 3 ++
      [.call 1 (.delete ⟨1, "a"⟩), .call 2 (.get ⟨1, "a"⟩)])).map fun c =>
      (c.mus .store, c.mus .graph, (step Store.prog c (.tau 1)).isSome, (step Store.prog c (.tau 2)).isSome,
        (step Store.prog c (.tau 0)).isSome)) =
    some (⟨0, .held⟩, ⟨1, .free⟩, false, false, true) := by decide

end Netscrape.Props
