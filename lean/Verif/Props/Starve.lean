import Verif.Lemmas.Starve
import Verif.Props.StoreShared

/-!
# C99: nobody waits for ever

Calls keep arriving; scheduler and mutexes are fair (`Spec/FairExec.lean`). In the theorems `f` is any execution without
end, from any configuration that any number of goroutines reach.
-/

namespace Netscrape.Props
open Netscrape Netscrape.Conc Netscrape.Spec
open Netscrape.Spec.Handle
open Netscrape.Graph (exSt uA uB uC)

/-- **C99.** Every call on a plan, a link cache or a store returns, also if other goroutines never stop calling. -/
theorem c99_returns :
    (∀ (p : Plan.Simple) f acts, Reach Plan.prog (fun _ => True) p (f 0) →
      FairExec Plan.prog (fun _ => True) f acts → AllReturn f) ∧
    (∀ (s : Cache.Links) f acts, Reach Cache.prog (fun _ => True) s (f 0) →
      FairExec Cache.prog (fun _ => True) f acts → AllReturn f) ∧
    (∀ (s : Graph.St) f acts, Reach Store.prog (fun _ => True) s (f 0) →
      FairExec Store.prog (fun _ => True) f acts → AllReturn f) :=
  ⟨fun _ _ _ hr hf => all_return_flat () (fun _ => rfl) (fun op _ => (Plan.one_prog op).disc) hf hr,
   fun _ _ _ hr hf => all_return_flat () (fun _ => rfl) (fun op _ => (Cache.one_prog op).disc) hf hr,
   fun _ _ _ hr hf => all_return_two (a := Store.Mtx.store) (b := .graph) (by decide) (fun m => by cases m <;> simp)
    (fun op _ => .inl (Store.two_prog op)) hf hr⟩

/-- **C99** for a graph: every call returns, as long as nobody calls `Link` or `DOT` (which block others, C41). -/
theorem c99_graph {s : Graph.St} {f : Nat → GCfg} {acts : Nat → Option (Act Graph.COp)}
    (hr : Reach (Graph.prog ()) (fun op => ¬ Graph.isLink op ∧ ¬ Graph.isDot op) s (f 0))
    (hf : FairExec (Graph.prog ()) (fun op => ¬ Graph.isLink op ∧ ¬ Graph.isDot op) f acts) : AllReturn f :=
  all_return_flat () (fun _ => rfl) (fun op h => Graph.disc_flat op h.1 h.2) hf hr

/-- **C99** for a store whose graph is looked at by others: every call on both returns. -/
theorem c99_looked_at {s : Graph.St} {f : Nat → HCfg} {acts : Nat → Option (Act Store.Handle.Op)}
    (hr : Reach Store.Handle.prog Quiet s (f 0)) (hf : FairExec Store.Handle.prog Quiet f acts) : AllReturn f := by
  refine all_return_two (a := Store.Mtx.store) (b := .graph) (by decide) (fun m => by cases m <;> simp) ?_ hf hr
  intro op h
  cases op with
  | inl o => exact .inl ((Store.two_prog o).tag _)
  | inr o =>
    refine .inr ⟨(Store.looks_tame o h).tag _, ?_, ?_⟩
    · exact Disc.tag ((Store.looks_graph o h).mono (fun _ h => h.elim) id id)
    · exact Disc.tag ((Store.looks_store o h).mono (fun _ h => h.elim) id id)

/-- **C99** for stores that share a graph, which is used directly as well: every call returns, as long as nobody calls
`Link`, `BulkLink` or `DOT`. -/
theorem c99_shared {s : Graph.St} {f : Nat → SCfg} {acts : Nat → Option (Act Store.Shared.Op)}
    (hr : Reach Store.Shared.prog (fun x => Plain x.2) s (f 0))
    (hf : FairExec Store.Shared.prog (fun x => Plain x.2) f acts) : AllReturn f := by
  exact all_return_outer (b := Store.Shared.Mtx.graph) (outer := fun x : Store.Shared.Op => Store.Shared.Mtx.store x.1)
    (fun _ => by simp) (fun m x h => Store.Shared.disc_all (Store.Shared.plain_disc x.2 h) m)
    (fun x _ => Store.Shared.within_prog x) (fun x _ => Store.Shared.ordered_prog x) hf hr

/-! ## Non-vacuity -/

/-- Nobody is in a call and no mutex is locked. -/
def Rest {μ κ σ Op Out : Type} (d : σ) (c : Cfg μ κ σ Op Out) : Prop :=
  c.data = d ∧ c.mus = (fun _ => .init) ∧ ∀ t, c.calls t = none

theorem rest_init {μ κ σ Op Out : Type} (d : σ) : Rest d (.init d : Cfg μ κ σ Op Out) := ⟨rfl, rfl, fun _ => rfl⟩

/-- A schedule that leads from rest to rest, repeated. -/
theorem loop_rest {μ κ σ Op Out : Type} [DecidableEq μ] {prog : Op → Prog μ κ σ Out} {allowed : Op → Prop} {d : σ}
    {as : List (Act Op)} (hne : 0 < as.length)
    (hP : ∀ n h, ∃ c', exec prog (⟨d, fun _ => .init, fun _ => none, n, h⟩ : Cfg μ κ σ Op Out) as = some c' ∧ Rest d c')
    (hal : ∀ a ∈ as, ∀ t op, a = .call t op → allowed op) (ht : ∀ t op, Act.call t op ∈ as → Act.tau t ∈ as) :
    ∃ f : Nat → Cfg μ κ σ Op Out, Reach prog allowed d (f 0) ∧ FairExec prog allowed f (fun n => as[n % as.length]?) := by
  obtain ⟨f, h0, hf⟩ := loop_fair (prog := prog) hne (P := Rest d) (by
    rintro ⟨_, _, calls, n, h⟩ ⟨rfl, rfl, hc⟩
    rw [show calls = fun _ => none from funext hc]
    exact hP n h) hal ht (rest_init d) (fun _ => rfl)
  exact ⟨f, by rw [h0]; exact .init, hf⟩

/-- Again and again 0 adds something to a plan, and 1 wants to read and finds that 0 has announced itself. -/
def exPlanLoop : List (Act Plan.Op) :=
  [.call 0 (.add ⟨⟨9, "b"⟩, "g", "v", "k"⟩), .call 1 (.get ⟨9, "b"⟩)] ++ taus 0 4 ++ [.ret 0] ++ taus 1 3 ++ [.ret 1]

def exPlanState : Plan.Simple := (Plan.step Plan.new (.add ⟨⟨9, "b"⟩, "g", "v", "k"⟩)).1

example : ∃ f, Reach Plan.prog (fun _ => True) exPlanState (f 0) ∧
    FairExec Plan.prog (fun _ => True) f (fun n => exPlanLoop[n % exPlanLoop.length]?) := by
  refine loop_rest (by decide) (fun n h => ⟨_, rfl, rfl, rfl, fun t => ?_⟩) (fun _ _ _ _ _ => trivial) ?_
  · rcases t with _ | _ | t <;> rfl
  · intro t op h
    simp [exPlanLoop, taus] at h
    rcases h with ⟨rfl, -⟩ | ⟨rfl, -⟩ <;> simp [exPlanLoop, taus]

/-- Again and again 0 puts a link into a cache while 1 reads it. -/
def exCacheLoop : List (Act Cache.COp) :=
  [.call 1 (.getFrom Order.id ⟨1, "a"⟩), .tau 1, .call 0 (.write (.put ⟨⟨3, "l"⟩, ⟨1, "a"⟩, ⟨2, "b"⟩, 0⟩ true)), .tau 0] ++
    taus 1 3 ++ [.ret 1] ++ taus 0 6 ++ [.ret 0]

def exCacheState : Cache.Links := (Cache.step Cache.new (.put ⟨⟨3, "l"⟩, ⟨1, "a"⟩, ⟨2, "b"⟩, 0⟩ true))

example : ∃ f, Reach Cache.prog (fun _ => True) exCacheState (f 0) ∧
    FairExec Cache.prog (fun _ => True) f (fun n => exCacheLoop[n % exCacheLoop.length]?) := by
  refine loop_rest (by decide) (fun n h => ⟨_, rfl, rfl, rfl, fun t => ?_⟩) (fun _ _ _ _ _ => trivial) ?_
  · rcases t with _ | _ | t <;> rfl
  · intro t op h
    simp [exCacheLoop, taus] at h
    rcases h with ⟨rfl, -⟩ | ⟨rfl, -⟩ <;> simp [exCacheLoop, taus]

/-- Again and again 0 links two entities in a store, reading the graph's lock twice, while 1 waits to delete one that is
not there and 2 waits to read. -/
def exStoreLoop : List (Act Store.COp) :=
  [.call 0 (.link ⟨10, "e"⟩ 11 ⟨3, "a"⟩ ⟨4, "b"⟩ [])] ++ taus 0 3 ++ [.call 1 (.delete ⟨1, "zz"⟩), .call 2 (.get ⟨1, "a"⟩)] ++
    taus 0 7 ++ [.ret 0] ++ taus 1 6 ++ [.ret 1] ++ taus 2 5 ++ [.ret 2]

def exStoreState : Graph.St :=
  Store.run exStore [.add Order.id (exE 1 "a" "x") [], .add Order.id (exE 2 "b" "y") [],
    .link ⟨10, "e"⟩ 11 ⟨3, "a"⟩ ⟨4, "b"⟩ []]

example : ∃ f, Reach Store.prog (fun _ => True) exStoreState (f 0) ∧
    FairExec Store.prog (fun _ => True) f (fun n => exStoreLoop[n % exStoreLoop.length]?) := by
  refine loop_rest (by decide) (fun n h => ⟨_, rfl, rfl, ?_, fun t => ?_⟩) (fun _ _ _ _ _ => trivial) ?_
  · funext m; cases m <;> rfl
  · rcases t with _ | _ | _ | t <;> rfl
  · intro t op h
    simp [exStoreLoop, taus] at h
    rcases h with ⟨rfl, -⟩ | ⟨rfl, -⟩ | ⟨rfl, -⟩ <;> simp [exStoreLoop, taus]

/-- Again and again 0 unlinks nodes of a graph that are not linked while 1 lists the nodes. -/
def exGraphLoop : List (Act Graph.COp) :=
  [.call 1 (.nodes Order.id), .tau 1, .call 0 (.unlink uA ⟨4, "zz"⟩), .tau 0] ++ taus 1 2 ++ [.ret 1] ++ taus 0 3 ++ [.ret 0]

example : ∃ f, Reach (Graph.prog ()) (fun op => ¬ Graph.isLink op ∧ ¬ Graph.isDot op) (exSt true) (f 0) ∧
    FairExec (Graph.prog ()) (fun op => ¬ Graph.isLink op ∧ ¬ Graph.isDot op) f
      (fun n => exGraphLoop[n % exGraphLoop.length]?) := by
  refine loop_rest (by decide) (fun n h => ⟨_, rfl, rfl, rfl, fun t => ?_⟩) ?_ ?_
  · rcases t with _ | _ | t <;> rfl
  · rintro a ha t op rfl
    simp [exGraphLoop, taus] at ha
    rcases ha with ⟨-, rfl⟩ | ⟨-, rfl⟩ <;> exact ⟨id, id⟩
  · intro t op h
    simp [exGraphLoop, taus] at h
    rcases h with ⟨rfl, -⟩ | ⟨rfl, -⟩ <;> simp [exGraphLoop, taus]

/-- Again and again 0 links two entities in a store while 1 lists the nodes of its graph. -/
def exLookLoop : List (Act Store.Handle.Op) :=
  [.call 0 (.inl (.link ⟨10, "e"⟩ 11 ⟨3, "a"⟩ ⟨4, "b"⟩ [])), .call 1 (.inr (.nodes Order.id)), .tau 1] ++ taus 0 6 ++
    taus 1 2 ++ [.ret 1] ++ taus 0 4 ++ [.ret 0]

example : ∃ f, Reach Store.Handle.prog Quiet exStoreState (f 0) ∧
    FairExec Store.Handle.prog Quiet f (fun n => exLookLoop[n % exLookLoop.length]?) := by
  refine loop_rest (by decide) (fun n h => ⟨_, rfl, rfl, ?_, fun t => ?_⟩) ?_ ?_
  · funext m; cases m <;> rfl
  · rcases t with _ | _ | t <;> rfl
  · rintro a ha t op rfl
    simp [exLookLoop, taus] at ha
    rcases ha with ⟨-, rfl⟩ | ⟨-, rfl⟩ <;> trivial
  · intro t op h
    simp [exLookLoop, taus] at h
    rcases h with ⟨rfl, -⟩ | ⟨rfl, -⟩ <;> simp [exLookLoop, taus]

/-- Again and again 0 uses store 0 and waits there for 1, who uses the graph, while 2 waits for both in store 1. -/
def exSharedLoop : List (Act Store.Shared.Op) :=
  [.call 0 (0, .inl (.unlink ⟨3, "a"⟩ ⟨4, "zz"⟩)), .call 1 (0, .inr (.unlink ⟨3, "a"⟩ ⟨4, "zz"⟩)),
    .call 2 (1, .inl (.get ⟨1, "a"⟩))] ++ taus 0 2 ++ taus 1 2 ++ taus 2 1 ++ taus 1 2 ++ [.ret 1] ++ taus 0 5 ++ [.ret 0] ++
    taus 2 4 ++ [.ret 2]

example : ∃ f, Reach Store.Shared.prog (fun x => Plain x.2) exStoreState (f 0) ∧
    FairExec Store.Shared.prog (fun x => Plain x.2) f (fun n => exSharedLoop[n % exSharedLoop.length]?) := by
  refine loop_rest (by decide) (fun n h => ⟨_, rfl, rfl, ?_, fun t => ?_⟩) ?_ ?_
  · funext m
    rcases m with ⟨_ | _ | i⟩ | _ <;> rfl
  · rcases t with _ | _ | _ | t <;> rfl
  · rintro a ha t op rfl
    simp [exSharedLoop, taus] at ha
    rcases ha with ⟨-, rfl⟩ | ⟨-, rfl⟩ | ⟨-, rfl⟩ <;> trivial
  · intro t op h
    simp [exSharedLoop, taus] at h
    rcases h with ⟨rfl, -⟩ | ⟨rfl, -⟩ | ⟨rfl, -⟩ <;> simp [exSharedLoop, taus]

end Netscrape.Props
