import Verif.Lemmas.GraphEx
import Verif.Lemmas.NilUid
import Verif.Lemmas.NilUidEval
import Verif.Lemmas.Progress
import Verif.Props.Linearizable
import Verif.Props.Store

/-!
# C98: using a graph or a store after a call has panicked

The caller recovers from the panic. `c` is any configuration that any number of goroutines reach, in any
interleaving of their micro-steps.
-/

namespace Netscrape.Props
open Netscrape Netscrape.Conc Netscrape.Spec

abbrev NGCfg := Cfg Unit Graph.Loc Graph.St Graph.NOp Graph.NOut
abbrev NSCfg := Cfg Store.Mtx Graph.Loc Graph.St Store.NOp Store.COut

/-! ## The graph -/

/-- **C98** for the graph: when no call is under way, any call that is made, and left alone, comes to its end;
`DOT`, which keeps its locks also when it returns (C41), has not been called. -/
def GraphUsableStatement : Prop :=
  ∀ (s : Graph.St) (c : NGCfg), Reach (Graph.progN ()) (· ≠ .dot) s c → Idle c →
    ∀ t op, EndsAlone (Graph.progN ()) c t op

/-- `RemoveNode(nil)`, which panics. -/
def exRemoveNil : List (Act Graph.NOp) := [.call 0 (.removeNode none), .tau 0, .ret 0]

/-- **C98 is violated** by the graph: `RemoveNode(nil)` panics and keeps its read lock, and the next `AddNode`
waits for ever. -/
theorem c98_graph_violated : ¬ GraphUsableStatement := by
  intro hst
  have hrun : ((exec (Graph.progN ()) (.init (Graph.exInit true)) exRemoveNil).map fun c => (c.calls 0).isNone) =
      some true := by decide
  obtain ⟨c, hc, h0⟩ := Option.map_eq_some_iff.mp hrun
  have hreach : Reach (Graph.progN ()) (· ≠ .dot) (Graph.exInit true) c := by
    refine reach_exec _ .init ?_ hc
    simp [exRemoveNil]
  have hidle : Idle c := idle_of_zero hc (by simp [exRemoveNil]) h0
  obtain ⟨n, c', he⟩ := hst _ c hreach hidle 0 (.addNode (Graph.exNode 3 "d") [])
  exact stops 2 hc (by decide) (by decide) n c' he

/-- **C98, what holds**: unless `RemoveNode`, `From`, `SubGraph`, `Link` or `Unlink` with a nil UID has panicked,
or `NewNode` has, or `DOT` has been called, any call made when no call is under way, and left alone, comes to its
end, and the mutex is free. So `Link` from a node to itself, `Node(nil)`, `Edge` with a nil UID, and `AddNode` of a node
without UID, which panic, do no such harm. -/
theorem c98_graph_usable_partial {s : Graph.St} {c : NGCfg} (hr : Reach (Graph.progN ()) (fun _ => True) s c)
    (hidle : Idle c) (hnil : ∀ op, Graph.WithNil op → ¬ Did c.hist op .panic)
    (hnew : ∀ o e opts, ¬ Did c.hist (.newNode o e opts) .panic) (hdot : ∀ out, ¬ Did c.hist .dot out) :
    c.mus () = .init ∧ ∀ t op, EndsAlone (Graph.progN ()) c t op := by
  have hfree : c.mus () = .init := by
    refine idle_unlockedW (leakInvW (fun op _ => Graph.leaves_progN () op) hr) ?_ hidle
    intro i t op t' out x h1 h2 h3
    by_cases hd : op = .dot
    · subst hd; exact absurd ⟨i, t, t', h1, h2⟩ (hdot out)
    · cases out with
      | ret o =>
        cases op <;> first
          | exact absurd rfl hd
          | exact h3.1
          | (obtain ⟨n, rfl, hn⟩ := h3; exact congrArg Hold.rd hn)
      | panic =>
        have hw : ¬ Graph.WithNil op := fun hw => hnil op hw ⟨i, t, t', h1, h2⟩
        cases op <;> first
          | exact absurd rfl hd
          | exact absurd ⟨i, t, t', h1, h2⟩ (hnew _ _ _)
          | (obtain ⟨n, rfl, hn⟩ := h3; exact congrArg Hold.rd (hn.2 hw))
  exact ⟨hfree, fun t op => ends_aloneW (post := fun _ => Graph.keptN op) (hidle t) (fun _ => hfree)
    fun _ => Graph.leaves_progN () op⟩

/-- For each call that has come to its end: has it panicked? -/
def panickedG : Ev Graph.NOp Graph.NOut → Option (Nat × Bool)
  | .res i _ .panic => some (i, true)
  | .res i _ (.ret _) => some (i, false)
  | _ => none

/-- A graph with node `a`. -/
def exOneNode : List (Act Graph.NOp) := [.call 0 (.addNode (Graph.exNode 0 "a") [])] ++ taus 0 6 ++ [.ret 0]

/-- Non-vacuity: `Link(a, a)`, `Node(nil)`, `Edge(a, nil)` and `AddNode` of a node without UID panic, nothing stays
locked, and `AddNode` returns. -/
example : ((exec (Graph.progN ()) (.init (Graph.exInit true)) (exOneNode ++
    [.call 0 (.link ⟨7, "e"⟩ 3 (some Graph.uA) (some Graph.uA) [])] ++ taus 0 14 ++ [.ret 0] ++
    [.call 0 (.node none)] ++ taus 0 2 ++ [.ret 0] ++
    [.call 0 (.edge (some Graph.uA) none)] ++ taus 0 3 ++ [.ret 0] ++
    [.call 0 (.addNil (Graph.exNode 5 ""))] ++ taus 0 5 ++ [.ret 0] ++
    [.call 0 (.addNode (Graph.exNode 1 "b") [])] ++ taus 0 6 ++ [.ret 0])).map fun c =>
      (c.mus (), c.hist.filterMap panickedG)) =
    some (⟨0, .free⟩, [(0, false), (1, true), (2, true), (3, true), (4, true), (5, false)]) := by decide

/-- **C98, how far the damage goes**: once one of those calls with a nil UID has panicked (in `c`), no call of
`NewNode`, or of `AddNode` with a node of this package, that is made from then on ever returns, whatever else
goroutines do. -/
theorem c98_graph_stuck_partial {s : Graph.St} {c c' : NGCfg} (hr : Reach (Graph.progN ()) (fun _ => True) s c)
    {bad : Graph.NOp} (hbad : Graph.WithNil bad) (hdid : Did c.hist bad .panic)
    {as : List (Act Graph.NOp)} (he : exec (Graph.progN ()) c as = some c') {j r : Nat} {op : Graph.NOp}
    (hop : (∃ o e opts, op = .newNode o e opts) ∨ ∃ n opts, op = .addNode n opts)
    (hnew : Ev.inv j r op ∉ c.hist) (hmade : Ev.inv j r op ∈ c'.hist) (r' : Nat) (out : Graph.NOut) :
    Ev.res j r' out ∉ c'.hist := by
  obtain ⟨i, t, t', h1, h2⟩ := hdid
  refine writer_stuckW (fun op _ => Graph.leaves_progN () op) hr ⟨i, t, bad, t', .panic, h1, h2, ?_⟩
    (fun _ _ _ _ _ => trivial) he ?_ hnew hmade r' out
  · exact Graph.keptN_not hbad
  · rcases hop with ⟨o, e, opts, rfl⟩ | ⟨n, opts, rfl⟩
    · exact .inl rfl
    · exact .inl rfl

/-- **C98, how far the damage goes**: if a writer is waiting besides, no call of any method made from then on
ever returns (but `AddNode` of a foreign node, which needs no lock). -/
theorem c98_graph_frozen_partial {s : Graph.St} {c c' : NGCfg} (hr : Reach (Graph.progN ()) (fun _ => True) s c)
    {bad : Graph.NOp} (hbad : Graph.WithNil bad) (hdid : Did c.hist bad .panic) (hwr : (c.mus ()).wr = .announced)
    {as : List (Act Graph.NOp)} (he : exec (Graph.progN ()) c as = some c') {j r : Nat} {op : Graph.NOp}
    (hop : op ≠ .addForeign) (hnew : Ev.inv j r op ∉ c.hist) (hmade : Ev.inv j r op ∈ c'.hist) (r' : Nat)
    (out : Graph.NOut) : Ev.res j r' out ∉ c'.hist := by
  obtain ⟨i, t, t', h1, h2⟩ := hdid
  exact user_stuckW (fun op _ => Graph.leaves_progN () op) hr ⟨i, t, bad, t', .panic, h1, h2, Graph.keptN_not hbad⟩ hwr
    (fun _ _ _ _ _ => trivial) he (Graph.mustUse_progN op hop) hnew hmade r' out

/-- Non-vacuity of both: `Unlink(a, nil)` panics, `AddNode` waits for the lock, then even `Node` cannot begin. -/
example : ((exec (Graph.progN ()) (.init (Graph.exInit true)) (exOneNode ++
    [.call 0 (.unlink (some Graph.uA) none)] ++ taus 0 2 ++ [.ret 0] ++
    [.call 1 (.addNode (Graph.exNode 1 "b") []), .tau 1, .call 0 (.node (some Graph.uA))])).map fun c =>
      (c.mus (), c.hist.filterMap panickedG)) = some (⟨1, .announced⟩, [(0, false), (1, true)]) := by decide
example : ((exec (Graph.progN ()) (.init (Graph.exInit true)) (exOneNode ++
    [.call 0 (.unlink (some Graph.uA) none)] ++ taus 0 2 ++ [.ret 0] ++
    [.call 1 (.addNode (Graph.exNode 1 "b") []), .tau 1, .call 0 (.node (some Graph.uA))])).map fun c =>
      ((step (Graph.progN ()) c (.tau 0)).isNone, (step (Graph.progN ()) c (.tau 1)).isNone)) = some (true, true) := by
  decide

/-- **C98, how far the damage goes**: once `NewNode` has panicked, be it that the entity has no UID or that the ID
allocator has no ID left, no call of any method made from then on ever returns (but `AddNode` of a foreign node). Only
if the entity has no UID, no DOTID, and no DOTID is given, `NewNode` may panic without such an effect. -/
theorem c98_graph_newNode_partial {s : Graph.St} {c c' : NGCfg} (hr : Reach (Graph.progN ()) (fun _ => True) s c)
    {o : Order (Int × Unit)} {e : Graph.NEnt} {opts : List Graph.Opt} (hname : ¬ Graph.Nameless e opts)
    (hdid : Did c.hist (.newNode o e opts) .panic)
    {as : List (Act Graph.NOp)} (he : exec (Graph.progN ()) c as = some c') {j r : Nat} {op : Graph.NOp}
    (hop : op ≠ .addForeign) (hnew : Ev.inv j r op ∉ c.hist) (hmade : Ev.inv j r op ∈ c'.hist) (r' : Nat)
    (out : Graph.NOut) : Ev.res j r' out ∉ c'.hist := by
  obtain ⟨i, t, t', h1, h2⟩ := hdid
  refine user_stuckWr (fun op _ => Graph.leaves_progN () op) hr ⟨i, t, _, t', .panic, h1, h2, ?_⟩
    (fun _ _ _ _ _ => trivial) he (Graph.mustUse_progN op hop) hnew hmade r' out
  rintro x (hx | hx)
  · exact hx
  · exact absurd hx.1 hname

/-- `NewNode` of an entity without UID always panics. -/
theorem c98_graph_noUID_partial {s : Graph.St} {c : NGCfg} (hr : Reach (Graph.progN ()) (fun _ => True) s c)
    {i t t' : Nat} {o : Order (Int × Unit)} {dot : Option String} {opts : List Graph.Opt} {out : Graph.NOut}
    (h1 : Ev.inv i t (.newNode o (.nil dot) opts) ∈ c.hist) (h2 : Ev.res i t' out ∈ c.hist) : out = .panic := by
  obtain ⟨O, -, hsum⟩ := (leakInvW (m := ()) (fun op _ => Graph.leaves_progN () op) hr).count
  obtain ⟨x, hx, -⟩ := hsum.each _ _ _ _ _ h1 h2
  cases out with
  | panic => rfl
  | ret r => exact absurd rfl (hx.2 dot)

/-- Non-vacuity of both: `NewNode` of an entity without UID panics, and so does `NewNode` of any entity once there is a node with
ID `MaxInt64`. Both keep the write lock; `Node` cannot begin. -/
def exNoUID : List (Act Graph.NOp) := exOneNode ++
  [.call 0 (.newNode Order.id (.nil (some "")) [])] ++ taus 0 7 ++ [.ret 0] ++ [.call 0 (.node (some Graph.uA))]
def exNoID : List (Act Graph.NOp) :=
  [.call 0 (.addNode (Graph.exNode 9223372036854775807 "a") [])] ++ taus 0 6 ++ [.ret 0] ++
  [.call 0 (.newNode Order.id (.ent (Graph.exEnt 1 "b")) [])] ++ taus 0 3 ++ [.ret 0] ++ [.call 0 (.node (some Graph.uA))]

example : ((exec (Graph.progN ()) (.init (Graph.exInit true)) exNoUID).map fun c =>
    (c.mus (), c.hist.filterMap panickedG, (step (Graph.progN ()) c (.tau 0)).isNone)) =
    some (⟨0, .held⟩, [(0, false), (1, true)], true) := by decide +kernel
example : ((exec (Graph.progN ()) (.init (Graph.exInit true)) exNoID).map fun c =>
    (c.mus (), c.hist.filterMap panickedG, (step (Graph.progN ()) c (.tau 0)).isNone)) =
    some (⟨0, .held⟩, [(0, false), (1, true)], true) := by decide +kernel

/-- The exception: an entity without UID and without DOTID; nothing stays locked. -/
example : ((exec (Graph.progN ()) (.init (Graph.exInit true)) (exOneNode ++
    [.call 0 (.newNode Order.id (.nil none) [])] ++ taus 0 4 ++ [.ret 0])).map fun c =>
      (c.mus (), c.hist.filterMap panickedG)) = some (⟨0, .free⟩, [(0, false), (1, true)]) := by decide +kernel

/-! ## The store -/

/-- **C98** for the store: when no call is under way, any call that is made, and left alone, comes to its end. -/
def StoreUsableStatement : Prop :=
  ∀ (s : Graph.St) (c : NSCfg), Reach Store.progN (fun _ => True) s c → Idle c →
    ∀ t op, EndsAlone Store.progN c t op

/-- `Delete(nil)`, which panics. -/
def exDeleteNil : List (Act Store.NOp) := [.call 0 (.delete none)] ++ taus 0 4 ++ [.ret 0]

/-- **C98 is violated** by the store: `Delete(nil)` panics; the store's own mutex is released, but the read lock of
the graph is not, and the next `Add` waits for ever. -/
theorem c98_store_violated : ¬ StoreUsableStatement := by
  intro hst
  have hrun : ((exec Store.progN (.init exStore) exDeleteNil).map fun c => (c.calls 0).isNone) = some true := by decide
  obtain ⟨c, hc, h0⟩ := Option.map_eq_some_iff.mp hrun
  have hreach : Reach Store.progN (fun _ => True) exStore c := reach_exec _ .init (fun _ _ _ _ _ => trivial) hc
  have hidle : Idle c := idle_of_zero hc (by simp [exDeleteNil, taus]) h0
  obtain ⟨n, c', he⟩ := hst _ c hreach hidle 0 (.add Order.id (.ent (Graph.exEnt 1 "a")) [])
  exact stops 4 hc (by decide) (by decide) n c' he

/-- **C98, what holds**: unless `Delete`, `Link` or `Unlink`, or one of their bulk forms, has panicked with a nil UID,
or `Add` or `BulkAdd` has panicked, any call made when no call is under way, and left alone, comes to its end, and both mutexes are free. So linking an
entity with itself, or `Get(nil)`, which panic, do no harm. -/
theorem c98_store_usable_partial {s : Graph.St} {c : NSCfg} (hr : Reach Store.progN (fun _ => True) s c)
    (hidle : Idle c) (hnil : ∀ op, Store.WithNil op → ¬ Did c.hist op (.unit .panic))
    (hadd : ∀ op, Store.Adds op → ¬ Did c.hist op (.unit .panic)) :
    (∀ m, c.mus m = .init) ∧ ∀ t op, EndsAlone Store.progN c t op := by
  have hfree : ∀ m, c.mus m = .init := by
    intro m
    cases m with
    | store =>
      exact idle_unlocked (leakInv (left := fun _ _ n => n = 0) (fun op _ => Store.leaves_store op) hr)
        (fun _ _ _ _ _ _ _ _ h => h) hidle
    | graph =>
      refine idle_unlockedW (leakInvW (fun op _ => Store.leaves_graph op) hr) ?_ hidle
      intro i t op t' out x h1 h2 h3
      have hn : Store.WithNil op → out ≠ .unit .panic := fun hw e => hnil op hw (e ▸ ⟨i, t, t', h1, h2⟩)
      have ha : Store.Adds op → out ≠ .unit .panic := fun hw e => hadd op hw (e ▸ ⟨i, t, t', h1, h2⟩)
      cases op <;> first
        | exact (h3.1 (ha trivial)).1
        | exact h3 (ha trivial)
        | (obtain ⟨n, rfl, hl⟩ := h3; exact congrArg Hold.rd (hl.2.1 fun h => hn h.1 h.2))
  refine ⟨hfree, fun t op => ?_⟩
  refine ends_aloneW (post := fun m => match m with | .store => fun _ _ => True | .graph => Store.keptS op) (hidle t)
    hfree ?_
  intro m
  cases m with
  | store => exact (Store.leaves_store op).toW fun _ _ _ => trivial
  | graph => exact Store.leaves_graph op

/-- For each call on the store that has come to its end: has it panicked? -/
def panickedS : Ev Store.NOp Store.COut → Option (Nat × Bool)
  | .res i _ (.unit .panic) => some (i, true)
  | .res i _ (.ent .panic) => some (i, true)
  | .res i _ (.ents .panic) => some (i, true)
  | .res i _ _ => some (i, false)
  | _ => none

/-- A store with entity `a`. -/
def exOneEnt : List (Act Store.NOp) := [.call 0 (.add Order.id (.ent (Graph.exEnt 1 "a")) [])] ++ taus 0 18 ++ [.ret 0]

/-- Non-vacuity: linking `a` with itself and `BulkGet(a, nil)` panic, nothing stays locked. -/
example : ((exec Store.progN (.init exStore) (exOneEnt ++
    [.call 0 (.link ⟨7, "e"⟩ 3 (some ⟨4, "a"⟩) (some ⟨5, "a"⟩) [])] ++ taus 0 17 ++ [.ret 0] ++
    [.call 0 (.bulkGet [some ⟨4, "a"⟩, none])] ++ taus 0 7 ++ [.ret 0])).map fun c =>
      (c.mus .store, c.mus .graph, c.hist.filterMap panickedS)) =
    some (⟨0, .free⟩, ⟨0, .free⟩, [(0, false), (1, true), (2, true)]) := by decide

/-- **C98, how far the damage goes**: once such a call has panicked (in `c`), no call of `Add`, or of `BulkAdd` with at
least one entity, that is made from then on ever returns, whatever else goroutines do. Of `BulkLink` only calls
from a nil UID are covered. -/
theorem c98_store_stuck_partial {s : Graph.St} {c c' : NSCfg} (hr : Reach Store.progN (fun _ => True) s c)
    {bad : Store.NOp} (hbad : Store.WithNil bad) (hmany : ¬ Store.ManyLinks bad) (hdid : Did c.hist bad (.unit .panic))
    {as : List (Act Store.NOp)} (he : exec Store.progN c as = some c') {j r : Nat} {op : Store.NOp}
    (hop : (∃ o e opts, op = .add o e opts) ∨ ∃ es opts, es ≠ [] ∧ op = .bulkAdd es opts)
    (hnew : Ev.inv j r op ∉ c.hist) (hmade : Ev.inv j r op ∈ c'.hist) (r' : Nat) (out : Store.COut) :
    Ev.res j r' out ∉ c'.hist := by
  obtain ⟨i, t, t', h1, h2⟩ := hdid
  refine writer_stuckW (m := .graph) (fun op _ => Store.leaves_graph op) hr ⟨i, t, bad, t', _, h1, h2, ?_⟩
    (fun _ _ _ _ _ => trivial) he ?_ hnew hmade r' out
  · exact Store.keptS_not hbad hmany
  · rcases hop with ⟨o, e, opts, rfl⟩ | ⟨es, opts, hne, rfl⟩
    · exact Store.mustLock_progN_add o e opts
    · cases es with
      | nil => exact absurd rfl hne
      | cons x es => exact Store.mustLock_progN_bulkAdd x es opts

/-- **C98, how far the damage goes**: if a call is waiting to write the graph besides, no call made from then on ever
returns, but perhaps a bulk call with an empty list. -/
theorem c98_store_frozen_partial {s : Graph.St} {c c' : NSCfg} (hr : Reach Store.progN (fun _ => True) s c)
    {bad : Store.NOp} (hbad : Store.WithNil bad) (hmany : ¬ Store.ManyLinks bad) (hdid : Did c.hist bad (.unit .panic))
    (hwr : (c.mus .graph).wr = .announced)
    {as : List (Act Store.NOp)} (he : exec Store.progN c as = some c') {j r : Nat} {op : Store.NOp}
    (hop : ¬ Store.Empty op) (hnew : Ev.inv j r op ∉ c.hist) (hmade : Ev.inv j r op ∈ c'.hist) (r' : Nat)
    (out : Store.COut) : Ev.res j r' out ∉ c'.hist := by
  obtain ⟨i, t, t', h1, h2⟩ := hdid
  refine user_stuckW (m := .graph) (fun op _ => Store.leaves_graph op) hr ⟨i, t, bad, t', _, h1, h2, ?_⟩ hwr
    (fun _ _ _ _ _ => trivial) he (Store.mustUse_progN op hop) hnew hmade r' out
  exact Store.keptS_not hbad hmany

/-- Non-vacuity of both: `BulkDelete(a, nil)` panics, `Add` waits for the graph, then `Get` cannot begin. -/
def exFrozen : List (Act Store.NOp) := exOneEnt ++
  [.call 0 (.bulkDelete [some ⟨4, "a"⟩, none])] ++ taus 0 12 ++ [.ret 0] ++
  [.call 1 (.add Order.id (.ent (Graph.exEnt 2 "b")) [])] ++ taus 1 3 ++ [.call 0 (.get (some ⟨6, "b"⟩))]

example : ((exec Store.progN (.init exStore) exFrozen).map fun c =>
    (c.mus .store, c.mus .graph, c.hist.filterMap panickedS)) =
    some (⟨0, .held⟩, ⟨1, .announced⟩, [(0, false), (1, true)]) := by decide

example : ((exec Store.progN (.init exStore) exFrozen).map fun c =>
    ((step Store.progN c (.tau 0)).isNone, (step Store.progN c (.tau 1)).isNone)) = some (true, true) := by decide

/-- **C98, how far the damage goes**: once `Add` of an entity without UID, of a type with DOTID such as
`*entity.Entity`, has panicked, no call made from then on ever returns, but perhaps a bulk call with an empty list. -/
theorem c98_store_add_partial {s : Graph.St} {c c' : NSCfg} (hr : Reach Store.progN (fun _ => True) s c)
    {o : Order (Int × Unit)} {dot : String} {opts : List Store.SOpt}
    (hdid : Did c.hist (.add o (.nil (some dot)) opts) (.unit .panic))
    {as : List (Act Store.NOp)} (he : exec Store.progN c as = some c') {j r : Nat} {op : Store.NOp}
    (hop : ¬ Store.Empty op) (hnew : Ev.inv j r op ∉ c.hist) (hmade : Ev.inv j r op ∈ c'.hist) (r' : Nat)
    (out : Store.COut) : Ev.res j r' out ∉ c'.hist := by
  obtain ⟨i, t, t', h1, h2⟩ := hdid
  refine user_stuckWr (m := .graph) (fun op _ => Store.leaves_graph op) hr ⟨i, t, _, t', _, h1, h2, ?_⟩
    (fun _ _ _ _ _ => trivial) he (Store.mustUse_progN op hop) hnew hmade r' out
  exact fun x hx => hx.2 dot rfl rfl

/-- `Add` of an entity without UID always panics: it never returns, neither with nor without an error. -/
theorem c98_store_noUID_partial {s : Graph.St} {c : NSCfg} (hr : Reach Store.progN (fun _ => True) s c)
    {i t t' : Nat} {o : Order (Int × Unit)} {dot : Option String} {opts : List Store.SOpt} {out : Store.COut}
    (h1 : Ev.inv i t (.add o (.nil dot) opts) ∈ c.hist) (h2 : Ev.res i t' out ∈ c.hist) : out = .unit .panic := by
  obtain ⟨O, -, hsum⟩ := (leakInvW (m := .graph) (fun op _ => Store.leaves_graph op) hr).count
  obtain ⟨x, hx, -⟩ := hsum.each _ _ _ _ _ h1 h2
  exact Classical.byContradiction fun h => (hx.1 h).2 dot rfl

/-- Non-vacuity of both: `Add(&entity.Entity{})` panics, then `Get` cannot begin. -/
def exAddNoUID : List (Act Store.NOp) := exOneEnt ++
  [.call 0 (.add Order.id (.nil (some "")) [])] ++ taus 0 10 ++ [.ret 0] ++ [.call 0 (.get (some ⟨4, "a"⟩))] ++ taus 0 1

example : ((exec Store.progN (.init exStore) exAddNoUID).map fun c =>
    (c.mus .store, c.mus .graph, c.hist.filterMap panickedS, (step Store.progN c (.tau 0)).isNone)) =
    some (⟨1, .free⟩, ⟨0, .held⟩, [(0, false), (1, true)], true) := by decide +kernel

/-! ## Calls without nil -/

/-- **C98, the calls without nil**: a call of the graph without nil, made alone, does and returns what it does and returns
in the model in which nothing is nil, for which the other properties are proved. -/
theorem c98_graph_agrees_partial (op : Graph.COp) (s : Graph.St) :
    (Graph.progN () op.toN).eval s = (((Graph.prog () op).eval s).1, ((Graph.prog () op).eval s).2.toN) :=
  Graph.eval_progN () op s

/-- **C98, the calls without nil**: the same for the store. -/
theorem c98_store_agrees_partial (op : Store.COp) (s : Graph.St) :
    (Store.progN op.toN).eval s = (Store.prog op).eval s := Store.eval_progN op s

-- neither is empty: `Get` of an unknown entity
example : ((Store.progN (.get (some ⟨4, "a"⟩))).eval exStore).2 = .ent (.err .entityNotFound) := rfl

example : ((Graph.progN () (.node (some ⟨4, "a"⟩))).eval exStore).2 = .ret (.node (.err .nodeNotFound)) := rfl

end Netscrape.Props
