# Formal model of milosgajdos/netscrape in Lean 4

This file was written before the proofs and is kept current as the model grows.
`properties.jsonl` lists the properties (C01, C02, ...), `MANIFEST.json` the theorems
that carry them, `seeded/LOG.jsonl` the wrong programs the theorems were tested against.

How to read `seeded/LOG.jsonl`: `theorems_failed` lists the theorems whose proofs no longer went through after the edit,
directly or because a lemma they use broke. That is less than being false: a listed theorem may still be true of the
edited program, with another proof. The theorems of the claim named in the entry are the ones the edit was chosen to make
false; where an entry has
`counterexample_checked`, Lean confirmed on the edited model a concrete counterexample to the theorem named there (and
rejected it on the original); otherwise their falsity was argued by hand.

## Layout

| directory (`lean/Verif/…`) | content |
|---|---|
| `Go/` | the Go runtime pieces the code rests on: maps (with arbitrary iteration order), results/panics, attribute heap, `RWMutex`, channels |
| `Model/` | the model of the code, function by function; every definition cites file and lines in /repo |
| `Spec/` | small specifications that mention no model helper (abstract maps, paths, linearizability …) |
| `Lemmas/` | helper lemmas and invariants |
| `Props/` | the property theorems `cNN_…`, each with a non-vacuity `example` |

Naming: a theorem that proves the property in full is `cNN_name`. If the unchanged code
violates the property, `cNN_…_violated` proves the negation with a concrete witness and
`cNN_…_partial` proves the strongest positive statement found. If only a part could be
proved, the theorem is `…_partial` and the missing part is named in its comment.

## Modelling decisions

### Values and memory

* **Go maps** are association lists with distinct keys (`GoMap`). Iteration order is
  never the list's order: every function that ranges over a map takes an `Order`, an
  arbitrary permutation, and theorems quantify over it. Different loops take
  different orders.
* **Nil, errors, panics.** A result is `ok a`, `err e` or `panic`. Reads of nil maps give the zero value as in Go.
  Nil UIDs as arguments of the graph's and the store's methods, and entities and nodes whose `UID()` is nil, are modelled in
  `Model/NilUid.lean` (C98, C102, C103, C105), nil resources, UIDs and links of plans and link caches in `Model/NilPlan.lean` (C104); there a panic runs the deferred unlocks and skips the others; elsewhere UIDs are not nil, and
  `NewNode` releases the lock if gonum runs out of IDs (the code does not, and `Model/NilUid.lean` follows the code): outside C98 nobody recovers from a panic.
  Typed nil pointers inside interfaces are not modelled. Nil option functions (which would panic when applied) are not modelled.
* **Pointers.** Attribute sets are mutable and shared by reference in Go, so they live in
  a heap (`Heap`), and nodes, edges, entities hold references. UIDs are immutable; they
  carry an address (identity) and a string, because the link cache compares interface
  values (addresses) whereas everything else compares strings. Nodes and edges are
  values in `Model/Graph.lean`, and objects with addresses in `Model/GraphPtr.lean`.
* **Strings** are Lean `String`s. Where it matters that a Go string need not be valid UTF-8 (JSON), a string
  is read as the list of its bytes, each byte a character below 256 (`Spec/Json.lean`, `Lemmas/Utf8.lean`).
* **Randomness.** `memuid.New()` is an oracle argument (`fresh`), never constrained unless a theorem says so.
* **Weights** are `float64` in Go and only ever copied; the model uses `Int` and never computes with them
  (so NaN, which is not equal to itself, is outside the model).
* **Node IDs** are `int64` in Go; the model uses `Int`, and the allocator at `math.MaxInt64` is an explicit panic case.
  The store theorems that number nodes assume fewer than 2^63 of them.

### Dependencies (their source is not in the sandbox)

* **gonum v0.9.1** (`simple.WeightedDirectedGraph`, `simple.WeightedUndirectedGraph`, `internal/uid.Set`,
  `traverse.BreadthFirst`): modelled from documented and known behaviour in `Model/Gonum.lean` and
  `Model/SubGraph.lean`.
* **encoding/json** (Go 1.14 semantics): `Model/Json.lean` models rendering and parsing character by character, HTML
  escaping, replacement of invalid UTF-8, duplicate and unknown keys and case folding of field names. There is no limit
  on nesting depth. Numbers are kept as text; no field of the transport structs is a number. The parser is proved to
  accept exactly the texts of a grammar (`Spec/JsonText.lean`, RFC 8259 plus Go's treatment of lone surrogates and invalid
  UTF-8) with the values the grammar gives them (`Json.parse_iff`), so C75 does not rest on the parser's code.
* `dot.Marshal` is modelled twice: as the sequence of methods it calls on the graph (it matters for locking, C41), and
  as the document it writes (`Model/Dot.lean`): the sequence of node and edge statements with names and attributes. White
  space and the quoting of identifiers are not modelled.

### Graph, sub graph, store (sequential)

* `Model/Graph.lean` models `WG` over the gonum graphs. Some theorems need a discipline on callers, stated as a
  hypothesis on histories (`Spec/Graph.lean`): `Disciplined` (`AddNode` is only given nodes whose UID and ID belong
  to the same node of the graph or to none) or the stricter `NoReplace` (an upsert never puts in a different node).
  Outside of it there are `_violated` witnesses.
* `Model/GraphPtr.lean` models the same methods with nodes and edges as objects, so that one can say which object a call
  hands out and what `SetDOTID` on it does (C83–C86). A simulation (`Lemmas/GraphPtr.lean`: `sim_step`) maps its states to
  those of `Model/Graph.lean`, with the address of an object in place of the DOTID, and carries theorems over. `Model/GraphPtrSub.lean`
  adds SubGraph. DOT, the store and the concurrent models are over values.
* `Model/DotIds.lean` has these methods once more with their locking, and with every read and write of a DOTID as a step, because
  `Node.ID` copies the node it is called on (C107). Each method run alone is proved equal to that of `Model/GraphPtr.lean`.
  `SubGraph` and `DOT` are left out.
* `Model/SubGraph.lean` models `SubGraph`, including gonum's breadth first walk with the depth counters of the `Until`
  function; theorems are about the set of nodes within a distance, defined with paths.
* `Model/Store.lean` is a state machine over the graph model.

### Concurrency with locks (C06, C14, C38–C42, C63, C64, C78, C90–C92, C95, C107)

* `Go/RWMutex.lean`: threads run programs of micro-steps (read, write, lock, unlock …) over a shared memory,
  interleaved arbitrarily, sequentially consistent. Data races are defined on the micro-steps: two accesses to the
  same location, one a write, both enabled. Locking for writing takes two steps, as in Go: first the writer announces
  itself, which blocks new readers, then it waits for the readers inside. When a writer unlocks, waiting readers and
  writers compete (in Go the readers go first; the model has more schedules).
* `Lemmas/Linearizable.lean` proves that operations whose body runs under one lock are linearizable with respect to
  their sequential model; plan, cache and store are instances, with the bodies given statement by statement.
* `Lemmas/Scout.lean` extends this to methods that look up nodes in one critical section and act in a later one
  (`RemoveNode`, `Unlink`): they are linearizable if what they do in the later one is what the sequential method would
  do then (C78). `Lemmas/NotLin.lean` refutes linearizability of concrete histories by trying all orders.
* `Model/StoreHandle.lean` runs calls on the store together with calls on the graph it hands out (C90–C92).
* `Model/StoreShared.lean` runs calls on any number of stores that were given the same graph (C95): the same programs, each store with its own mutex. As in C92 the memory of attribute sets is one location, about which no race freedom is claimed.
* `Model/Identity.lean` has the options of `NewStore` (C101). The fields `uid` and `g` of a store, and `uid` and `dotid` of a graph, are assigned by the constructors only.
* `Model/GraphAttrs.lean` runs calls on a graph and calls on attribute sets on one memory (C100). `SubGraph` and `DOT` are
  written out access by access to the attribute sets; each set is a location of its own. In `DOT` the reads of nodes and edges are
  one step, which is sound because `DOT` has the read lock. `SubGraph` picks the iteration order of a copy from the number of sets
  that exist at this moment (one extra step that touches nothing else). What the Go runtime does when a map is written while it is
  iterated (it may abort the process) is not modelled: `len`, the loop over the keys and each `Get` are single steps. Attribute
  sets that a caller creates during the run are not modelled, only those the graph's own methods create.
* Simplifications: a call into gonum and the allocation of a node are single steps; where the code grows a slice in
  a loop under a read lock the slice is thread local; a panic in `NewNode` releases the lock; the store's heap of
  attributes is not part of the concurrent model.

### Broker (C49–C58, C65–C68, C96, C97)

* `Model/Broker.lean` is a transition system. Each critical section under `Memory`'s lock is one step. Everything the
  code does outside it (reading `m.exit`, each `select`, each test of `s.active`, each `close`) is a step of its own,
  so other goroutines may run in between. `Subscriber`'s lock is only ever taken for reading, so it excludes
  nobody and is left out.
* `run` reads `m.exit` and `m.ctl` without the lock and one after the other, so these are two steps. `Open` writes both in
  one step; a goroutine that in Go reads `m.ctl` between the two writes gets the older value, which the model keeps in
  `ctlWas` (`Alt.stale`).
* That a critical section may be one step is a theorem (C96). `Model/BrokerLock.lean` is the same system with an explicit
  mutex (`Go/RWMutex.lean`): locking, unlocking and each access to a field are steps of their own, the loops of `Close`
  delete one key at a time, and a read of `m.ctl` gets what is there. Every run of it is, with the same history, a run of
  `Model/Broker.lean` (`Lemmas/BrokerRefine.lean`), and every run of `Model/Broker.lean` without `Alt.stale` is one of it
  (`Lemmas/BrokerExpand.lean`). Memory is sequentially consistent also where there are data races (C68), which Go does not
  promise. A number for the goroutine `Open` starts is reserved when it writes `m.exit`, a little before `go`. With this
  refinement, what is known of `Model/Broker.lean` is carried over (`Props/BrokerStmt.lean`), also where callers keep to
  rules (`Lemmas/BrokerStmt.lean`); the rules are stated anew for statement-level positions (`Spec/BrokerLock.lean`).
* Timers may fire at any moment; a context may be cancelled at any moment; the environment may make any call at
  any moment. Theorems are about all reachable states and their histories (`log`).
* A buffered channel is a list; an unbuffered hand-over is one step of two goroutines (`meet`). The message and control
  channels are never closed by the code and so cannot be closed in the model. The non-blocking receive after a timeout
  may find nothing even if a sender is waiting on an unbuffered channel: this is more behaviour than Go has.
* A panic (close of a closed channel) stops the whole system (`crashed`).
* Not modelled: a capacity so large that `make` panics.
* C66 (termination): a call can be delayed only by the scheduler. Fairness (`FairTo`) is weak: if from some point on the
  call can always make a step, it makes one. As timers can always fire and handlers can always return in the model, this
  includes that timers expire and handlers return; as critical sections are single steps it also includes that the
  mutex lets everybody in eventually. C97 takes this apart: in `Model/BrokerLock.lean` fairness (`FairRun`) is weak for
  steps and, for the two operations that may have to wait for a writer (`RLock`, and the first half of `Lock`), strong: who
  again and again finds the mutex free of writers gets in. Go's `sync.RWMutex` promises this (a writer that unlocks lets
  all readers in that wait, and the inner mutex of writers has a starvation mode). Executions in which the process panics
  are finite and so not covered.
* C99 (`Spec/FairExec.lean`) uses the same two kinds of fairness for plan, cache, graph and store. Its executions may stand
  still (`none`), so those that end are included. Examples of such executions repeat a schedule for ever (`loop_fair`).
* C68 (data races): `Model/BrokerRace.lean` lists the accesses to shared fields each position makes next, and which
  lock it holds while making them. A race is two goroutines poised at accesses to the same field, one a write, without
  a lock excluding it. That every step writes no field but those listed is proved (`Accounted`). The statement-level
  system has its own list (`touches`); there `c68_accesses` proves that a step neither writes nor depends on any other
  field. Fields that are never written after construction are left out.

* C80, C81 (`Model/BrokerTime.lean`): the same steps with a clock. Time passes only between steps; a timer's case can be
  taken only once its time has come. Everything proved without a clock holds for these runs (`c81_clock`), and every run
  without a clock is one of these (`c81_every_run`). In `Receive` the timer starts together with the test of
  `s.active` right before it. Options are the four `With…` functions; durations are unbounded integers. Zero capacity
  without `WithCap` contradicts the comment on `DefaultSize` but one of the repository's tests counts on it.

### Ingester, digester, runner, handlers (C59–C62, C69, C70)

* Broker, marshaler, scraper are functions of their arguments given by the environment; options are functions
  on an option record, applied in order. The calls made are recorded and returned.
* `Model/Digest.lean` runs `Digest` as one more goroutine of the broker transition system, so C61 is about
  `Digest` on the in-memory broker among arbitrary other users. A handler may take arbitrarily long and return any
  result; a panicking handler is not modelled.
* `Model/DigestLock.lean` is the same with the statement-level broker of C96. `Lemmas/DigestLock.lean` shows that each of
  its steps is none or one step of `Model/Digest.lean`, that steps of `Digest`'s own goroutine are never none (`Receive`
  does not use the mutex), and that whatever step `Digest` could make there it can make here. So C61, C69, C93 and C94 hold
  at this level, too, with the same bounds (`c61_stmt_…`, `c69_stmt_…`, `c93_stmt_…`, `c94_stmt_…`).
* C69 composes the ingester, the JSON marshaler, the broker and `Unmarshal`. The memory the ingested value lives in is
  fixed during `Ingest`; "like" is equality up to addresses and DOTIDs.
* C70: `DumpData` is modelled down to write(2) (`io.Copy`, `bytes.Reader.WriteTo`, `os.File.Write`, `poll.FD.Write` of
  Go 1.14 as recalled). EINTR and EAGAIN (the call is repeated) and EPIPE (the process is killed) are not modelled.

## Properties: what is modelled, how it is proved

| id | plan |
|---|---|
| C01–C03 | attribute map and heap; induction over Set histories; permutation-invariance of iteration |
| C04, C05 | plan as state machine; refinement to `String → Option Resource`; permutation of live values |
| C06, C14, C39 | generic theorem: operations that run under an RWMutex are linearizable; instantiated with the micro-step bodies of plan, cache, store |
| C07–C09, C11 | expected to fail (Put resets the inner map; Delete forgets the mirror index; keys are pointers): negation with witness plus partial |
| C10, C12, C13 | cache state machine, refinement to a one-link register per UID |
| C15 | ID-allocator invariant over every history |
| C16–C18 | graph state machine; uid↔id bijection invariant under a stated discipline on AddNode; violation witnesses outside it |
| C19–C26 | edge-map laws for the directed and undirected gonum graphs, lifted to the WG API by the invariant |
| C27–C30 | BFS loop invariant with level counters; link loop; heap frame lemma; C29 expected to fail |
| C31 | option folding |
| C32, C36–C38 | store state machine over the graph model; refinement to a map; invariants |
| C33–C35 | expected to fail (NewNode returns the stored node; Node.Attrs shadows the entity's; index never advances) |
| C40–C42 | interleaving model of critical sections / lock skeletons; expected to fail for RemoveNode, Link, DOT, SubGraph; partial for the rest |
| C43–C45 | constructors and conversions over the heap; C45 expected to fail for custom DOTIDs |
| C46–C48 | JSON encoder/decoder model down to characters; round-trip; method-set dispatch; sorted keys |
| C49–C58 | broker transition system with ghost logs; invariants over all reachable states; violation traces |
| C65–C68 | rank functions, topic-table invariant, access lists on the same transition system; C67 and C68 expected to fail for overlapping sessions |
| C59–C61 | ingester, digester, runner as functions over abstract broker/subscriber |
| C62 | total function over `Int` |
| C69 | composition of C46, C49, C59, C65 |
| C71–C74 | document as list of statements; sorted lists with equal members are equal; edge loop invariant; C72–C74 expected to fail |
| C75–C77 | parser equals grammar (soundness and completeness by induction on texts); decoder loop invariant "what was read so far"; C76 expected to fail |
| C78 | linearization points: entering the section that returns; state-dependent for two-section methods; expected to fail for Link, NewNode, SubGraph |
| C79 | implementations of the interface as arbitrary state machines; induction over the keys listed; expected to fail for nil |
| C80, C81 | the broker transition system driven by a clock; invariant relating timers to call times; C80 expected to fail for options the code ignores |
| C82 | counterexample histories with two nodes made before either is added; invariant of gonum's tables over every history for what holds by ID; a condition on calls and results that implies the discipline of C19 to C30 |
| C83–C86 | graph over objects, simulated by the graph over values; C83 expected to fail for upserts, C84 for undirected graphs; relation "equal up to DOTIDs" preserved by every call; invariant of the sub graph being built: nodes from the source, edges new; the walk over objects simulated by the walk over values, which gives the nodes within the depth; the linking loops add exactly the source's edges between them |
| C87 | relation between two executions: equal graphs, equally many attribute sets with any contents; preserved by every call |
| C88, C89 | programs of single map accesses without locks; rely and guarantee: others only add keys and only set allowed values; C88 and C89 expected to fail. The range loop of `Keys` is one access, and Go's abort on concurrent map use is not modelled |
| C90–C92 | programs of store and graph over the same two mutexes; erasing the calls that only look gives an execution of the store alone; commit point of a store call: its last access to the graph, or for bulk calls one commit point for each part; lock order store before graph; C91 expected to fail for bulk calls, C92 for DOT, Link, SubGraph and IDs handed out by NewNode Panics: rely/guarantee for the graph's mutex with the store's mutex around some sections (`Lemmas/SectionsTwo.lean`): who is inside the store may rely on nobody else changing the nodes |
| C93 | the handler is ours (the repository has only DumpData): the obvious one. The store holds the network of the values handled so far, by induction with the invariants of C32 and the round trip of C69; the values handled are a prefix of those on the topic, by the broker's log |
| C94 | a measure: the number of messages ahead (read off the log) times the steps of one round, plus the position in the round, falls with each step of Digest's goroutine and never rises with anybody else's. With fairness (`Fair`) that gives delivery; with C93 that the store gets every accepted value |
| C95 | the programs of C90–C92 with one mutex per store; race freedom and the commit-point argument carry over under renaming of mutexes; lock order: any one store before the graph. Expected to fail for Link (nested read lock, as in C92) and for Add on two stores (ID taken in one critical section, used in another); IDs and panics as in C92, with the mutex of the store that adds as the outer one (`Lemmas/SectionsTwo.lean`) |
| C96 | forward simulation from the statement-level system to the coarse one (commit points: the first statement after which the section cannot be observed undone), expansion of coarse steps the other way, draining of critical sections |
| C97 | a rank for positions in critical sections (for Close the size of the table) falls with each statement; while a writer waits the number of readers falls; so the mutex is free of writers again and again; then the measure of C66 for the rest of the call |
| C98 | each method is given a relation between its outcome and the locks it keeps, some number of read locks or the write lock (compositional, over programs); the state of the mutex is the sum over calls in progress and ended calls; a call alone on free mutexes ends by induction on its program; a kept read lock blocks the write lock for ever, a kept write lock blocks everything |
| C99 | mutexes have ranks; who waits for one holds only such of lower rank (from the locking discipline; where read locks are nested inside a store's section, nobody can be asking for the graph's write lock). Programs are well-founded, so a call that never returns stays at one place for ever; take one that waits for a mutex of highest rank: its holders are not stuck, so readers leave once a writer has announced itself, and it is free of writers again and again |
| C100 | rely-guarantee over programs with a record of the states seen so far: what a call returns is related to states during the call; what a call may access is read off its program; counterexamples are runs found by evaluation; made alone, programs evaluate to the sequential model |
| C101 | option lists by induction; an invariant of the shared state that every single access keeps, whoever holds which lock (`Lemmas/Keeps.lean`); subscriptions from the invariant of the broker, carried to single statements by the simulation |
| C102, C103 | a predicate on programs, compositional: every write either changes nothing that was there, or all results still possible after it are successes; an invariant of configurations (call numbers are unique), then one of the rest of the execution (`Lemmas/FailClean.lean`) |
| C104 | the programs of C06 and C14 with calls that panic inside the lock; linearizability against the same specifications over the history without calls with nil; the framework's theorems for one mutex (races, deadlock, fairness) and C102's predicate |
| C105 | simulation by a reference store that knows nil (`Spec/NilStore.lean`); every body stays inside the store's own lock, which is always released, so the framework's theorems for one mutex apply although the graph's lock may stay locked |
| C106 | every piece the encoder writes is the UTF-8 of a text of harmless characters; such texts are closed under concatenation; induction over the string being quoted and over the JSON value (`Lemmas/JsonSafe.lean`) |
| C107 | a predicate on programs saying which locations they access, from states with an invariant that all calls keep (`Lemmas/DotIds.lean`: `minds_reach`); the lock discipline for the maps; for nodes not yet added the invariant is that no table and no edge mentions the node (`Lemmas/DotIdsAbsent.lean`) |
| C70 | induction over the calls of write(2) |

## Trusted base

* Lean 4.33.0's kernel. No `sorry`, no added axioms, no `native_decide`/`bv_decide`.
* The axioms of each theorem in the manifest are listed below; there are no others than `propext`,
  `Classical.choice` and `Quot.sound`.
* The reading of the Go code recorded in the citations.
* The models of gonum, encoding/json, Go maps, channels, select and `sync.RWMutex` described above.

Not modelled: layout and quoting of DOT text, YAML, UUID generation,
user-written implementations of the `attrs.Attrs` interface outside C79,
the Go memory model beyond "a data race is reported as such".

### Axioms per theorem

* none: c60_digest_violated, c60_run_violated, c60_run_call_violated
* `propext`: c31_edge_identity, c31_node_identity, c101_store_new, c101_space
* `propext`, `Classical.choice`, `Quot.sound`: c03_toMap_fromMap, c05_plan_getAll, c06_plan_linearizable, c06_plan_linearizable_from, c14_cache_linearizable, c14_cache_linearizable_from, c15_newNode_fresh_id, c15_newNode_fits, c15_newNode_lookup, c17_agree_partial, c17_agree_ids_partial, c18_addNode_partial, c19_link, c20_link_panic_partial, c21_unlink, c22_removeNode, c22_no_resurrection, c24_from, c24_from_exact, c25_edges, c26_nodes_partial, c27_nodes, c28_edges, c29_some_edge_partial, c30_source_untouched, c32_refines, c32_get, c32_duplicate, c32_delete, c33_upsert_partial, c34_violated_always, c34_violated, c34_attrs_partial, c37_well_formed, c38_link, c38_unlink, c38_adjacency, c38_self_link_panics, c39_store_linearizable, c39_store_linearizable_from, c40_fixed_ids_partial, c40_fixed_idle_partial, c40_found_listed_partial, c40_edges_partial, c41_completes_partial, c41_deadlock_partial, c41_after_dot_partial, c41_dot_writer_partial, c42_races_partial, c42_no_race_partial, c46_violated, c46_violated_attrs, c46_entity_partial, c46_resource_partial, c46_object_partial, c46_link_partial, c46_exact_partial, c47_unsupported, c47_entity, c47_resource, c47_object, c47_link, c47_attrs, c47_nested, c47_types, c48_entity, c48_resource, c48_object, c48_link, c51_stmt_partial, c52_not_connected, c54_idempotent_partial, c54_deactivates, c54_stmt_deactivates, c55_unsubscribed, c56_stmt_partial, c57_fresh_partial, c57_live_partial, c57_stays_open_partial, c57_stmt_fresh_partial, c57_stmt_live_partial, c57_stmt_stays_open_partial, c58_cancel_partial, c58_returns, c58_stmt_cancel_partial, c59_publishes, c59_default_violated, c59_default_partial, c60_ingest_violated, c60_call_options_partial, c61_stops_partial, c61_in_order_partial, c61_stmt_spins, c61_stmt_stops_partial, c61_stmt_in_order_partial, c62_type_names, c63_no_race, c64_completes, c65_shared, c65_available, c65_stmt_shared, c66_enabled, c66_returns, c67_ends_partial, c67_stmt_ends_partial, c68_stmt_guarded_partial, c68_guarded_partial, c68_free_partial, c68_stmt_free_partial, c69_stmt_end_to_end, c69_rejects, c69_end_to_end, c69_available, c70_dump, c70_returns, c71_dot_partial, c71_structure_partial, c72_extensional_partial, c72_single_partial, c74_reads_back_partial, c75_entity, c75_resource, c75_object, c75_link, c75_other, c76_incomplete_violated, c76_link_as_entity_partial, c76_kind_violated, c76_nonempty_partial, c77_resource, c77_object, c78_link_violated, c78_newNode_violated, c78_subGraph_violated, c78_ids_violated, c78_linearizable_partial, c80_options_partial, c81_every_run, c81_in_time, c82_keptApart_partial, c82_link_partial, c82_unlink_partial, c82_edges_partial, c83_nodes_partial, c83_new, c84_directed_partial, c84_edges_partial, c84_link_partial, c84_reverse_partial, c86_nodes_partial, c86_within, c86_made, c86_objects, c86_links, c89_sane_partial, c89_frozen_partial, c90_store_linearizable, c90_store_linearizable_from, c90_same_data, c90_no_race, c90_completes, c91_single_partial, c91_parts_partial, c92_remove_violated, c92_panic_partial, c92_full_partial, c92_ids_partial, c92_completes_partial, c92_no_race_partial, c92_panic_violated, c93_stmt_digests, c93_builds, c93_rejects, c93_digests, c94_keeps_up, c94_undisturbed, c94_stored, c94_stmt_keeps_up, c94_stmt_undisturbed, c94_stmt_stored, c95_panic_partial, c95_full_partial, c95_ids_partial, c95_no_race_partial, c95_completes_partial, c95_panic_violated, c95_reader_partial, c95_parts_partial, c96_atomic, c96_between, c96_complete, c96_delivery, c96_not_connected, c96_no_panic, c96_progress, c97_returns, c97_locks, c97_unlocks, c98_graph_races_partial, c98_graph_no_race_partial, c98_graph_usable_partial, c98_graph_stuck_partial, c98_graph_frozen_partial, c98_graph_newNode_partial, c98_graph_noUID_partial, c98_store_usable_partial, c98_store_stuck_partial, c98_store_frozen_partial, c98_store_add_partial, c98_store_noUID_partial, c99_returns, c99_graph, c99_looked_at, c99_shared, c100_keys_partial, c100_copy_partial, c100_dot_partial, c100_unlocked_partial, c100_dot_keeps_partial, c101_stmt_subscription, c103_graph_most_partial, c104_plan_linearizable, c104_cache_linearizable, c104_no_race, c104_completes, c104_returns, c105_store_linearizable, c105_store_no_race, c106_safe, c106_per_line, c107_races_partial, c107_no_race_partial
* `propext`, `Quot.sound`: c01_attrs_map, c02_copy_independent, c02_fromMap_independent, c03_dotAttrs, c04_plan_refines, c04_plan_get, c04_plan_delete_absent, c07_violated, c07_visible_partial, c08_violated, c08_delete_partial, c09_violated, c09_violated_after_delete, c09_agree_partial, c10_put_existing, c11_violated, c11_interned_partial, c12_bulk, c13_retention, c16_node_lookup, c17_violated, c17_violated_general, c18_violated, c18_violated_new_id, c20_violated, c23_undirected, c23_directed, c26_violated, c26_ids_partial, c29_violated, c33_violated, c35_violated, c35_bulkGet_partial, c36_bulk_in_order, c36_inOrder_unique, c40_new_violated, c40_remove_violated, c40_link_violated, c41_link_violated, c41_dot_violated, c42_violated, c43_entity, c43_resource, c43_object, c43_link, c44_entity, c44_resource, c44_object, c44_link, c45_violated, c45_violated_others, c45_entity_partial, c45_resource_partial, c45_object_partial, c45_link_partial, c49_delivery, c50_capacity, c50_attained, c51_published_violated, c51_cancelled_violated, c51_published_partial, c53_no_panic, c53_only_unsubscribe, c54_idempotent_violated, c56_receive_violated, c56_receive_partial, c57_fresh_violated, c57_live_violated, c57_stays_open_violated, c58_cancel_violated, c60_run_dropped_partial, c61_spins, c61_cancel_violated, c61_close_violated, c61_hands_over_violated, c66_bounded, c67_leak_violated, c68_accesses, c68_stmt_violated, c68_exit_violated, c68_pub_violated, c68_active_violated, c71_upsert_violated, c72_determined_violated, c73_name_violated, c73_options_violated, c73_exact_partial, c74_names_violated, c79_nil_violated, c79_copy_partial, c79_toMap, c79_dotAttrs, c79_memory, c80_default_cap_violated, c80_sink_violated, c80_recv_timeout_violated, c81_clock, c81_pub, c81_receive, c82_link_violated, c82_link_ends_violated, c82_unlink_violated, c82_remove_violated, c82_nodes_violated, c82_remove_partial, c82_from_partial, c83_violated, c83_added, c84_violated, c85_erase, c85_node, c85_edge, c86_violated, c86_edges, c87_graph, c87_graph_frame, c87_subGraph, c87_subGraph_frame, c87_dot, c87_store, c87_store_frame, c88_violated, c88_races_partial, c89_violated, c89_keys_violated, c91_violated, c92_subGraph_violated, c92_dot_violated, c92_link_violated, c92_race_violated, c95_link_violated, c95_atomic_violated, c98_graph_violated, c98_store_violated, c98_graph_agrees_partial, c98_store_agrees_partial, c100_race_violated, c100_races_partial, c100_panic_violated, c100_snapshot_violated, c100_alone_partial, c101_graph_new, c101_graph_keeps, c101_subgraph, c101_graph_conc, c101_store_conc, c101_subscription, c102_store_clean, c102_store_alone, c103_graph_violated, c103_graph_clean_partial, c103_graph_alone_partial, c103_graph_noUID_partial, c104_clean, c107_violated, c107_new_partial, c107_alone_partial, c107_lookups_partial
