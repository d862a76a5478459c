{
 "claims": [
  {
   "property": "C01",
   "status": "proved",
   "theorems": [
    "Netscrape.Props.c01_attrs_map"
   ],
   "note": "For every heap, every history of Set calls on this and other attribute sets, and every iteration order."
  },
  {
   "property": "C02",
   "status": "proved",
   "theorems": [
    "Netscrape.Props.c02_copy_independent",
    "Netscrape.Props.c02_fromMap_independent"
   ],
   "note": "Equality and independence both ways, for NewCopyFrom and NewFromMap, over all later write histories."
  },
  {
   "property": "C03",
   "status": "proved",
   "theorems": [
    "Netscrape.Props.c03_toMap_fromMap",
    "Netscrape.Props.c03_dotAttrs"
   ],
   "note": "Round trip up to map equality, and the DOT attribute list as a permutation of the entries."
  },
  {
   "property": "C04",
   "status": "proved",
   "theorems": [
    "Netscrape.Props.c04_plan_refines",
    "Netscrape.Props.c04_plan_get",
    "Netscrape.Props.c04_plan_delete_absent"
   ],
   "note": "Refinement of the plan to the most recent live resource per UID string, for every history."
  },
  {
   "property": "C05",
   "status": "proved",
   "theorems": [
    "Netscrape.Props.c05_plan_getAll"
   ],
   "note": "For every history and iteration order."
  },
  {
   "property": "C06",
   "status": "proved",
   "theorems": [
    "Netscrape.Props.c06_plan_linearizable",
    "Netscrape.Props.c06_plan_linearizable_from"
   ],
   "note": "Proved for every configuration reachable by any number of goroutines in micro-steps (lock request, lock grant, each map access, unlock). Answers are judged by Spec.Plan.Right, which mentions only the calls made before."
  },
  {
   "property": "C07",
   "status": "partial",
   "theorems": [
    "Netscrape.Props.c07_violated",
    "Netscrape.Props.c07_visible_partial"
   ],
   "note": "Violated as stated (put resets the inner map, so a second link from the same origin displaces the first); the partial gives the condition under which a link stays visible."
  },
  {
   "property": "C08",
   "status": "partial",
   "theorems": [
    "Netscrape.Props.c08_violated",
    "Netscrape.Props.c08_delete_partial"
   ],
   "note": "Violated as stated (Delete leaves the mirror entries); the partial states what Delete does."
  },
  {
   "property": "C09",
   "status": "partial",
   "theorems": [
    "Netscrape.Props.c09_violated",
    "Netscrape.Props.c09_violated_after_delete",
    "Netscrape.Props.c09_agree_partial"
   ],
   "note": "Violated as stated; the partial covers histories without Delete whose links pair origins and ends one to one."
  },
  {
   "property": "C10",
   "status": "proved",
   "theorems": [
    "Netscrape.Props.c10_put_existing"
   ],
   "note": "For every history after which both indexes hold the link. (Histories in which only one of them does are C07-C09.)"
  },
  {
   "property": "C11",
   "status": "partial",
   "theorems": [
    "Netscrape.Props.c11_violated",
    "Netscrape.Props.c11_interned_partial"
   ],
   "note": "Violated as stated (interface keys compare by identity); the partial covers interned UIDs."
  },
  {
   "property": "C12",
   "status": "proved",
   "theorems": [
    "Netscrape.Props.c12_bulk"
   ],
   "note": "For every history; after Clear the cache also behaves as new in the future."
  },
  {
   "property": "C13",
   "status": "proved",
   "theorems": [
    "Netscrape.Props.c13_retention"
   ],
   "note": "Exact characterisation of GetFrom/GetTo for all histories."
  },
  {
   "property": "C14",
   "status": "proved",
   "theorems": [
    "Netscrape.Props.c14_cache_linearizable",
    "Netscrape.Props.c14_cache_linearizable_from"
   ],
   "note": "As C06; reads are judged by the retained links of Spec.Cache; bulk calls are one atomic call each."
  },
  {
   "property": "C15",
   "status": "proved",
   "theorems": [
    "Netscrape.Props.c15_newNode_fresh_id",
    "Netscrape.Props.c15_newNode_fits",
    "Netscrape.Props.c15_newNode_lookup"
   ],
   "note": "c15_newNode_fresh_id covers all histories (listed nodes); c15_newNode_lookup covers nodes found by UID in disciplined histories; c15_newNode_fits shows nodes from NewNode satisfy the AddNode precondition used in C19 to C30."
  },
  {
   "property": "C16",
   "status": "proved",
   "theorems": [
    "Netscrape.Props.c16_node_lookup"
   ],
   "note": "All histories, disciplined or not."
  },
  {
   "property": "C17",
   "status": "partial",
   "theorems": [
    "Netscrape.Props.c17_violated",
    "Netscrape.Props.c17_violated_general",
    "Netscrape.Props.c17_agree_partial",
    "Netscrape.Props.c17_agree_ids_partial"
   ],
   "note": "Violated when two nodes are obtained from NewNode before either is added (IDs are not reserved). The partials give exact agreement without upsert and UID/ID agreement with upsert, when AddNode gets nodes whose UID and ID point at the same node or none."
  },
  {
   "property": "C18",
   "status": "partial",
   "theorems": [
    "Netscrape.Props.c18_violated",
    "Netscrape.Props.c18_violated_new_id",
    "Netscrape.Props.c18_addNode_partial"
   ],
   "note": "Violated: after an upsert Nodes still lists the old node; and a known UID with a new ID is accepted without upsert. The partial states what AddNode does for nodes that fit."
  },
  {
   "property": "C19",
   "status": "proved",
   "theorems": [
    "Netscrape.Props.c19_link"
   ],
   "note": "Reachable means AddNode is given nodes whose UID and ID point at the same node or none (which NewNode followed by AddNode guarantees, C15)."
  },
  {
   "property": "C20",
   "status": "partial",
   "theorems": [
    "Netscrape.Props.c20_violated",
    "Netscrape.Props.c20_link_panic_partial"
   ],
   "note": "Violated: Link(u,u) panics. The partial shows this is the only panic in disciplined histories; c82_link_partial gives the exact condition for all histories."
  },
  {
   "property": "C21",
   "status": "proved",
   "theorems": [
    "Netscrape.Props.c21_unlink"
   ],
   "note": "Disciplined histories."
  },
  {
   "property": "C22",
   "status": "proved",
   "theorems": [
    "Netscrape.Props.c22_removeNode",
    "Netscrape.Props.c22_no_resurrection"
   ],
   "note": "Disciplined histories; includes no resurrection of edges after re-adding."
  },
  {
   "property": "C23",
   "status": "proved",
   "theorems": [
    "Netscrape.Props.c23_undirected",
    "Netscrape.Props.c23_directed"
   ],
   "note": "All histories."
  },
  {
   "property": "C24",
   "status": "proved",
   "theorems": [
    "Netscrape.Props.c24_from",
    "Netscrape.Props.c24_from_exact"
   ],
   "note": "By UID in disciplined histories; exact node values without upsert."
  },
  {
   "property": "C25",
   "status": "proved",
   "theorems": [
    "Netscrape.Props.c25_edges"
   ],
   "note": "Disciplined histories."
  },
  {
   "property": "C26",
   "status": "partial",
   "theorems": [
    "Netscrape.Props.c26_violated",
    "Netscrape.Props.c26_ids_partial",
    "Netscrape.Props.c26_nodes_partial"
   ],
   "note": "Violated for histories in which AddNode reuses IDs of other nodes; the partials hold by ID for all histories and by UID for disciplined ones."
  },
  {
   "property": "C27",
   "status": "proved",
   "theorems": [
    "Netscrape.Props.c27_nodes"
   ],
   "note": "Disciplined histories (see C19). The traversal is gonum's BreadthFirst, modelled from its source as recalled; see DESIGN.md."
  },
  {
   "property": "C28",
   "status": "proved",
   "theorems": [
    "Netscrape.Props.c28_edges"
   ],
   "note": "Disciplined histories."
  },
  {
   "property": "C29",
   "status": "partial",
   "theorems": [
    "Netscrape.Props.c29_violated",
    "Netscrape.Props.c29_some_edge_partial"
   ],
   "note": "Violated: all subgraph edges get the attributes and weight of the first edge of the source's enumeration. The partial: those of some source edge."
  },
  {
   "property": "C30",
   "status": "proved",
   "theorems": [
    "Netscrape.Props.c30_source_untouched"
   ],
   "note": "That the call cannot change the source's nodes and edges is by construction of the model (the code only reads g); the theorem covers attribute sets."
  },
  {
   "property": "C31",
   "status": "proved",
   "theorems": [
    "Netscrape.Props.c31_edge_identity",
    "Netscrape.Props.c31_node_identity"
   ],
   "note": "All option lists."
  },
  {
   "property": "C32",
   "status": "proved",
   "theorems": [
    "Netscrape.Props.c32_refines",
    "Netscrape.Props.c32_get",
    "Netscrape.Props.c32_duplicate",
    "Netscrape.Props.c32_delete"
   ],
   "note": "Histories with at most 2^63 attempted additions (then the ID allocator panics). c32_refines covers single and bulk calls against a reference table; c32_get is the literal statement for histories of single calls."
  },
  {
   "property": "C33",
   "status": "partial",
   "theorems": [
    "Netscrape.Props.c33_violated",
    "Netscrape.Props.c33_upsert_partial"
   ],
   "note": "Violated: an upsert of a known UID reports success and keeps the old entity. The partial: upsert always succeeds, stores the entity when its UID is new, and changes no Get otherwise."
  },
  {
   "property": "C34",
   "status": "partial",
   "theorems": [
    "Netscrape.Props.c34_violated_always",
    "Netscrape.Props.c34_violated",
    "Netscrape.Props.c34_attrs_partial"
   ],
   "note": "Violated for every entity that has an attribute (c34_violated_always): Get returns it with none. The partial: UID and type are kept and the attributes are those of the WithAttrs option."
  },
  {
   "property": "C35",
   "status": "partial",
   "theorems": [
    "Netscrape.Props.c35_violated",
    "Netscrape.Props.c35_bulkGet_partial"
   ],
   "note": "Violated: slot 0 holds the entity of the last UID, all other slots are nil. The partial states exactly that and the error case."
  },
  {
   "property": "C36",
   "status": "proved",
   "theorems": [
    "Netscrape.Props.c36_bulk_in_order",
    "Netscrape.Props.c36_inOrder_unique"
   ],
   "note": "Any store state; InOrder describes the outcome by the longest successful prefix of single calls; c36_inOrder_unique shows the description determines the outcome."
  },
  {
   "property": "C37",
   "status": "proved",
   "theorems": [
    "Netscrape.Props.c37_well_formed"
   ],
   "note": "All histories with at most 2^63 attempted additions."
  },
  {
   "property": "C38",
   "status": "proved",
   "theorems": [
    "Netscrape.Props.c38_link",
    "Netscrape.Props.c38_unlink",
    "Netscrape.Props.c38_adjacency",
    "Netscrape.Props.c38_self_link_panics"
   ],
   "note": "Distinct entities; linking an entity with itself panics (c38_self_link_panics). c38_adjacency gives adjacency after whole histories."
  },
  {
   "property": "C39",
   "status": "proved",
   "theorems": [
    "Netscrape.Props.c39_store_linearizable",
    "Netscrape.Props.c39_store_linearizable_from"
   ],
   "note": "As C06, with the store's mutex and the graph's own mutex both modelled; the specification is the reference store of Spec/Store.lean, for up to 2^63 added entities. Direct use of the graph handle or of returned attribute sets is excluded, as the property says."
  },
  {
   "property": "C40",
   "status": "partial",
   "theorems": [
    "Netscrape.Props.c40_new_violated",
    "Netscrape.Props.c40_remove_violated",
    "Netscrape.Props.c40_link_violated",
    "Netscrape.Props.c40_fixed_ids_partial",
    "Netscrape.Props.c40_fixed_idle_partial",
    "Netscrape.Props.c40_found_listed_partial",
    "Netscrape.Props.c40_edges_partial"
   ],
   "note": "Violated in three independent ways, each with a concrete schedule: NewNode does not reserve its ID (two creators get the same one); the two critical sections of RemoveNode allow the wrong node to be removed; Link between its two sections re-adds a node that was removed. Proved instead: with fixed UID/ID pairs and either no Link or no RemoveNode, lookup and enumeration agree whenever nobody holds the write lock, in every execution. With both, still every node that is found is enumerated under its ID and nothing is enumerated twice; and without any assumption on IDs every enumerated edge joins two enumerated nodes."
  },
  {
   "property": "C41",
   "status": "partial",
   "theorems": [
    "Netscrape.Props.c41_link_violated",
    "Netscrape.Props.c41_dot_violated",
    "Netscrape.Props.c41_completes_partial",
    "Netscrape.Props.c41_deadlock_partial",
    "Netscrape.Props.c41_after_dot_partial",
    "Netscrape.Props.c41_dot_writer_partial"
   ],
   "note": "Violated by Link (takes the read lock twice; a writer announcing itself in between deadlocks both) and by DOT (defers RLock instead of RUnlock). Proved: all other methods run to completion under every scheduler; with Link, every deadlock is exactly of that kind. How far a returned DOT call reaches is proved too: no NewNode or AddNode call made afterwards ever returns, and once one of them waits, no later call of any locking method returns."
  },
  {
   "property": "C42",
   "status": "partial",
   "theorems": [
    "Netscrape.Props.c42_violated",
    "Netscrape.Props.c42_races_partial",
    "Netscrape.Props.c42_no_race_partial"
   ],
   "note": "Violated by SubGraph, whose last phase reads the gonum graph without the lock. Proved: every race has a SubGraph call on one side and is on the gonum graph; none on the lookup map; without SubGraph none at all."
  },
  {
   "property": "C43",
   "status": "proved",
   "theorems": [
    "Netscrape.Props.c43_entity",
    "Netscrape.Props.c43_resource",
    "Netscrape.Props.c43_object",
    "Netscrape.Props.c43_link"
   ],
   "note": "All option lists, heaps and fresh UIDs; one theorem per constructor. Constructors never fail in the model (NewFromString/New are total here)."
  },
  {
   "property": "C44",
   "status": "proved",
   "theorems": [
    "Netscrape.Props.c44_entity",
    "Netscrape.Props.c44_resource",
    "Netscrape.Props.c44_object",
    "Netscrape.Props.c44_link"
   ],
   "note": "All heaps, iteration orders and UID addresses; attributes compared as maps. Objects with and without a resource."
  },
  {
   "property": "C45",
   "status": "partial",
   "theorems": [
    "Netscrape.Props.c45_violated",
    "Netscrape.Props.c45_violated_others",
    "Netscrape.Props.c45_entity_partial",
    "Netscrape.Props.c45_resource_partial",
    "Netscrape.Props.c45_object_partial",
    "Netscrape.Props.c45_link_partial"
   ],
   "note": "Violated for custom DOTIDs (not serialised). The partials show everything else survives and characterise exactly when the DOTID does."
  },
  {
   "property": "C46",
   "status": "partial",
   "theorems": [
    "Netscrape.Props.c46_violated",
    "Netscrape.Props.c46_violated_attrs",
    "Netscrape.Props.c46_entity_partial",
    "Netscrape.Props.c46_resource_partial",
    "Netscrape.Props.c46_object_partial",
    "Netscrape.Props.c46_link_partial",
    "Netscrape.Props.c46_exact_partial"
   ],
   "note": "Violated for strings that are not valid UTF-8 (replaced by U+FFFD; distinct attribute keys can merge). The partials prove the round trip for all values whose strings are valid UTF-8, through a byte-level model of the encoding/json writer and a full JSON parser, and show validity is also necessary."
  },
  {
   "property": "C47",
   "status": "proved",
   "theorems": [
    "Netscrape.Props.c47_unsupported",
    "Netscrape.Props.c47_entity",
    "Netscrape.Props.c47_resource",
    "Netscrape.Props.c47_object",
    "Netscrape.Props.c47_link",
    "Netscrape.Props.c47_attrs",
    "Netscrape.Props.c47_nested",
    "Netscrape.Props.c47_types"
   ],
   "note": "Types are given by their method tables. The form written is stated by parsing the bytes: key list and field values (sanitised; identity on valid UTF-8)."
  },
  {
   "property": "C48",
   "status": "proved",
   "theorems": [
    "Netscrape.Props.c48_entity",
    "Netscrape.Props.c48_resource",
    "Netscrape.Props.c48_object",
    "Netscrape.Props.c48_link"
   ],
   "note": "All heaps, values, and iteration orders of copying and encoding."
  },
  {
   "property": "C49",
   "status": "proved",
   "theorems": [
    "Netscrape.Props.c49_delivery"
   ],
   "note": "All interleavings of any number of callers. Includes: at every prefix of the history the messages taken off a channel are a prefix of those put there; a taken message was put there before, by a Pub on the subscriber's topic; the handler gets exactly that message."
  },
  {
   "property": "C50",
   "status": "proved",
   "theorems": [
    "Netscrape.Props.c50_capacity",
    "Netscrape.Props.c50_attained"
   ],
   "note": "Upper bound for every capacity and interleaving, equality for capacity 0, and attainability of the full capacity. A capacity so large that make panics is not modelled."
  },
  {
   "property": "C51",
   "status": "partial",
   "theorems": [
    "Netscrape.Props.c51_published_violated",
    "Netscrape.Props.c51_cancelled_violated",
    "Netscrape.Props.c51_published_partial",
    "Netscrape.Props.c51_stmt_partial"
   ],
   "note": "Violated: Pub returns nil without having published when the broker is closed meanwhile or its context is cancelled (two concrete schedules). Proved: error means never delivered; nil means published exactly once on its topic, or the broker was closed during the call or the call's context cancelled. What is proved also holds when goroutines take turns in the middle of critical sections (the theorems with stmt in their names)."
  },
  {
   "property": "C52",
   "status": "proved",
   "theorems": [
    "Netscrape.Props.c52_not_connected"
   ],
   "note": "Stated on the history: the call starts while the broker is closed and returns before it is opened again."
  },
  {
   "property": "C53",
   "status": "proved",
   "theorems": [
    "Netscrape.Props.c53_no_panic",
    "Netscrape.Props.c53_only_unsubscribe"
   ],
   "note": "No panic as long as nobody calls Unsubscribe, and in general a panic only happens inside Unsubscribe. Message and control channels are never closed by the code, so sends on closed channels cannot occur."
  },
  {
   "property": "C54",
   "status": "partial",
   "theorems": [
    "Netscrape.Props.c54_idempotent_violated",
    "Netscrape.Props.c54_idempotent_partial",
    "Netscrape.Props.c54_deactivates",
    "Netscrape.Props.c54_stmt_deactivates"
   ],
   "note": "Violated: Unsubscribe writes under a read lock; two overlapping calls close the channel twice and the process panics. Proved: no panic if Unsubscribe calls on one subscription do not overlap; a returned Unsubscribe leaves the subscription inactive. That it is inactive also holds statement by statement; for the panic see C96."
  },
  {
   "property": "C55",
   "status": "proved",
   "theorems": [
    "Netscrape.Props.c55_unsubscribed"
   ],
   "note": "For every interleaving."
  },
  {
   "property": "C56",
   "status": "partial",
   "theorems": [
    "Netscrape.Props.c56_receive_violated",
    "Netscrape.Props.c56_receive_partial",
    "Netscrape.Props.c56_stmt_partial"
   ],
   "note": "Violated: a Receive whose timer expires discards the next message. Proved: the exact list of outcomes. What is proved also holds when goroutines take turns in the middle of critical sections (the theorems with stmt in their names)."
  },
  {
   "property": "C57",
   "status": "partial",
   "theorems": [
    "Netscrape.Props.c57_fresh_violated",
    "Netscrape.Props.c57_live_violated",
    "Netscrape.Props.c57_stays_open_violated",
    "Netscrape.Props.c57_fresh_partial",
    "Netscrape.Props.c57_live_partial",
    "Netscrape.Props.c57_stays_open_partial",
    "Netscrape.Props.c57_stmt_fresh_partial",
    "Netscrape.Props.c57_stmt_live_partial",
    "Netscrape.Props.c57_stmt_stays_open_partial"
   ],
   "note": "Violated in three ways: Close keeps topics without subscribers, so their messages reach the next session and subscriptions to them are dead (stale exit channel); the goroutine of the old session can close the new one. Proved: freshness and liveness if every topic had a subscriber when the broker was closed and no Pub or Sub was in between its checks; staying open if Open is only called when no other Open or session goroutine is in progress. What is proved also holds when goroutines take turns in the middle of critical sections (the theorems with stmt in their names)."
  },
  {
   "property": "C58",
   "status": "partial",
   "theorems": [
    "Netscrape.Props.c58_cancel_violated",
    "Netscrape.Props.c58_cancel_partial",
    "Netscrape.Props.c58_returns",
    "Netscrape.Props.c58_stmt_cancel_partial"
   ],
   "note": "Violated: Pub closes the whole broker when its context is cancelled. Proved: the call whose context is cancelled can always return on its own, and cancelling Receive contexts never closes the broker. What is proved also holds when goroutines take turns in the middle of critical sections (the theorems with stmt in their names) except that calls can return, for which see C96."
  },
  {
   "property": "C59",
   "status": "partial",
   "theorems": [
    "Netscrape.Props.c59_publishes",
    "Netscrape.Props.c59_default_violated",
    "Netscrape.Props.c59_default_partial"
   ],
   "note": "c59_publishes covers every marshaler and broker behaviour. The round trip of the default encoding is refuted: json.Marshal of the in-memory types writes {} for every value (c59_default_violated); for the transport types with valid UTF-8 strings it holds (c59_default_partial)."
  },
  {
   "property": "C60",
   "status": "partial",
   "theorems": [
    "Netscrape.Props.c60_ingest_violated",
    "Netscrape.Props.c60_digest_violated",
    "Netscrape.Props.c60_run_violated",
    "Netscrape.Props.c60_run_call_violated",
    "Netscrape.Props.c60_call_options_partial",
    "Netscrape.Props.c60_run_dropped_partial"
   ],
   "note": "Refuted for all three constructors: none of the stored options is ever read. Options of the call itself are honoured by Ingest and Digest; Run passes on the broker only (c60_run_dropped_partial)."
  },
  {
   "property": "C61",
   "status": "partial",
   "theorems": [
    "Netscrape.Props.c61_spins",
    "Netscrape.Props.c61_cancel_violated",
    "Netscrape.Props.c61_close_violated",
    "Netscrape.Props.c61_hands_over_violated",
    "Netscrape.Props.c61_stops_partial",
    "Netscrape.Props.c61_in_order_partial",
    "Netscrape.Props.c61_stmt_spins",
    "Netscrape.Props.c61_stmt_stops_partial",
    "Netscrape.Props.c61_stmt_in_order_partial"
   ],
   "note": "Refuted: with its context cancelled, or the session closed, Receive returns nil at once and Digest calls it again for ever (c61_spins, c61_cancel_violated, c61_close_violated), and a message arriving as the timer expires is dropped (c61_hands_over_violated). Proved: Digest stops within eight of its own steps after the subscription is ended (c61_stops_partial), and messages are handled in order of publication until the first error, which is returned (c61_in_order_partial). The same statement by statement with an explicit mutex: c61_stmt_spins, c61_stmt_stops_partial, c61_stmt_in_order_partial."
  },
  {
   "property": "C62",
   "status": "proved",
   "theorems": [
    "Netscrape.Props.c62_type_names"
   ],
   "note": "All integers."
  },
  {
   "property": "C63",
   "status": "proved",
   "theorems": [
    "Netscrape.Props.c63_no_race"
   ],
   "note": "A race is two goroutines about to access the same location, one to write. Sequential consistency of the model is justified by the absence of races."
  },
  {
   "property": "C64",
   "status": "proved",
   "theorems": [
    "Netscrape.Props.c64_completes"
   ],
   "note": "Termination under every scheduler and absence of stuck states, for one mutex (plan, cache) and two nested ones (store over graph); includes Go's rule that a waiting writer blocks new readers. For new calls that keep arriving see C99."
  },
  {
   "property": "C65",
   "status": "proved",
   "theorems": [
    "Netscrape.Props.c65_shared",
    "Netscrape.Props.c65_available",
    "Netscrape.Props.c65_stmt_shared"
   ],
   "note": "Channel identity of all senders and receivers on a topic between closes, and availability of the oldest untaken message to a new Receive on any live subscription, for every reachable state. The first part also holds statement by statement."
  },
  {
   "property": "C66",
   "status": "proved",
   "theorems": [
    "Netscrape.Props.c66_bounded",
    "Netscrape.Props.c66_enabled",
    "Netscrape.Props.c66_returns"
   ],
   "note": "Bound on the number of own steps per call (c66_bounded), a pending call always has an enabled step unless the process crashed (c66_enabled), and under weak fairness every call returns (c66_returns). Fairness covers timers, handlers and the mutex; see DESIGN.md."
  },
  {
   "property": "C67",
   "status": "partial",
   "theorems": [
    "Netscrape.Props.c67_leak_violated",
    "Netscrape.Props.c67_ends_partial",
    "Netscrape.Props.c67_stmt_ends_partial"
   ],
   "note": "Violated: two concurrent Open calls start two sessions and Close ends only one. Proved when Open calls do not overlap with each other or with a goroutine of an earlier session. What is proved also holds when goroutines take turns in the middle of critical sections (the theorems with stmt in their names), when nobody is in one at the moment."
  },
  {
   "property": "C68",
   "status": "partial",
   "theorems": [
    "Netscrape.Props.c68_stmt_guarded_partial",
    "Netscrape.Props.c68_accesses",
    "Netscrape.Props.c68_stmt_violated",
    "Netscrape.Props.c68_exit_violated",
    "Netscrape.Props.c68_pub_violated",
    "Netscrape.Props.c68_active_violated",
    "Netscrape.Props.c68_guarded_partial",
    "Netscrape.Props.c68_free_partial",
    "Netscrape.Props.c68_stmt_free_partial"
   ],
   "note": "Violated on m.exit (Open, Close, Open against the first session's goroutine; Pub against a later Open), on m.ctl, and on Subscriber.active (Unsubscribe writes under the read lock). Proved: no races on the fields guarded by the mutex, also statement by statement, where the list of accesses is proved to be complete; and none at all if Open does not overlap with Open, Pub or run, and Unsubscribe not with calls on the same subscription; the latter, too, statement by statement."
  },
  {
   "property": "C69",
   "status": "proved",
   "theorems": [
    "Netscrape.Props.c69_stmt_end_to_end",
    "Netscrape.Props.c69_rejects",
    "Netscrape.Props.c69_end_to_end",
    "Netscrape.Props.c69_available"
   ],
   "note": "Composition of ingester, JSON marshaler, in-memory broker and Unmarshal over every reachable state of the broker; valid values as in C46 (valid UTF-8, JSON safe, in the names/UIDs/attributes). c69_available: nothing waiting is lost while the broker stays open. c69_stmt_end_to_end: the same with the mutex of the broker explicit. c69_rejects: with the JSON marshaler nothing but the four kinds of value is published."
  },
  {
   "property": "C70",
   "status": "proved",
   "theorems": [
    "Netscrape.Props.c70_dump",
    "Netscrape.Props.c70_returns"
   ],
   "note": "The standard library below DumpData is modelled from its source as recalled; write(2) must not claim more bytes than it was given."
  },
  {
   "property": "C71",
   "status": "partial",
   "theorems": [
    "Netscrape.Props.c71_upsert_violated",
    "Netscrape.Props.c71_dot_partial",
    "Netscrape.Props.c71_structure_partial"
   ],
   "note": "Violated after an upsert: Node returns the new node, DOT shows the old one. Proved in full if no node is replaced (NoReplace); under Disciplined the structure (one statement per node and edge, right ends) still holds. Document modelled as statements, not text."
  },
  {
   "property": "C72",
   "status": "partial",
   "theorems": [
    "Netscrape.Props.c72_determined_violated",
    "Netscrape.Props.c72_extensional_partial",
    "Netscrape.Props.c72_single_partial"
   ],
   "note": "Violated: attributes appear in map iteration order. Proved: up to attribute order the document depends only on the answers of Node and Edge and the attribute contents; equal if no attribute set has two attributes."
  },
  {
   "property": "C73",
   "status": "partial",
   "theorems": [
    "Netscrape.Props.c73_name_violated",
    "Netscrape.Props.c73_options_violated",
    "Netscrape.Props.c73_exact_partial"
   ],
   "note": "Violated: DOT hands the embedded gonum graph to dot.Marshal, which has neither DOTID nor DOTAttributers, so the document has no name and no options. c73_exact_partial: it holds exactly for graphs with an empty DOTID and no options."
  },
  {
   "property": "C74",
   "status": "partial",
   "theorems": [
    "Netscrape.Props.c74_names_violated",
    "Netscrape.Props.c74_reads_back_partial"
   ],
   "note": "Violated: two nodes may have the same DOTID. Proved if DOTIDs differ and no node is replaced."
  },
  {
   "property": "C75",
   "status": "proved",
   "theorems": [
    "Netscrape.Props.c75_entity",
    "Netscrape.Props.c75_resource",
    "Netscrape.Props.c75_object",
    "Netscrape.Props.c75_link",
    "Netscrape.Props.c75_other"
   ],
   "note": "Text is the grammar of RFC 8259 as an inductive relation, Document/Fits/Says describe documents field by field; neither mentions the parser. Nesting depth is unlimited in the model (Go 1.14)."
  },
  {
   "property": "C76",
   "status": "partial",
   "theorems": [
    "Netscrape.Props.c76_incomplete_violated",
    "Netscrape.Props.c76_link_as_entity_partial",
    "Netscrape.Props.c76_kind_violated",
    "Netscrape.Props.c76_nonempty_partial"
   ],
   "note": "{} and null are accepted and every marshalled link is accepted as an entity; non-empty fields were given by the document."
  },
  {
   "property": "C77",
   "status": "proved",
   "theorems": [
    "Netscrape.Props.c77_resource",
    "Netscrape.Props.c77_object"
   ],
   "note": "Valid UTF-8 is needed for the same reason as in C46."
  },
  {
   "property": "C78",
   "status": "partial",
   "theorems": [
    "Netscrape.Props.c78_link_violated",
    "Netscrape.Props.c78_newNode_violated",
    "Netscrape.Props.c78_subGraph_violated",
    "Netscrape.Props.c78_ids_violated",
    "Netscrape.Props.c78_linearizable_partial"
   ],
   "note": "Violated by Link (two goroutines get different edges for one pair), by NewNode (picks an ID and looks for the node in different critical sections), by SubGraph (nodes and edges are read at different times) and, if IDs are not fixed, by RemoveNode. c78_linearizable_partial: AddNode, Node, Nodes, RemoveNode, Edge, Edges, From and Unlink are linearizable on every graph built with fixed UID/ID pairs."
  },
  {
   "property": "C79",
   "status": "partial",
   "theorems": [
    "Netscrape.Props.c79_nil_violated",
    "Netscrape.Props.c79_copy_partial",
    "Netscrape.Props.c79_toMap",
    "Netscrape.Props.c79_dotAttrs",
    "Netscrape.Props.c79_memory"
   ],
   "note": "Violated for nil: NewCopyFrom calls a.Keys before testing a for nil. Implementations are arbitrary state machines; the calls made and their answers are recorded. c79_memory ties the general functions to those of C02/C03."
  },
  {
   "property": "C80",
   "status": "partial",
   "theorems": [
    "Netscrape.Props.c80_default_cap_violated",
    "Netscrape.Props.c80_sink_violated",
    "Netscrape.Props.c80_recv_timeout_violated",
    "Netscrape.Props.c80_options_partial"
   ],
   "note": "Violated three times: without WithCap the capacity is 0, not DefaultSize (one of the repository's tests counts on 0); the sink is never looked at; the broker's receive timeout is never looked at. Proved: WithCap, the publish timeout, and the timeouts given to calls."
  },
  {
   "property": "C81",
   "status": "proved",
   "theorems": [
    "Netscrape.Props.c81_clock",
    "Netscrape.Props.c81_every_run",
    "Netscrape.Props.c81_pub",
    "Netscrape.Props.c81_receive",
    "Netscrape.Props.c81_in_time"
   ],
   "note": "TReach are the runs of the broker with a clock; c81_clock and c81_every_run relate them to the runs of C49-C58. Late: from any state there is a run of the call's own steps and waiting that returns in time; the handler has to return."
  },
  {
   "property": "C82",
   "status": "partial",
   "theorems": [
    "Netscrape.Props.c82_link_violated",
    "Netscrape.Props.c82_link_ends_violated",
    "Netscrape.Props.c82_unlink_violated",
    "Netscrape.Props.c82_remove_violated",
    "Netscrape.Props.c82_nodes_violated",
    "Netscrape.Props.c82_keptApart_partial",
    "Netscrape.Props.c82_link_partial",
    "Netscrape.Props.c82_unlink_partial",
    "Netscrape.Props.c82_remove_partial",
    "Netscrape.Props.c82_from_partial",
    "Netscrape.Props.c82_edges_partial"
   ],
   "note": "Violated: NewNode does not reserve the ID it picks, so two nodes made before either is added share it and AddNode accepts both; then Link of the two panics, Link, Unlink and RemoveNode of one act on the other's edges and one is not listed. c82_keptApart_partial: the laws C15 to C25 hold if no node added between NewNode and AddNode of a node shares exactly one of UID and ID with it. The other partials say what each call does in every history, by ID."
  },
  {
   "property": "C83",
   "status": "partial",
   "theorems": [
    "Netscrape.Props.c83_violated",
    "Netscrape.Props.c83_added",
    "Netscrape.Props.c83_nodes_partial",
    "Netscrape.Props.c83_new"
   ],
   "note": "Violated: an upsert replaces the object in the map by UID but not in gonum's, so Node and Nodes hand out different objects. c83_nodes_partial: without such a replacement all handles are the same object. c83_added holds for every history: Node hands out what was added until it is removed or added over. c83_new, for every history: NewNode hands out the graph's own object if it has one for the UID, else a new one, which after AddNode is handed out by Node and Nodes."
  },
  {
   "property": "C84",
   "status": "partial",
   "theorems": [
    "Netscrape.Props.c84_violated",
    "Netscrape.Props.c84_directed_partial",
    "Netscrape.Props.c84_edges_partial",
    "Netscrape.Props.c84_link_partial",
    "Netscrape.Props.c84_reverse_partial"
   ],
   "note": "Violated in undirected graphs: from the end other than the one given to Link, Edge and Link hand out a fresh copy made by ReversedEdge, and a DOTID set on it is lost. Proved: directed graphs make no copies; the object made by Link is the one handed out for the same UIDs in the same order as long as the edge is there; the copy has the current fields with the ends swapped and its making changes no other object."
  },
  {
   "property": "C85",
   "status": "proved",
   "theorems": [
    "Netscrape.Props.c85_erase",
    "Netscrape.Props.c85_node",
    "Netscrape.Props.c85_edge"
   ],
   "note": "Node and edge objects in memory; c85_erase also covers the lists (Nodes depends on the graph only, which is equal)."
  },
  {
   "property": "C86",
   "status": "partial",
   "theorems": [
    "Netscrape.Props.c86_violated",
    "Netscrape.Props.c86_nodes_partial",
    "Netscrape.Props.c86_edges",
    "Netscrape.Props.c86_within",
    "Netscrape.Props.c86_made",
    "Netscrape.Props.c86_objects",
    "Netscrape.Props.c86_links"
   ],
   "note": "Violated after an upsert: the walk takes nodes from gonum's table, which keeps the replaced object, so the sub graph has an object the source no longer returns. c86_nodes_partial: without replacement all nodes are shared. c86_edges holds in every state. c86_within: which nodes the sub graph over objects has, by simulation of its walk by the one over values (C27). c86_links: which edges it has, by an invariant of the linking loops. c86_made: it is made from every node. c86_objects: also after upserts the root is the source's object and every other node one that Nodes lists."
  },
  {
   "property": "C87",
   "status": "proved",
   "theorems": [
    "Netscrape.Props.c87_graph",
    "Netscrape.Props.c87_graph_frame",
    "Netscrape.Props.c87_subGraph",
    "Netscrape.Props.c87_subGraph_frame",
    "Netscrape.Props.c87_dot",
    "Netscrape.Props.c87_store",
    "Netscrape.Props.c87_store_frame"
   ],
   "note": "Two-run theorem: attribute contents never influence results or structure (c87_graph, c87_store, c87_subGraph, c87_dot); the frames say that calls change no existing attribute set. In-memory attribute sets only; for other implementations see the copy property, since a failing copy makes SubGraph fail."
  },
  {
   "property": "C88",
   "status": "partial",
   "theorems": [
    "Netscrape.Props.c88_violated",
    "Netscrape.Props.c88_races_partial"
   ],
   "note": "Violated: the in-memory attribute set has no mutex, two Set calls (or Set and any reader) race. Holds: every race has a Set on that very set on one side, so sets are independent and one that nobody sets any more can be shared."
  },
  {
   "property": "C89",
   "status": "partial",
   "theorems": [
    "Netscrape.Props.c89_violated",
    "Netscrape.Props.c89_keys_violated",
    "Netscrape.Props.c89_sane_partial",
    "Netscrape.Props.c89_frozen_partial"
   ],
   "note": "Violated: a copy can mix old and new values, and Keys panics if a key is added between len and range. Holds: nothing is invented or lost, and calls about a set nobody sets return exactly what a single call would. Single accesses are taken as atomic; the abort of the Go runtime on concurrent map use is not modelled."
  },
  {
   "property": "C90",
   "status": "proved",
   "theorems": [
    "Netscrape.Props.c90_store_linearizable",
    "Netscrape.Props.c90_store_linearizable_from",
    "Netscrape.Props.c90_same_data",
    "Netscrape.Props.c90_no_race",
    "Netscrape.Props.c90_completes"
   ],
   "note": "Calls that look at the graph are erased from an execution without changing the data or the store's side of the history; deadlock freedom carries over."
  },
  {
   "property": "C91",
   "status": "partial",
   "theorems": [
    "Netscrape.Props.c91_violated",
    "Netscrape.Props.c91_single_partial",
    "Netscrape.Props.c91_parts_partial"
   ],
   "note": "Violated: Nodes sees the first of two entities that BulkAdd adds. Holds: without the bulk calls that write, store calls (Add, Delete, Link, Unlink, Get, BulkGet) and looks at the graph are linearizable together; with them, everything is linearizable if a bulk call counts as one call per entity or link, made in order until one fails, with no other store call in between."
  },
  {
   "property": "C92",
   "status": "partial",
   "theorems": [
    "Netscrape.Props.c92_remove_violated",
    "Netscrape.Props.c92_subGraph_violated",
    "Netscrape.Props.c92_panic_partial",
    "Netscrape.Props.c92_full_partial",
    "Netscrape.Props.c92_ids_partial",
    "Netscrape.Props.c92_dot_violated",
    "Netscrape.Props.c92_link_violated",
    "Netscrape.Props.c92_completes_partial",
    "Netscrape.Props.c92_race_violated",
    "Netscrape.Props.c92_no_race_partial",
    "Netscrape.Props.c92_panic_violated"
   ],
   "note": "Violated: DOT through the handle blocks Add for good; Link of the store deadlocks with a writer on the graph; SubGraph races with Add; a node made by NewNode has the ID that Add uses next, and Link of two different entities panics; RemoveNode of the graph, overtaken by calls on the store, removes the ID of another entity, and a later Link panics; Link of the graph, overtaken by calls on the store, puts back deleted nodes, and a later SubGraph panics. Holds: without Link, BulkLink and DOT everything completes; without SubGraph no races; if nodes are added and removed through the store alone, whatever else is called on the graph, entities never share an ID and nothing panics but SubGraph (see above) and calls that run out of IDs."
  },
  {
   "property": "C93",
   "status": "proved",
   "theorems": [
    "Netscrape.Props.c93_stmt_digests",
    "Netscrape.Props.c93_builds",
    "Netscrape.Props.c93_rejects",
    "Netscrape.Props.c93_digests"
   ],
   "note": "The handler (Model/Network.lean) is not in the repository: it is the obvious client of Unmarshal and the in-memory store. c93_builds: an orderly list of ingested values is stored, and the store holds exactly the network they describe, with types, DOTIDs and attributes. c93_rejects: what happens to values out of order (a loop panics, see C20). c93_digests: with broker and Digest in between; the handler gets a prefix of what reached the topic, and nothing accepted is lost. c93_stmt_digests: the same with the mutex of the broker explicit."
  },
  {
   "property": "C94",
   "status": "proved",
   "theorems": [
    "Netscrape.Props.c94_keeps_up",
    "Netscrape.Props.c94_undisturbed",
    "Netscrape.Props.c94_stored",
    "Netscrape.Props.c94_stmt_keeps_up",
    "Netscrape.Props.c94_stmt_undisturbed",
    "Netscrape.Props.c94_stmt_stored"
   ],
   "note": "c94_keeps_up: bound on the steps of the goroutine, no deadlock, and delivery in every fair execution. c94_stored: together with C93 for whole executions. The condition that the exit channel is not closed follows (c94_undisturbed) from the broker not having been closed since the subscription was made if closing is tidy; otherwise see C57. A select with several ready cases may take any of them; no fairness of select is assumed, hence the conditions. c94_stmt_…: the same with the mutex of the broker explicit."
  },
  {
   "property": "C95",
   "status": "partial",
   "theorems": [
    "Netscrape.Props.c95_panic_partial",
    "Netscrape.Props.c95_full_partial",
    "Netscrape.Props.c95_ids_partial",
    "Netscrape.Props.c95_no_race_partial",
    "Netscrape.Props.c95_link_violated",
    "Netscrape.Props.c95_completes_partial",
    "Netscrape.Props.c95_atomic_violated",
    "Netscrape.Props.c95_panic_violated",
    "Netscrape.Props.c95_reader_partial",
    "Netscrape.Props.c95_parts_partial"
   ],
   "note": "Violated: Link on one store deadlocks with a writer on another; Add on two stores at the same time gives both entities the same node ID, so calls are not atomic and a later Link panics. Holds: no races on the graph's maps (without SubGraph on the graph); everything but Link, BulkLink and DOT completes; all calls are atomic as long as one store does the writing and the others are only asked with Get, where a bulk call that writes counts as one call per entity or link; as long as one store does the adding and deleting, entities never share an ID and nothing panics but SubGraph and calls that run out of IDs."
  },
  {
   "property": "C96",
   "status": "proved",
   "theorems": [
    "Netscrape.Props.c96_atomic",
    "Netscrape.Props.c96_between",
    "Netscrape.Props.c96_complete",
    "Netscrape.Props.c96_delivery",
    "Netscrape.Props.c96_not_connected",
    "Netscrape.Props.c96_no_panic",
    "Netscrape.Props.c96_progress"
   ],
   "note": "Statement-level model with an explicit mutex refines the coarse model and, but for reads of m.ctl in the middle of Open, is refined by it; delivery, capacity, not-connected and no-panic results carry over; every call in progress can return once critical sections are left. Eventual acquisition of the mutex under fairness is C97."
  },
  {
   "property": "C97",
   "status": "proved",
   "theorems": [
    "Netscrape.Props.c97_returns",
    "Netscrape.Props.c97_locks",
    "Netscrape.Props.c97_unlocks"
   ],
   "note": "Weak fairness for steps, strong fairness for RLock and the first half of Lock; infinite executions, so those that end in a panic are not covered."
  },
  {
   "property": "C98",
   "status": "partial",
   "theorems": [
    "Netscrape.Props.c98_graph_races_partial",
    "Netscrape.Props.c98_graph_no_race_partial",
    "Netscrape.Props.c98_graph_violated",
    "Netscrape.Props.c98_graph_usable_partial",
    "Netscrape.Props.c98_graph_stuck_partial",
    "Netscrape.Props.c98_graph_frozen_partial",
    "Netscrape.Props.c98_graph_newNode_partial",
    "Netscrape.Props.c98_graph_noUID_partial",
    "Netscrape.Props.c98_store_violated",
    "Netscrape.Props.c98_store_usable_partial",
    "Netscrape.Props.c98_store_stuck_partial",
    "Netscrape.Props.c98_store_frozen_partial",
    "Netscrape.Props.c98_store_add_partial",
    "Netscrape.Props.c98_store_noUID_partial",
    "Netscrape.Props.c98_graph_agrees_partial",
    "Netscrape.Props.c98_store_agrees_partial"
   ],
   "note": "Violated: RemoveNode, From, SubGraph, Link and Unlink with a nil UID panic while they hold a read lock that is not released by a deferred call; store Delete, Link, Unlink and their bulk forms pass this on. NewNode of an entity with nil UID, and of any entity when no node ID is left, panics while it holds the write lock; store Add passes this on. Proved: no other panic leaves anything locked; after a panic with a nil UID no NewNode/AddNode/Add ever returns, and once one of them waits, nothing does; after a panic of NewNode, or Add of an entity without UID, nothing returns at once. For BulkLink the damage is shown only from a nil UID, for BulkAdd not at all. no race arises beyond those of C42 with SubGraph. c98_…_agrees_partial: calls without nil are, alone, those of the other models. What is missing: the property itself for those calls."
  },
  {
   "property": "C99",
   "status": "proved",
   "theorems": [
    "Netscrape.Props.c99_returns",
    "Netscrape.Props.c99_graph",
    "Netscrape.Props.c99_looked_at",
    "Netscrape.Props.c99_shared"
   ],
   "note": "Weak fairness for steps, strong fairness for RLock and the first half of Lock. Link, BulkLink and DOT on a graph that others write to are excluded because they deadlock (C41, C92, C95)."
  },
  {
   "property": "C100",
   "status": "partial",
   "theorems": [
    "Netscrape.Props.c100_race_violated",
    "Netscrape.Props.c100_races_partial",
    "Netscrape.Props.c100_panic_violated",
    "Netscrape.Props.c100_keys_partial",
    "Netscrape.Props.c100_snapshot_violated",
    "Netscrape.Props.c100_copy_partial",
    "Netscrape.Props.c100_dot_partial",
    "Netscrape.Props.c100_alone_partial",
    "Netscrape.Props.c100_unlocked_partial",
    "Netscrape.Props.c100_dot_keeps_partial"
   ],
   "note": "Violated: SubGraph and DOT read attribute sets without a lock that Set takes, so they race with Set; Keys inside them panics if a key is added in between; a copied edge may mix values of different moments. Proved: every such race has a Set on one side and SubGraph, DOT or an attribute call on the other; the panic needs a key added to a set of the graph while the call is in progress; a copied edge has the weight of an edge the graph had meanwhile, no foreign values and no missing keys, and is exact if nobody sets its attributes; DOT shows the graph of one moment; made alone, calls do what the sequential model says. unless DOT has come to its end nothing stays locked, also if SubGraph panics, and every call left alone ends. What is missing: the property itself, which is false; behaviour of Go maps that are written while they are read (the runtime may abort) is not modelled."
  },
  {
   "property": "C101",
   "status": "proved",
   "theorems": [
    "Netscrape.Props.c101_graph_new",
    "Netscrape.Props.c101_graph_keeps",
    "Netscrape.Props.c101_subgraph",
    "Netscrape.Props.c101_graph_conc",
    "Netscrape.Props.c101_store_new",
    "Netscrape.Props.c101_store_conc",
    "Netscrape.Props.c101_space",
    "Netscrape.Props.c101_subscription",
    "Netscrape.Props.c101_stmt_subscription"
   ],
   "note": "NewWG, NewStore and their options, any sequential history, any interleaving of calls on a graph and on any number of stores that share it, sub graphs also when taken while others change the graph, subscriptions at both levels of the broker model. DOT options of a graph are not modelled."
  },
  {
   "property": "C102",
   "status": "proved",
   "theorems": [
    "Netscrape.Props.c102_store_clean",
    "Netscrape.Props.c102_store_alone"
   ],
   "note": "Per step: the step that changes something belongs to a call that goes on to succeed. c102_store_alone: the same for a call made alone. Bulk writers stop at the first error with what they did before (C36) and are not part of the property. Allocating a new attribute set is not a change."
  },
  {
   "property": "C103",
   "status": "partial",
   "theorems": [
    "Netscrape.Props.c103_graph_violated",
    "Netscrape.Props.c103_graph_clean_partial",
    "Netscrape.Props.c103_graph_alone_partial",
    "Netscrape.Props.c103_graph_most_partial",
    "Netscrape.Props.c103_graph_noUID_partial"
   ],
   "note": "Violated: AddNode of a node whose entity has no UID panics after it has given the node to the gonum graph. Proved for every other call. For that call: it panics and adds at most one node, with an unused ID, to the gonum graph, and changes nothing else."
  },
  {
   "property": "C104",
   "status": "proved",
   "theorems": [
    "Netscrape.Props.c104_plan_linearizable",
    "Netscrape.Props.c104_cache_linearizable",
    "Netscrape.Props.c104_no_race",
    "Netscrape.Props.c104_completes",
    "Netscrape.Props.c104_returns",
    "Netscrape.Props.c104_clean"
   ],
   "note": "Linearizability from a new plan or cache; races, termination and clean failure from any state. Nil UIDs are ordinary keys for the cache, which never looks at the string. Typed nil pointers inside interfaces are not modelled."
  },
  {
   "property": "C105",
   "status": "proved",
   "theorems": [
    "Netscrape.Props.c105_store_linearizable",
    "Netscrape.Props.c105_store_no_race"
   ],
   "note": "Linearizability from a new store, for fewer than 2^63 additions; races from any state. Calls with nil may leave the graph locked (C98), so calls after them may never return; the theorem is about those that do. Typed nil pointers inside interfaces are not modelled."
  },
  {
   "property": "C106",
   "status": "proved",
   "theorems": [
    "Netscrape.Props.c106_safe",
    "Netscrape.Props.c106_per_line"
   ],
   "note": "All heaps, values and iteration orders. The escapes are those of encoding/json with HTML escaping on, which json.Marshal always uses; the encoder is modelled from knowledge of the library (see Verif.Model.Json)."
  },
  {
   "property": "C107",
   "status": "partial",
   "theorems": [
    "Netscrape.Props.c107_violated",
    "Netscrape.Props.c107_races_partial",
    "Netscrape.Props.c107_no_race_partial",
    "Netscrape.Props.c107_new_partial",
    "Netscrape.Props.c107_alone_partial",
    "Netscrape.Props.c107_lookups_partial"
   ],
   "note": "Violated: Node.ID has a value receiver, so AddNode, RemoveNode, Edge, Edges, Link, Unlink and From copy the node with its DOTID while SetDOTID writes it without a lock (c107_violated: RemoveNode). c107_races_partial: every race is on a DOTID, its writer is SetDOTID of that object, and the other side is not Node, Nodes or NewNode; the maps are never raced on. c107_no_race_partial: without SetDOTID no races. c107_new_partial: the DOTID of a node the graph does not have is accessed by nobody but DOTID and SetDOTID of that node, until somebody adds it. c107_alone_partial and c107_lookups_partial tie the model to that of C83-C85. SubGraph and DOT are left out; allocation of new objects is taken to be race-free. A compiler may optimise the copy away, so the race is one of the language, not necessarily of the machine code."
  }
 ]
}
