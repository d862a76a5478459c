{"id": "C01", "title": "Attributes behave as a string map", "statement": "After any sequence of Set calls on a fresh attribute set, Get(k) returns the value of the last Set for k, or the empty string when k was never set, and Keys returns every key that was set exactly once and nothing else.", "quantifier": "every sequence of Set calls, every key, every map iteration order", "why_tests_cant": "Tests set one key once; the property quantifies over all histories and over Go's unspecified map iteration order.", "anchors": ["pkg/attrs/memory/memory.go:Attrs.Get", "pkg/attrs/memory/memory.go:Attrs.Set", "pkg/attrs/memory/memory.go:Attrs.Keys", "pkg/attrs/memory/memory.go:New"]}
{"id": "C02", "title": "Attribute copies are equal and independent", "statement": "NewCopyFrom and NewFromMap return a new attribute set with exactly the source's contents, and no later sequence of Set calls on the copy is visible through the source or any other attribute set, nor the other way round.", "quantifier": "every source content, every iteration order, every later history of writes to either side", "why_tests_cant": "Independence is a statement about all future writes through either handle; a test sees one.", "anchors": ["pkg/attrs/memory/memory.go:NewCopyFrom", "pkg/attrs/memory/memory.go:NewFromMap"]}
{"id": "C03", "title": "Attribute conversions lose nothing", "statement": "ToMap(NewFromMap(m)) = m for every map m, and the DOT attribute list of a set contains each key exactly once, paired with the value Get returns for it.", "quantifier": "every map, every iteration order", "why_tests_cant": "Map iteration order is random, and the property is over all contents.", "anchors": ["pkg/attrs/attrs.go:ToMap", "pkg/attrs/memory/dot.go:DOTAttrs", "pkg/attrs/memory/memory.go:Attrs.Attributes", "pkg/graph/memory/node.go:Node.Attributes", "pkg/graph/memory/edge.go:Edge.Attributes"]}
{"id": "C04", "title": "A plan is a map from UID to resource", "statement": "For every sequence of Add, Get, GetAll and Delete on a new plan, Get(u) returns the resource most recently added under a UID whose string equals u's and not deleted since, and ErrResourceNotFound otherwise; Delete of an absent UID succeeds and changes nothing.", "quantifier": "every operation history, every UID (compared by string, whatever object carries it)", "why_tests_cant": "A test exercises one add/get/delete; the property is an invariant of all histories.", "anchors": ["pkg/plan/simple/simple.go:Simple.Add", "pkg/plan/simple/simple.go:Simple.Get", "pkg/plan/simple/simple.go:Simple.Delete"]}
{"id": "C05", "title": "GetAll enumerates the plan exactly", "statement": "GetAll returns each resource currently in the plan exactly once, and nothing else, whatever the map iteration order.", "quantifier": "every operation history, every iteration order", "why_tests_cant": "The only test calls GetAll on an empty plan; iteration order is unspecified.", "anchors": ["pkg/plan/simple/simple.go:Simple.GetAll"]}
{"id": "C06", "title": "Concurrent plan operations are linearizable", "statement": "Any number of goroutines calling Add, Get, GetAll and Delete on one plan observe results that some sequential order of the same calls, consistent with real time, would give.", "quantifier": "every number of goroutines, every interleaving of their lock, map-access and unlock steps", "why_tests_cant": "Schedules cannot be enumerated by tests.", "anchors": ["pkg/plan/simple/simple.go:Simple"]}
{"id": "C07", "title": "The link cache returns every link that was put", "statement": "After Put(l), GetFrom(l.From()) and GetTo(l.To()) include a link with the same endpoints until Delete of an endpoint or Clear, whatever other links are put meanwhile.", "quantifier": "every sequence of Put, BulkPut, Delete, BulkDelete and Clear", "why_tests_cant": "Tests put one link per endpoint, so a Put that evicts a sibling link is invisible to them.", "anchors": ["pkg/cache/memory/links.go:Links.put", "pkg/cache/memory/links.go:Links.GetFrom", "pkg/cache/memory/links.go:Links.GetTo"]}
{"id": "C08", "title": "Cache Delete removes all links to and from a UID", "statement": "After Delete(u) no GetFrom or GetTo, for any UID, returns a link whose origin or end is u, until such a link is put again.", "quantifier": "every history before the Delete, every UID queried after it", "why_tests_cant": "Tests query only the deleted UID itself, not its former neighbours.", "anchors": ["pkg/cache/memory/links.go:Links.delete", "pkg/cache/memory/links.go:Links.Delete"]}
{"id": "C09", "title": "The two cache indexes agree", "statement": "In every reachable cache, GetFrom(f) contains a link to t if and only if GetTo(t) contains a link from f, and then they contain the same link.", "quantifier": "every operation history, every pair of UIDs", "why_tests_cant": "A cross-index invariant over all histories.", "anchors": ["pkg/cache/memory/links.go:Links"]}
{"id": "C10", "title": "Put keeps, Put with upsert replaces", "statement": "If the cache holds a link from f to t, Put of another link from f to t without upsert leaves the held link in place, and with upsert both GetFrom(f) and GetTo(t) return the new link instead of the old one.", "quantifier": "every reachable cache and every pair of links with the same endpoints", "why_tests_cant": "Tests discard what the cache returns after an upsert.", "anchors": ["pkg/cache/memory/links.go:Links.put", "pkg/cache/options.go:WithUpsert"]}
{"id": "C11", "title": "Cache lookups depend only on the UID's value", "statement": "Two UIDs with the same string are interchangeable as arguments to GetFrom, GetTo and Delete.", "quantifier": "every history, every pair of equal-string UIDs", "why_tests_cant": "Tests reuse the very UID object that was put, so identity and equality coincide.", "anchors": ["pkg/cache/memory/links.go:Links", "pkg/uuid/memory/default.go:NewFromString"]}
{"id": "C12", "title": "Bulk cache operations equal their single forms", "statement": "BulkPut and BulkDelete leave the cache as the same sequence of Put and Delete calls would; BulkGetFrom and BulkGetTo map each requested UID to what GetFrom and GetTo return, omitting exactly the UIDs the cache has no entry for; Clear leaves a cache that answers every query as a new one.", "quantifier": "every reachable cache, every list of links or UIDs, including repeats", "why_tests_cant": "Lists of arbitrary length and content.", "anchors": ["pkg/cache/memory/links.go:Links.BulkPut", "pkg/cache/memory/links.go:Links.BulkGetFrom", "pkg/cache/memory/links.go:Links.BulkGetTo", "pkg/cache/memory/links.go:Links.BulkDelete", "pkg/cache/memory/links.go:Links.Clear"]}
{"id": "C13", "title": "The cache's exact retention rule", "statement": "For every history, GetFrom(f) returns at most one link: the one of the latest Put from f since the last Delete(f) or Clear (or, when that Put repeated the held end without upsert, the link held before it); symmetrically for GetTo.", "quantifier": "every operation history, every UID", "why_tests_cant": "Characterises all histories; it is what callers can actually depend on given C07 fails.", "anchors": ["pkg/cache/memory/links.go:Links.put", "pkg/cache/memory/links.go:Links.GetFrom", "pkg/cache/memory/links.go:Links.GetTo"]}
{"id": "C14", "title": "Concurrent cache operations are linearizable", "statement": "Any number of goroutines using one link cache observe results consistent with some sequential order of their calls that respects real time; bulk operations are atomic.", "quantifier": "every number of goroutines and every interleaving", "why_tests_cant": "Schedules cannot be enumerated by tests.", "anchors": ["pkg/cache/memory/links.go:Links"]}
{"id": "C15", "title": "NewNode never proposes an ID in use", "statement": "For every history of graph operations, the node NewNode creates for an entity not yet in the graph carries an ID that no node listed by Nodes has, nor (in the histories of C19) any node that Node finds.", "quantifier": "every history, every choice the ID allocator may make, including reuse of released IDs", "why_tests_cant": "ID reuse after removals depends on map iteration order and history.", "anchors": ["pkg/graph/memory/wg.go:WG.NewNode", "pkg/graph/memory/wg.go:WG.RemoveNode"]}
{"id": "C16", "title": "Node lookup is a map from UID to node", "statement": "In a graph, Node(u) returns the node last added under u's string and not removed since, ErrNodeNotFound otherwise; adding or removing one UID never changes the answer for another.", "quantifier": "every history of AddNode, RemoveNode, Link, Unlink, every UID", "why_tests_cant": "Frame conditions quantify over all other UIDs and all histories.", "anchors": ["pkg/graph/memory/wg.go:WG.AddNode", "pkg/graph/memory/wg.go:WG.Node", "pkg/graph/memory/wg.go:WG.RemoveNode"]}
{"id": "C17", "title": "Lookup and enumeration agree", "statement": "Nodes() lists exactly the nodes that Node() finds, each once.", "quantifier": "every history of NewNode, AddNode, RemoveNode, Link, Unlink in any order the API admits", "why_tests_cant": "Tests always add a node immediately after creating it; the property covers every order.", "anchors": ["pkg/graph/memory/wg.go:WG.Nodes", "pkg/graph/memory/wg.go:WG.Node", "pkg/graph/memory/wg.go:WG.AddNode"]}
{"id": "C18", "title": "AddNode rejects duplicates and upserts on request", "statement": "AddNode of a node whose UID is in the graph returns ErrDuplicateNode and changes nothing unless upsert is requested; with upsert, Node, Nodes and From all show the new node afterwards.", "quantifier": "every reachable graph, every node, with and without upsert", "why_tests_cant": "Tests re-add the identical object only, and never read Nodes after an upsert.", "anchors": ["pkg/graph/memory/wg.go:WG.AddNode", "pkg/graph/options.go:WithUpsert"]}
{"id": "C19", "title": "Link creates exactly the requested edge, once", "statement": "For distinct UIDs of nodes in the graph, Link returns an edge between them: the existing one, unchanged, if there is one, otherwise a new one carrying the given attributes and weight; afterwards Edge returns that edge, and every other pair of nodes is connected as before. If either node is missing it returns ErrNodeNotFound and changes nothing.", "quantifier": "every graph reachable by calls in which AddNode is only given nodes whose UID and ID belong to the same node of the graph or to none (C82 says which histories these are), directed or undirected; every pair of UIDs, every option set", "why_tests_cant": "Frame condition over all other pairs and all graphs.", "anchors": ["pkg/graph/memory/wg.go:WG.Link", "pkg/graph/memory/wg.go:WG.Edge", "pkg/graph/memory/edge.go:NewEdge"]}
{"id": "C20", "title": "Link never panics", "statement": "Link returns an edge or an error for every pair of UIDs.", "quantifier": "every reachable graph, every pair of UIDs, including equal ones", "why_tests_cant": "Tests never link a node to itself.", "anchors": ["pkg/graph/memory/wg.go:WG.Link", "pkg/store/memory/store.go:Memory.Link"]}
{"id": "C21", "title": "Unlink removes exactly the requested edge", "statement": "After Unlink(u,v), Edge(u,v) reports no edge, every other pair (except the mirror pair in an undirected graph) is connected as before, no node appears or disappears, and a second Unlink changes nothing; if either node is absent it succeeds and changes nothing.", "quantifier": "every graph reachable by calls in which AddNode is only given nodes whose UID and ID belong to the same node of the graph or to none (C82 says which histories these are); every pair of UIDs", "why_tests_cant": "Frame condition over all other pairs and all graphs.", "anchors": ["pkg/graph/memory/wg.go:WG.Unlink"]}
{"id": "C22", "title": "RemoveNode removes the node and its edges, nothing else", "statement": "After RemoveNode(u): Node(u) is not found, no edge has an end at u, all other nodes and all edges between them are unchanged; removing an absent UID changes nothing; re-adding u later resurrects no edge.", "quantifier": "every graph reachable by calls in which AddNode is only given nodes whose UID and ID belong to the same node of the graph or to none (C82 says which histories these are); every UID", "why_tests_cant": "Quantifies over all graphs and all surviving edges, and over ID reuse.", "anchors": ["pkg/graph/memory/wg.go:WG.RemoveNode"]}
{"id": "C23", "title": "Edge direction is respected", "statement": "In an undirected graph Edge(v,u) is Edge(u,v) with its ends swapped and the same UID, attributes and weight; in a directed graph linking u to v does not create an edge from v to u.", "quantifier": "every reachable graph, every pair of UIDs", "why_tests_cant": "All graphs and all pairs.", "anchors": ["pkg/graph/memory/wg.go:WG.Edge", "pkg/graph/memory/edge.go:Edge.ReversedEdge", "pkg/graph/memory/wdg.go:NewWDG", "pkg/graph/memory/wug.go:NewWUG"]}
{"id": "C24", "title": "From lists exactly the neighbours", "statement": "From(u) returns each node v such that Edge(u,v) exists exactly once and nothing else; for an unknown u it returns nothing.", "quantifier": "every graph reachable by calls in which AddNode is only given nodes whose UID and ID belong to the same node of the graph or to none (C82 says which histories these are); every UID, every iteration order", "why_tests_cant": "All graphs, random iteration order.", "anchors": ["pkg/graph/memory/wg.go:WG.From"]}
{"id": "C25", "title": "Edges lists every edge exactly once", "statement": "Edges() contains one edge for each ordered (directed) or unordered (undirected) linked pair, and nothing else.", "quantifier": "every graph reachable by calls in which AddNode is only given nodes whose UID and ID belong to the same node of the graph or to none (C82 says which histories these are); every iteration order", "why_tests_cant": "All graphs, random iteration order, deduplication of mirrored entries.", "anchors": ["pkg/graph/memory/wg.go:WG.Edges"]}
{"id": "C26", "title": "No dangling edges", "statement": "Both ends of every edge the graph reports are nodes the graph reports.", "quantifier": "every history", "why_tests_cant": "Inductive invariant over all histories.", "anchors": ["pkg/graph/memory/wg.go:WG.Edges", "pkg/graph/memory/wg.go:WG.RemoveNode"]}
{"id": "C27", "title": "SubGraph contains exactly the nodes within the given depth", "statement": "SubGraph(u, d) succeeds for every u in the graph and contains exactly the nodes reachable from u by a path of at most d edges (any number when d is negative); for an unknown u it returns ErrNodeNotFound.", "quantifier": "every graph reachable by calls in which AddNode is only given nodes whose UID and ID belong to the same node of the graph or to none (C82 says which histories these are), of any size; every root, every depth, every iteration order", "why_tests_cant": "Breadth-first search correctness with level counters over all graphs; tests check counts on one graph.", "anchors": ["pkg/graph/memory/wg.go:WG.SubGraph"]}
{"id": "C28", "title": "SubGraph keeps exactly the edges between its nodes", "statement": "There is an edge from x to y in SubGraph(u, d) if and only if x and y are in it and there is an edge from x to y in the original graph.", "quantifier": "every graph reachable by calls in which AddNode is only given nodes whose UID and ID belong to the same node of the graph or to none (C82 says which histories these are); every root, depth and iteration order", "why_tests_cant": "All graphs; tests never look at the subgraph's edges.", "anchors": ["pkg/graph/memory/wg.go:WG.SubGraph"]}
{"id": "C29", "title": "SubGraph edges keep their attributes and weight", "statement": "The edge from x to y in SubGraph(u, d) has the attributes and the weight of the edge from x to y in the original graph.", "quantifier": "every reachable graph, root, depth and iteration order", "why_tests_cant": "Tests never look at the subgraph's edges; whether the answer is right depends on map iteration order.", "anchors": ["pkg/graph/memory/wg.go:WG.SubGraph"]}
{"id": "C30", "title": "SubGraph leaves its source untouched and shares no edge attributes", "statement": "SubGraph changes neither the nodes nor the edges nor any existing attribute set of the source graph, and later writes to the attributes of a subgraph edge are not visible in the source (nor the reverse).", "quantifier": "every graph reachable by calls in which AddNode is only given nodes whose UID and ID belong to the same node of the graph or to none (C82 says which histories these are); every root, depth, iteration order, and every later history of attribute writes", "why_tests_cant": "Aliasing over all later writes.", "anchors": ["pkg/graph/memory/wg.go:WG.SubGraph", "pkg/attrs/memory/memory.go:NewCopyFrom"]}
{"id": "C31", "title": "Node and edge identity options", "statement": "NewEdge gives the edge the DOTID option as both DOTID and UID when that option is non-empty, otherwise the UID option, otherwise a fresh UID, with DOTID the string of the UID; NewNode's DOTID is the DOTID option, else the entity's own DOTID, else the entity's UID; a node always reports its entity's UID and type. Edges linked without a weight option weigh zero.", "quantifier": "every combination of options and entities", "why_tests_cant": "Option precedence over all combinations, including repeated options (last one wins).", "anchors": ["pkg/graph/memory/edge.go:NewEdge", "pkg/graph/memory/node.go:NewNode", "pkg/graph/options.go:Options"]}
{"id": "C32", "title": "The store is a map from UID to entity", "statement": "For every sequence of store operations, Get(u) returns the entity of the earliest Add under u's string since u was last deleted, and ErrEntityNotFound when there is none; Add of a present UID without upsert returns ErrAlreadyExists and changes nothing; Delete makes Get fail and affects no other UID.", "quantifier": "every operation history over Add, BulkAdd, Delete, BulkDelete, Link, Unlink, BulkLink, BulkUnlink (with at most 2^63 additions, after which the allocator of node IDs panics)", "why_tests_cant": "Refinement over all histories.", "anchors": ["pkg/store/memory/store.go:Memory.Add", "pkg/store/memory/store.go:Memory.Get", "pkg/store/memory/store.go:Memory.Delete"]}
{"id": "C33", "title": "Store upsert replaces the stored entity", "statement": "After Add(e, WithUpsert()) succeeds, Get(e.UID()) returns e's data.", "quantifier": "every reachable store, every entity", "why_tests_cant": "The upsert test only checks that no error is returned, and uses a different UID.", "anchors": ["pkg/store/memory/store.go:Memory.add", "pkg/graph/memory/wg.go:WG.NewNode"]}
{"id": "C34", "title": "Stored entities keep their attributes", "statement": "The entity returned by Get(u) has the attributes the entity had when it was added.", "quantifier": "every reachable store, every entity", "why_tests_cant": "Tests compare UIDs only.", "anchors": ["pkg/store/memory/store.go:Memory.add", "pkg/store/memory/store.go:Memory.get", "pkg/graph/memory/node.go:Node.Attrs"]}
{"id": "C35", "title": "BulkGet returns the requested entities in order", "statement": "If every requested UID is in the store, BulkGet(us) returns a list of the same length whose i-th element is the entity Get(us[i]) returns; otherwise it returns ErrEntityNotFound.", "quantifier": "every reachable store, every list of UIDs", "why_tests_cant": "The test checks only the length of the result.", "anchors": ["pkg/store/memory/store.go:Memory.BulkGet"]}
{"id": "C36", "title": "Bulk writes equal the sequence of single writes up to the first error", "statement": "BulkAdd, BulkDelete, BulkLink and BulkUnlink leave the store as the same single calls made in order and stopped at the first error would, and return that error.", "quantifier": "every reachable store, every list", "why_tests_cant": "Lists of arbitrary length with an error at an arbitrary position.", "anchors": ["pkg/store/memory/store.go:Memory.BulkAdd", "pkg/store/memory/store.go:Memory.BulkDelete", "pkg/store/memory/store.go:Memory.BulkLink", "pkg/store/memory/store.go:Memory.BulkUnlink"]}
{"id": "C37", "title": "The store's graph is always well formed", "statement": "After every history of store operations: lookup and enumeration of the graph agree, node IDs and UIDs are in one-to-one correspondence, every edge joins two distinct stored entities, and no edge survives the deletion of an end.", "quantifier": "every operation history (with at most 2^63 additions, after which the allocator of node IDs panics)", "why_tests_cant": "Inductive invariant over all histories.", "anchors": ["pkg/store/memory/store.go:Memory", "pkg/graph/memory/wg.go:WG"]}
{"id": "C38", "title": "Store Link and Unlink connect and disconnect stored entities", "statement": "Link of two distinct stored entities succeeds and makes them adjacent; it returns ErrEntityNotFound and changes nothing when either is missing; Unlink always succeeds, makes the pair non-adjacent, and affects no other pair.", "quantifier": "every reachable store (with at most 2^63 additions, after which the allocator of node IDs panics), every pair of UIDs", "why_tests_cant": "Frame conditions over all histories and pairs.", "anchors": ["pkg/store/memory/store.go:Memory.Link", "pkg/store/memory/store.go:Memory.Unlink"]}
{"id": "C39", "title": "Concurrent store operations are linearizable", "statement": "Any number of goroutines using one store (and not its graph handle) observe results consistent with some sequential order of their calls that respects real time; bulk operations are atomic.", "quantifier": "every number of goroutines and every interleaving", "why_tests_cant": "Schedules cannot be enumerated by tests.", "anchors": ["pkg/store/memory/store.go:Memory"]}
{"id": "C40", "title": "Concurrent graph operations keep the graph consistent", "statement": "Whatever the interleaving of AddNode, RemoveNode, Link and Unlink calls on one graph, lookup and enumeration agree once the calls have returned.", "quantifier": "every interleaving of the operations' critical sections", "why_tests_cant": "Needs specific schedules between two critical sections of one call.", "anchors": ["pkg/graph/memory/wg.go:WG.RemoveNode", "pkg/graph/memory/wg.go:WG.Link"]}
{"id": "C41", "title": "Graph operations never deadlock", "statement": "Any set of concurrent graph calls runs to completion.", "quantifier": "every number of goroutines, every interleaving of lock requests, grants and releases, with Go's rule that a waiting writer blocks new readers", "why_tests_cant": "Needs a writer to arrive between two nested read locks.", "anchors": ["pkg/graph/memory/wg.go:WG.Link", "pkg/graph/memory/wg.go:WG.Edge", "pkg/graph/memory/wg.go:WG.DOT"]}
{"id": "C42", "title": "Graph operations are free of data races", "statement": "No two goroutines access the graph's maps at the same time unless both only read.", "quantifier": "every number of goroutines and every interleaving", "why_tests_cant": "Races are schedule-dependent.", "anchors": ["pkg/graph/memory/wg.go:WG", "pkg/graph/memory/wg.go:WG.SubGraph"]}
{"id": "C43", "title": "Space constructors fill every default", "statement": "Entities, resources, objects and links report exactly the UID, attributes and DOTID given by the last corresponding option; without them the UID is fresh, the attributes are new and empty, and the DOTID is the UID string (entity), group/version/kind (resource), or group/version/kind/namespace/name (object with a resource, UID string without).", "quantifier": "every argument and every list of options", "why_tests_cant": "All combinations and repetitions of options.", "anchors": ["pkg/space/entity/entity.go:New", "pkg/space/entity/resource.go:NewResource", "pkg/space/entity/object.go:NewObject", "pkg/space/link/link.go:New"]}
{"id": "C44", "title": "Transport forms convert back to themselves", "statement": "Converting a transport Entity, Resource, Object or Link to a space value and back yields the same transport value.", "quantifier": "every transport value (attributes compared as maps), every iteration order", "why_tests_cant": "Round trip over all values.", "anchors": ["pkg/space/marshal/marshal.go:EntityToSpace", "pkg/space/marshal/marshal.go:EntityFromSpace", "pkg/space/marshal/marshal.go:ResourceToSpace", "pkg/space/marshal/marshal.go:ResourceFromSpace", "pkg/space/marshal/marshal.go:ObjectToSpace", "pkg/space/marshal/marshal.go:ObjectFromSpace", "pkg/space/marshal/marshal.go:LinkToSpace", "pkg/space/marshal/marshal.go:LinkFromSpace"]}
{"id": "C45", "title": "Space values survive the transport form", "statement": "Converting a space entity, resource, object or link to its transport form and back yields a value with the same UID string, type, names, resource, endpoints, attributes and DOTID.", "quantifier": "every space value", "why_tests_cant": "Round trip over all values, including those with a custom DOTID.", "anchors": ["pkg/space/marshal/marshal.go", "pkg/space/marshal/types.go"]}
{"id": "C46", "title": "JSON marshalling round-trips", "statement": "Unmarshal(Marshal(x)) into the same kind yields a value with the same observable data as x.", "quantifier": "every entity, resource, object and link with arbitrary string contents", "why_tests_cant": "All strings including quotes, control characters and non-ASCII text; all attribute maps.", "anchors": ["pkg/space/marshal/json/json.go:Marshaler.Marshal", "pkg/space/marshal/json/json.go:Marshaler.Unmarshal", "pkg/space/marshal/types.go"]}
{"id": "C47", "title": "Marshal picks the right form for every type", "statement": "Marshal encodes a value as a resource, object, entity or link according to the first of these interfaces, in that order, its type implements, writing exactly the fields of that form, all attributes, and an object's resource as it would be written alone, and returns ErrUnsuportedType, producing no bytes, exactly for the types implementing none.", "quantifier": "every type, given by its method set", "why_tests_cant": "Types are open-ended; tests try five.", "anchors": ["pkg/space/marshal/json/json.go:Marshaler.Marshal"]}
{"id": "C48", "title": "Marshalling is deterministic", "statement": "Two values with the same observable data marshal to the same bytes, whatever the map iteration order.", "quantifier": "every value and every iteration order", "why_tests_cant": "Iteration order is random.", "anchors": ["pkg/space/marshal/json/json.go:Marshaler.Marshal", "pkg/attrs/attrs.go:ToMap"]}
{"id": "C49", "title": "Messages are delivered in order, at most once, on their topic", "statement": "On each topic queue the messages taken by receivers are exactly a prefix, in order, of the messages accepted by publishers; no message is handed out twice, none is invented, and none reaches a subscriber of another topic.", "quantifier": "every number of publishers, subscribers and topics and every interleaving", "why_tests_cant": "Schedules cannot be enumerated by tests.", "anchors": ["pkg/broker/memory/memory.go:Memory.Pub", "pkg/broker/memory/subscriber.go:Subscriber.Receive"]}
{"id": "C50", "title": "Topic queues respect the configured capacity", "statement": "A topic never holds more undelivered messages than the configured capacity; a negative capacity means the default, and zero means publishers wait for a receiver.", "quantifier": "every interleaving, every capacity", "why_tests_cant": "Schedules cannot be enumerated by tests.", "anchors": ["pkg/broker/memory/memory.go:New", "pkg/broker/memory/memory.go:Memory.Pub"]}
{"id": "C51", "title": "Publishing successfully means the message was accepted", "statement": "If Pub returns nil its message was put on the topic's queue exactly once; if it returns an error the message is never delivered.", "quantifier": "every interleaving with Open, Close, Sub, Receive and context cancellation", "why_tests_cant": "Depends on which select case wins when the broker closes during the call.", "anchors": ["pkg/broker/memory/memory.go:Memory.Pub", "pkg/broker/memory/memory.go:Memory.publishMsg"]}
{"id": "C52", "title": "Nothing happens on a closed broker", "statement": "Pub and Sub that start while the broker is not connected, and return before it is opened again, return ErrNotConnected and have no effect.", "quantifier": "every history leaving the broker disconnected", "why_tests_cant": "All histories, including never opened, closed, and closed by a cancelled context.", "anchors": ["pkg/broker/memory/memory.go:Memory.Pub", "pkg/broker/memory/memory.go:Memory.Sub"]}
{"id": "C53", "title": "Opening and closing the broker never panics", "statement": "No interleaving of Open, Close, Pub, Sub and the broker's own goroutine closes a channel twice or sends on a closed channel.", "quantifier": "every interleaving, any number of concurrent Open and Close calls", "why_tests_cant": "Schedules cannot be enumerated by tests.", "anchors": ["pkg/broker/memory/memory.go:Memory.Open", "pkg/broker/memory/memory.go:Memory.Close", "pkg/broker/memory/memory.go:Memory.run"]}
{"id": "C54", "title": "Unsubscribe is idempotent", "statement": "Calling Unsubscribe any number of times, concurrently or not, deactivates the subscription and never panics.", "quantifier": "every number of concurrent calls and every interleaving", "why_tests_cant": "The test calls it twice sequentially.", "anchors": ["pkg/broker/memory/subscriber.go:Subscriber.Unsubscribe"]}
{"id": "C55", "title": "An unsubscribed subscription receives nothing", "statement": "A Receive that starts after Unsubscribe returned gives ErrSubscriptionInactive, and runs no handler.", "quantifier": "every interleaving", "why_tests_cant": "All schedules of other goroutines.", "anchors": ["pkg/broker/memory/subscriber.go:Subscriber.Receive", "pkg/broker/memory/subscriber.go:Subscriber.Unsubscribe"]}
{"id": "C56", "title": "Receive handles exactly one message or reports why not", "statement": "Each Receive runs its handler at most once, on a message it removed from its topic, and returns the handler's error; if it returns ErrTimeout or nil without running the handler it has not consumed a message.", "quantifier": "every interleaving", "why_tests_cant": "Depends on which select case wins, and on what arrives at the moment of the timeout.", "anchors": ["pkg/broker/memory/subscriber.go:Subscriber.Receive"]}
{"id": "C57", "title": "A reopened broker is a fresh, live session", "statement": "After Close and Open, topics are empty, subscriptions are live, and the session stays open until Close is called or its context is cancelled.", "quantifier": "every history and every interleaving with the previous session's goroutines", "why_tests_cant": "Needs topics without subscribers at Close, or the old goroutine running late.", "anchors": ["pkg/broker/memory/memory.go:Memory.Open", "pkg/broker/memory/memory.go:Memory.Close", "pkg/broker/memory/memory.go:Memory.run"]}
{"id": "C58", "title": "Cancelling one call's context affects only that call", "statement": "Cancelling the context passed to a Pub or Receive call makes that call return and leaves the broker open for everyone else.", "quantifier": "every interleaving", "why_tests_cant": "Needs cancellation while the call is blocked.", "anchors": ["pkg/broker/memory/memory.go:Memory.publishMsg", "pkg/broker/memory/subscriber.go:Subscriber.Receive"]}
{"id": "C59", "title": "Ingest publishes one faithful message or none", "statement": "Ingest publishes exactly one message, on the given topic, with the given type and with the marshaler's output as data, and returns the broker's verdict; if marshalling fails it returns that error and publishes nothing. Without a marshaler the data still round-trips.", "quantifier": "every value, marshaler behaviour and broker behaviour", "why_tests_cant": "All values and all failure points.", "anchors": ["pkg/broker/ingester/simple/ingester.go:Ingester.Ingest"]}
{"id": "C60", "title": "Configured options are honoured", "statement": "Options given to NewIngester, NewDigester and NewRunner are used by Ingest, Digest and Run calls that do not override them.", "quantifier": "every constructor option and every call", "why_tests_cant": "There are no tests; the property quantifies over all configurations.", "anchors": ["pkg/broker/ingester/simple/ingester.go:NewIngester", "pkg/broker/digester/simple/digester.go:NewDigester", "runner.go:NewRunner", "runner.go:Runner.Run"]}
{"id": "C61", "title": "Digest stops when its input ends", "statement": "Digest returns after its context is cancelled, the broker closes or the subscription ends, and otherwise hands every received message to the handler in order until the first error, which it returns.", "quantifier": "every sequence of outcomes of Receive", "why_tests_cant": "Termination over all schedules.", "anchors": ["pkg/broker/digester/simple/digester.go:Digester.Digest", "pkg/broker/memory/subscriber.go:Subscriber.Receive"]}
{"id": "C62", "title": "Message type names are unambiguous", "statement": "Distinct defined message types have distinct names, and every other value is named Unknown.", "quantifier": "every integer", "why_tests_cant": "All integers, not only the five constants.", "anchors": ["pkg/broker/type.go:Type.String"]}
{"id": "C63", "title": "Plan, cache and store calls are free of data races", "statement": "In every execution in which any number of goroutines call methods of one plan, link cache or store, no two of them ever access the same shared map at the same moment with at least one of them writing it.", "quantifier": "every set of concurrent calls, every interleaving", "why_tests_cant": "The race detector sees one schedule at a time; locks have to be right in all of them.", "anchors": ["pkg/plan/simple/simple.go:Simple", "pkg/cache/memory/links.go:Links", "pkg/store/memory/store.go:Memory"]}
{"id": "C64", "title": "Plan, cache and store calls always run to completion", "statement": "Whenever calls of one plan, link cache or store are in progress and no further calls are made, every way of scheduling them ends after finitely many steps with every call returned: the locking never deadlocks, even though the store holds its lock while calling the graph, which has one of its own.", "quantifier": "every set of concurrent calls, every interleaving", "why_tests_cant": "A deadlock needs a particular interleaving of lock and unlock in several goroutines.", "anchors": ["pkg/plan/simple/simple.go:Simple", "pkg/cache/memory/links.go:Links", "pkg/store/memory/store.go:Memory"]}
{"id": "C65", "title": "Everybody on a topic shares one queue", "statement": "Until the broker is closed, all Pub and Receive calls on one topic use the same queue: as long as a published message has not been taken, a Receive on any live subscription to its topic can get the oldest such message at once, no matter whether the subscription was made before or after the message was published.", "quantifier": "every history of calls and every interleaving", "why_tests_cant": "Subscribing first, publishing first, and both at once take different paths through the topic table.", "anchors": ["pkg/broker/memory/memory.go:Memory.Pub", "pkg/broker/memory/memory.go:Memory.Sub", "pkg/broker/memory/subscriber.go:Subscriber.Receive"]}
{"id": "C66", "title": "Every broker call returns", "statement": "In every execution in which timers eventually expire and handlers return, each call of Open, Close, Pub, Sub, Receive and Unsubscribe returns, after a number of its own steps that does not depend on the other goroutines.", "quantifier": "every fair execution", "why_tests_cant": "Termination under all schedules, including a broker that closes, reopens or stays full for ever.", "anchors": ["pkg/broker/memory/memory.go:Memory", "pkg/broker/memory/subscriber.go:Subscriber"]}
{"id": "C67", "title": "Closing the broker ends its goroutines", "statement": "Once the broker is closed, every goroutine it has started (one per Open, one per Unsubscribe) can run to its end: none waits for ever.", "quantifier": "every history of calls and every interleaving", "why_tests_cant": "A leaked goroutine has no effect a test could see.", "anchors": ["pkg/broker/memory/memory.go:Memory.run", "pkg/broker/memory/memory.go:Memory.Close", "pkg/broker/memory/subscriber.go:Subscriber.Unsubscribe"]}
{"id": "C68", "title": "Broker calls are free of data races", "statement": "In every execution in which any number of goroutines call methods of one in-memory broker and its subscriptions, no two goroutines ever access the same field at the same moment with at least one of them writing it.", "quantifier": "every set of concurrent calls and every interleaving", "why_tests_cant": "The race detector sees one schedule at a time; some of the races need a previous session's goroutine to run late.", "anchors": ["pkg/broker/memory/memory.go:Memory", "pkg/broker/memory/subscriber.go:Subscriber"]}
{"id": "C69", "title": "What is ingested is what handlers can decode", "statement": "If everything published on a topic was ingested as an entity, object, resource or link with the matching type and the JSON marshaler, every handler called on a subscription to that topic gets a message from which Unmarshal makes a value like the one ingested (same UID, type, name, attributes and parts), and no other receiver gets the same one. Values of other types are rejected and nothing is published for them.", "quantifier": "every history of the broker, every valid value, every marshaling order", "why_tests_cant": "It joins ingester, marshaler, broker and unmarshaler; each is tested alone, with mocks or fixed values.", "anchors": ["pkg/broker/ingester/simple/ingester.go:Ingester.Ingest", "pkg/broker/memory/memory.go:Memory.Pub", "pkg/broker/memory/subscriber.go:Subscriber.Receive", "pkg/space/marshal/json/json.go:Marshaler.Unmarshal"]}
{"id": "C70", "title": "DumpData writes the message's data and nothing else", "statement": "What DumpData puts on standard output is a beginning of the message's data, unchanged and in order; it returns nil exactly if all of it was written, never panics, and returns after at most as many writes as there are bytes.", "quantifier": "every message, every behaviour of write(2)", "why_tests_cant": "Short and failing writes are hard to provoke on standard output.", "anchors": ["pkg/broker/handlers/handlers.go:DumpData"]}
{"id": "C71", "title": "DOT shows every node and every edge exactly once", "statement": "The document DOT returns has one statement for each node of the graph, with the DOTID and exactly the attributes of the node that Node returns, in order of node IDs, and one statement for each edge that Edge reports, with its attributes (in an undirected graph one per pair of nodes).", "quantifier": "every graph reachable by calls, directed and undirected, every map iteration order", "why_tests_cant": "Tests look for a non-empty string; completeness and absence of duplicates concern every graph.", "anchors": ["pkg/graph/memory/wg.go:WG.DOT", "pkg/graph/memory/node.go:Node.Attributes", "pkg/graph/memory/edge.go:Edge.Attributes"]}
{"id": "C72", "title": "DOT output is determined by the graph", "statement": "Two calls of DOT on the same graph, or on two graphs whose Node and Edge methods give the same answers, return the same document.", "quantifier": "every graph reachable by calls, every map iteration order", "why_tests_cant": "Map iteration order is random; a test with few attributes passes most of the time.", "anchors": ["pkg/graph/memory/wg.go:WG.DOT", "pkg/attrs/memory/memory.go:Attrs.Keys"]}
{"id": "C73", "title": "DOT carries the graph's name and DOT options", "statement": "The document is named by the graph's DOTID and has the graph, node and edge attributes given with WithDOTOptions.", "quantifier": "every graph, every options", "why_tests_cant": "The options are stored and can be read back; only the text shows whether they are used.", "anchors": ["pkg/graph/memory/wg.go:WG.DOT", "pkg/graph/memory/wg.go:WG.DOTID", "pkg/graph/memory/wg.go:WG.DOTAttributers"]}
{"id": "C74", "title": "A DOT document can be read back as the graph", "statement": "Different nodes have different names in the document, and two names are joined in it exactly if Edge finds an edge between the nodes of these names.", "quantifier": "every graph reachable by calls", "why_tests_cant": "Name clashes need nodes with chosen DOTIDs.", "anchors": ["pkg/graph/memory/wg.go:WG.DOT", "pkg/graph/memory/node.go:NewNode"]}
{"id": "C75", "title": "Unmarshal accepts exactly the documents that fit and returns what they say", "statement": "For every sequence of bytes Unmarshal into an entity, resource, object or link either succeeds, and then the bytes are a JSON text (RFC 8259) of an object, or null, whose members named like a field up to case have the field's type, and the value has the fields the document gives it (last one wins, attributes are merged, members of no field are ignored, absent ones are zero); or it returns an error, and then they are not. It never panics, never touches attributes that exist, gives every value its own attributes and refuses any other target.", "quantifier": "every byte sequence, every state of memory, every map iteration order", "why_tests_cant": "Round-trip tests only feed documents Marshal wrote; malformed and unusual documents are unbounded.", "anchors": ["pkg/space/marshal/json/json.go:Marshaler.Unmarshal", "pkg/space/marshal/types.go:Entity"]}
{"id": "C76", "title": "Unmarshal rejects incomplete documents and documents of another kind", "statement": "If Unmarshal into an entity succeeds, the document has a uid and a type; in particular a marshalled link is not accepted as an entity.", "quantifier": "every byte sequence", "why_tests_cant": "Tests feed documents of the kind they ask for.", "anchors": ["pkg/space/marshal/json/json.go:Marshaler.Unmarshal"]}
{"id": "C77", "title": "A marshalled resource or object can be read as an entity", "statement": "Unmarshalling the document of a resource or object into an entity gives an entity with the same UID string, type and attributes (strings being valid UTF-8), with or without a nested resource.", "quantifier": "every resource and object, every state of memory, every map iteration order", "why_tests_cant": "The nested resource has members with the same names; that they are never confused concerns every document.", "anchors": ["pkg/space/marshal/json/json.go:Marshaler.Marshal", "pkg/space/marshal/json/json.go:Marshaler.Unmarshal"]}
{"id": "C78", "title": "Concurrent graph calls are linearizable", "statement": "Any number of goroutines calling methods of one graph observe results that some sequential order of the same calls, consistent with real time, would give.", "quantifier": "every graph built by calls, every number of goroutines, every interleaving, every map iteration order", "why_tests_cant": "RemoveNode, Unlink, Link, NewNode and SubGraph release the lock and take it again; what may happen in between is unbounded.", "anchors": ["pkg/graph/memory/wg.go:WG.RemoveNode", "pkg/graph/memory/wg.go:WG.Unlink", "pkg/graph/memory/wg.go:WG.Link", "pkg/graph/memory/wg.go:WG.NewNode", "pkg/graph/memory/wg.go:WG.SubGraph"]}
{"id": "C79", "title": "Copies and conversions read attributes of any implementation faithfully", "statement": "NewCopyFrom, ToMap and the DOT conversion work for every implementation of attrs.Attrs, including ones that fail, panic or change between calls: they ask for the keys once and then for each value in order, stop at the first error or panic, and otherwise return exactly what they read; a failed copy makes no attribute set; a copy of nil attributes is empty; no other attribute set changes.", "quantifier": "every implementation with any state, any number of keys, repeated keys, any errors", "why_tests_cant": "Tests use the in-memory implementation, which never fails.", "anchors": ["pkg/attrs/memory/memory.go:NewCopyFrom", "pkg/attrs/attrs.go:ToMap", "pkg/attrs/memory/dot.go:DOTAttrs"]}
{"id": "C80", "title": "Broker options are honoured", "statement": "The last option of each kind counts. WithCap bounds the number of undelivered messages of each topic and can be used up, DefaultSize being the capacity if none is given; WithSink(FanOut) delivers a message to every subscription; the timeouts given to New are those of Pub and Receive calls without their own; a timeout given to a call replaces the broker's.", "quantifier": "every list of options of the broker and of each call, every interleaving", "why_tests_cant": "An option that is silently ignored looks like one that happened not to matter in the test.", "anchors": ["pkg/broker/options.go:Options", "pkg/broker/memory/memory.go:New", "pkg/broker/memory/memory.go:Memory.Pub", "pkg/broker/memory/subscriber.go:Subscriber.Receive"]}
{"id": "C81", "title": "Timeouts are neither early nor late", "statement": "A Pub or Receive call reports a timeout no earlier after it was made than its timeout, which is the call's, else (for Pub) the broker's, else five seconds; and from any moment on a call in progress can return within its timeout, whatever others do.", "quantifier": "every execution with a clock, every combination of timeouts including zero and negative ones", "why_tests_cant": "Tests with real timers cannot cover all moments at which other goroutines may run.", "anchors": ["pkg/broker/memory/memory.go:Memory.publishMsg", "pkg/broker/memory/memory.go:Memory.Pub", "pkg/broker/memory/subscriber.go:Subscriber.Receive"]}
{"id": "C82", "title": "Graph laws hold for all nodes made by NewNode", "statement": "If every node given to AddNode was returned by the graph's own NewNode, then linking different UIDs never panics and gives an edge between them, Unlink and RemoveNode leave other pairs linked, and every node found by its UID is listed.", "quantifier": "every history of calls with this property, directed and undirected, including ones in which several nodes are made before any is added", "why_tests_cant": "Tests add each node before making the next one; IDs then never collide.", "anchors": ["pkg/graph/memory/wg.go:WG.NewNode", "pkg/graph/memory/wg.go:WG.AddNode", "pkg/graph/memory/wg.go:WG.Link", "pkg/graph/memory/wg.go:WG.Unlink", "pkg/graph/memory/wg.go:WG.RemoveNode", "pkg/graph/memory/wg.go:WG.From", "pkg/graph/memory/wg.go:WG.Edges"]}
{"id": "C83", "title": "A node of a graph is one object", "statement": "All handles to a node of a graph are the same object: what was given to AddNode is what Node, Nodes and From return for it and what edges from Edge and Edges have at their ends, so that a DOTID set through one of them is seen through all.", "quantifier": "every history of calls that adds fitting nodes, directed and undirected, every map iteration order", "why_tests_cant": "A test compares UIDs; two objects with the same UID look the same until one of them is changed.", "anchors": ["pkg/graph/memory/wg.go:WG.AddNode", "pkg/graph/memory/wg.go:WG.Node", "pkg/graph/memory/wg.go:WG.Nodes", "pkg/graph/memory/wg.go:WG.From", "pkg/graph/memory/wg.go:WG.Edge"]}
{"id": "C84", "title": "An edge of a graph is one object", "statement": "Link, Edge and Edges hand out the same object for an edge as long as it is not removed, whichever end it is asked from, so that a DOTID set on it stays.", "quantifier": "every history of calls that adds fitting nodes, directed and undirected, every map iteration order", "why_tests_cant": "It takes an undirected graph and asking from the other end to see copies.", "anchors": ["pkg/graph/memory/wg.go:WG.Link", "pkg/graph/memory/wg.go:WG.Edge", "pkg/graph/memory/wg.go:WG.Edges", "pkg/graph/memory/edge.go:Edge.ReversedEdge"]}
{"id": "C85", "title": "SetDOTID changes a DOTID and nothing else", "statement": "DOTID of a node or edge is the one set last on that object, whatever else is called; and leaving out all calls of SetDOTID from a history changes neither the answer of any other call nor the graph nor anything else about any object.", "quantifier": "every history of calls with SetDOTID anywhere in it", "why_tests_cant": "That no later call in any history depends on a DOTID cannot be shown by examples.", "anchors": ["pkg/graph/memory/node.go:Node.SetDOTID", "pkg/graph/memory/edge.go:Edge.SetDOTID", "pkg/graph/memory/node.go:Node.DOTID", "pkg/graph/memory/edge.go:Edge.DOTID"]}
{"id": "C86", "title": "A sub graph shares node objects with its source and has its own edges", "statement": "The nodes of a sub graph, and the ends of its edges, are the objects its source returns for the same UIDs; its edges are new objects; making it changes no existing node or edge. It is made from every node of the source, also after upserts, and has the nodes within the depth and the source's edges between them.", "quantifier": "every graph reachable by calls that add fitting nodes, every root and depth, every map iteration order", "why_tests_cant": "Sharing shows only when an object is changed later, through either graph.", "anchors": ["pkg/graph/memory/wg.go:WG.SubGraph"]}
{"id": "C87", "title": "Attributes are data", "statement": "What is in attribute sets of the in-memory implementation influences no result of any call of a graph or store, not which nodes and edges there are, not which nodes, edges and weights a sub graph has, and not which nodes and edges a DOT document lists in which order; and no call of a graph or store changes an attribute set that exists already.", "quantifier": "every two histories that differ only in what the program does to attribute sets, at any time; every graph, root, depth and map iteration order", "why_tests_cant": "It compares all pairs of executions.", "anchors": ["pkg/graph/memory/wg.go:WG.NewNode", "pkg/graph/memory/wg.go:WG.Link", "pkg/graph/memory/wg.go:WG.SubGraph", "pkg/graph/memory/wg.go:WG.DOT", "pkg/store/memory/store.go:Memory.Add", "pkg/store/memory/store.go:Memory.Link"]}
{"id": "C88", "title": "Attribute sets are free of data races", "statement": "Any number of goroutines may call methods of one in-memory attribute set, or make copies of it, without two of them accessing its map at the same moment, one writing.", "quantifier": "every number of goroutines and attribute sets, every interleaving", "why_tests_cant": "A race shows in a test only if the scheduler happens to run the two accesses at the same time.", "anchors": ["pkg/attrs/memory/memory.go:Attrs.Set", "pkg/attrs/memory/memory.go:Attrs.Get", "pkg/attrs/memory/memory.go:Attrs.Keys", "pkg/attrs/memory/memory.go:NewCopyFrom"]}
{"id": "C89", "title": "Attribute copies are snapshots", "statement": "If single map accesses are atomic, goroutines that get, set, list and copy attributes observe results that some sequential order of their calls, consistent with real time, would give, and no call panics; in particular a copy, map or DOT list has contents the set had at one moment.", "quantifier": "every number of goroutines and attribute sets, every interleaving, every map iteration order", "why_tests_cant": "It takes calls of Set between two reads of one copy.", "anchors": ["pkg/attrs/memory/memory.go:NewCopyFrom", "pkg/attrs/memory/memory.go:Attrs.Keys", "pkg/attrs/attrs.go:ToMap", "pkg/attrs/memory/dot.go:DOTAttrs"]}
{"id": "C90", "title": "The graph of a store can be watched", "statement": "While goroutines use a store, others may call Node, Nodes, Edge, Edges and From on the graph that its Graph method returned: the store's calls still return what some sequential order of them, consistent with real time, returns; nothing races; every call returns.", "quantifier": "every number of goroutines, every interleaving of their steps, every start state, every map iteration order", "why_tests_cant": "The number of interleavings is unbounded, and two mutexes are involved that are taken in different combinations.", "anchors": ["pkg/store/memory/store.go:Memory.Graph", "pkg/store/memory/store.go:Memory.Add", "pkg/store/memory/store.go:Memory.Link", "pkg/graph/memory/wg.go:WG.Nodes", "pkg/graph/memory/wg.go:WG.Edge"]}
{"id": "C91", "title": "Store calls are atomic to those who watch the graph", "statement": "Calls on a store and calls of Node, Nodes, Edge, Edges and From on its graph, made by several goroutines, return what some sequential order of all of them, consistent with real time, returns.", "quantifier": "every number of goroutines, every interleaving of their steps, every start state, every map iteration order", "why_tests_cant": "It takes a look at the graph in the middle of a store call that makes several calls on the graph.", "anchors": ["pkg/store/memory/store.go:Memory.Graph", "pkg/store/memory/store.go:Memory.Add", "pkg/store/memory/store.go:Memory.BulkAdd", "pkg/graph/memory/wg.go:WG.Nodes"]}
{"id": "C92", "title": "A store keeps its guarantees when its graph is used", "statement": "Goroutines may call any methods on the graph that the Graph method of a store returned: still every call on store and graph returns, accesses to the graph's maps do not race, and no store call panics.", "quantifier": "every number of goroutines, every interleaving of their steps, every start state, every map iteration order", "why_tests_cant": "Deadlock and races depend on the interleaving; the panic needs a node made through the graph and added later.", "anchors": ["pkg/store/memory/store.go:Memory.Graph", "pkg/store/memory/store.go:Memory.Link", "pkg/graph/memory/wg.go:WG.DOT", "pkg/graph/memory/wg.go:WG.SubGraph", "pkg/graph/memory/wg.go:WG.NewNode"]}
{"id": "C93", "title": "What is ingested ends up in the store", "statement": "If the values ingested into a topic, whose strings are valid UTF-8, arrive in an order in which they can be stored (new UIDs, links between entities that were ingested before, no two links between the same ends, no loops), and Digest runs on the only subscription of the topic that anyone receives on, with a handler that unmarshals each message and adds it to a new store, or links its ends, with its attributes, then the handler never fails and the store always holds exactly the network described by the values handled so far, which are the first that arrived; nothing that was accepted is lost; a value that does not fit is refused with the proper error and leaves the network as it is.", "quantifier": "every sequence of values, every interleaving of ingesters, broker and digester, every map iteration order and ID choice, directed and undirected graphs", "why_tests_cant": "It composes marshaling, broker, digester, store and graph; a loss or mix-up in any of them shows only for particular values and interleavings.", "anchors": ["pkg/broker/ingester/simple/ingester.go:Ingester.Ingest", "pkg/broker/digester/simple/digester.go:Digester.Digest", "pkg/space/marshal/json/json.go:Marshaler.Unmarshal", "pkg/broker/memory/subscriber.go:Subscriber.Receive", "pkg/store/memory/store.go:Memory.Add", "pkg/store/memory/store.go:Memory.Link"]}
{"id": "C94", "title": "Digest gets to every message", "statement": "A message that waits on the topic of a Digest's subscription, with k others before it, is given to the handler after at most 6k+9 steps of the goroutine that runs Digest (calls, select, handler, returns), as long as its context is not cancelled, nobody unsubscribes and the session is not closed, unless another receiver takes it or Digest returns; until then Digest is never stuck. So every accepted value that is ingested ends up in a store fed by a Digest that keeps running.", "quantifier": "every capacity, every state of broker and digester, every number of waiting messages, every behaviour of other users, every (also infinite) interleaving in which Digest's goroutine keeps getting its turn", "why_tests_cant": "It is a liveness property: a test sees only finitely many steps, and a starved message looks like one that is just late.", "anchors": ["pkg/broker/digester/simple/digester.go:Digester.Digest", "pkg/broker/memory/subscriber.go:Subscriber.Receive", "pkg/broker/memory/memory.go:Memory.Pub", "pkg/broker/ingester/simple/ingester.go:Ingester.Ingest"]}
{"id": "C95", "title": "Stores that share a graph can be used at the same time", "statement": "Stores made with the same graph (WithGraph) may be used by different goroutines at the same time: every call returns, accesses to the graph's maps do not race, no call panics (unless it links an entity to itself), and all calls together return what some sequential order of them, consistent with real time, returns.", "quantifier": "every number of stores and goroutines, every interleaving of their steps, every start state, every map iteration order", "why_tests_cant": "Deadlock, ID collisions and lost atomicity need calls on two stores to overlap at particular points; each store alone is correct.", "anchors": ["pkg/store/memory/options.go:WithGraph", "pkg/store/memory/store.go:NewStore", "pkg/store/memory/store.go:Memory.Add", "pkg/store/memory/store.go:Memory.Link", "pkg/store/memory/store.go:Memory.Delete", "pkg/graph/memory/wg.go:WG.NewNode", "pkg/graph/memory/wg.go:WG.Link"]}
{"id": "C96", "title": "Critical sections of the broker are atomic and do not get stuck", "statement": "The broker's mutex makes each critical section of Open, Close, Pub, Sub and of the control goroutine appear to happen at once: every history of calls, results, messages and handler calls that is possible when goroutines take turns statement by statement is possible when each critical section is a single step (in which a read of m.ctl without the lock may still get the value from before the last Open), and every history with such steps, those reads aside, is possible statement by statement. In particular messages are delivered in order and at most once, no channel is overfilled, nothing panics unless Unsubscribe calls overlap, and whenever those in critical sections have left them, any call in progress can return on its own.", "quantifier": "every capacity, every number of goroutines and calls, every interleaving of their statements, lock and unlock operations, every map iteration order, every reachable state", "why_tests_cant": "That no goroutine sees a half-done Open, Close or Sub depends on every access being inside the right lock and every path unlocking it; a missing lock shows only if another goroutine runs between two adjacent statements.", "anchors": ["pkg/broker/memory/memory.go:Memory.Open", "pkg/broker/memory/memory.go:Memory.Close", "pkg/broker/memory/memory.go:Memory.Pub", "pkg/broker/memory/memory.go:Memory.Sub", "pkg/broker/memory/memory.go:Memory.run"]}
{"id": "C97", "title": "Nobody waits for the broker for ever", "statement": "If the scheduler runs every goroutine that can always go on, and the mutex lets in everyone who again and again could get it, then, with goroutines taking turns statement by statement, every call of Open, Close, Pub, Sub, Receive and Unsubscribe returns (unless the process panics), every goroutine that asks for the broker's mutex, the control goroutine included, gets it, and every goroutine that has it gives it back.", "quantifier": "every capacity, every number of goroutines and calls, every infinite fair interleaving of their statements, lock and unlock operations, every map iteration order, every reachable start state", "why_tests_cant": "It is a liveness property of infinite executions: a forgotten unlock on one path, or a loop in Close that does not shrink the table, shows only as a call that has not returned yet.", "anchors": ["pkg/broker/memory/memory.go:Memory.Open", "pkg/broker/memory/memory.go:Memory.Close", "pkg/broker/memory/memory.go:Memory.Pub", "pkg/broker/memory/memory.go:Memory.Sub", "pkg/broker/memory/memory.go:Memory.run", "pkg/broker/memory/subscriber.go:Subscriber.Receive"]}
{"id": "C98", "title": "A call that panics leaves the graph and the store usable", "statement": "If a call on a graph or on a store panics and the caller recovers, then the graph and the store can still be used: when no call is under way, any call that is made comes to its end. In particular this holds after calls with nil UIDs or with entities that have none, and after linking a node with itself.", "quantifier": "every number of goroutines and calls before, every interleaving of their steps, every start state, every argument including nil UIDs, every map iteration order", "why_tests_cant": "A lock that is not released by a deferred call stays locked only on the path that panics; the call that suffers comes later and simply never returns.", "anchors": ["pkg/graph/memory/wg.go:WG.RemoveNode", "pkg/graph/memory/wg.go:WG.Link", "pkg/graph/memory/wg.go:WG.From", "pkg/graph/memory/wg.go:WG.Unlink", "pkg/graph/memory/wg.go:WG.SubGraph", "pkg/graph/memory/wg.go:WG.Node", "pkg/graph/memory/wg.go:WG.Edge", "pkg/store/memory/store.go:Memory.Delete", "pkg/store/memory/store.go:Memory.Link", "pkg/store/memory/store.go:Memory.Unlink"]}
{"id": "C99", "title": "Nobody waits for a plan, a link cache, a graph or a store for ever", "statement": "If the scheduler runs every goroutine that can always go on, and a mutex lets in everyone who again and again could get it, then every call on a plan, a link cache or a store returns, even if other goroutines never stop calling. The same holds for calls on a graph, on a store whose graph is used directly, and on stores that share a graph, as long as nobody calls Link (BulkLink) or DOT on them; and for all calls on a store while others look up nodes and edges in its graph.", "quantifier": "every number of goroutines and calls, every infinite fair interleaving of their steps, new calls arriving at any time, every start state, every map iteration order", "why_tests_cant": "It is a liveness property of infinite executions: a lock that is not released on one path, or two locks taken in different orders, shows only as a call that has not returned yet.", "anchors": ["pkg/plan/simple/simple.go:Simple.Add", "pkg/plan/simple/simple.go:Simple.GetAll", "pkg/cache/memory/links.go:Links.Put", "pkg/cache/memory/links.go:Links.BulkGetFrom", "pkg/store/memory/store.go:Memory.Add", "pkg/store/memory/store.go:Memory.Link", "pkg/store/memory/store.go:Memory.BulkGet", "pkg/graph/memory/wg.go:WG.NewNode", "pkg/graph/memory/wg.go:WG.Unlink", "pkg/graph/memory/wg.go:WG.SubGraph"]}
{"id": "C100", "title": "Attributes may be used while their graph is used", "statement": "Goroutines may use a graph while others get, set and copy the attributes of its nodes and edges: there are no races on attributes, no method of the graph panics because attributes are set, and each edge of a sub graph has the attributes that the edge between the same nodes had at some moment.", "quantifier": "every number of goroutines, every interleaving of their accesses, every graph that calls can build, every start content of attribute sets, every map iteration order", "why_tests_cant": "A panic or a copy that mixes values of different moments needs a Set between two particular accesses of SubGraph or DOT; with an unlocked map the outcome of a race is not even repeatable.", "anchors": ["pkg/graph/memory/wg.go:WG.SubGraph", "pkg/graph/memory/wg.go:WG.DOT", "pkg/graph/memory/node.go:Node.Attributes", "pkg/graph/memory/edge.go:Edge.Attributes", "pkg/attrs/memory/memory.go:NewCopyFrom", "pkg/attrs/memory/memory.go:Attrs.Keys", "pkg/attrs/memory/memory.go:Attrs.Set"]}
{"id": "C101", "title": "Graphs, stores and subscriptions keep the identity they were made with", "statement": "A new graph has the UID of its last WithUID option, or a fresh one if that is nil or missing, and the DOTID of its last WithDOTID option, or the UID as a string if that is empty or missing; it is directed or undirected according to its constructor and empty. UID, DOTID and direction never change, whatever is called on the graph or on stores that use it, and by however many goroutines. A sub graph has the identity its own options ask for and is directed. A new store has the UID of its last WithUID option or a fresh one, and hands out the graph of its last WithGraph option or a new undirected one. A subscription has the ID and the topic that Sub was called with, for ever. SetDOTID on an entity, resource or object changes its DOTID and nothing else.", "quantifier": "every list of options, every history of calls, every number of goroutines and interleaving of their steps, every start state, every map iteration order", "why_tests_cant": "Options combine in every order and number, and a method that reuses an object or swaps two arguments gives a wrong name only to later callers.", "anchors": ["pkg/graph/memory/wg.go:NewWG", "pkg/graph/memory/wg.go:WG.UID", "pkg/graph/memory/wg.go:WG.DOTID", "pkg/graph/memory/wg.go:WG.SubGraph", "pkg/store/memory/store.go:NewStore", "pkg/store/memory/store.go:Memory.UID", "pkg/store/memory/store.go:Memory.Graph", "pkg/store/memory/options.go:WithUID", "pkg/store/memory/options.go:WithGraph", "pkg/broker/memory/subscriber.go:Subscriber.ID", "pkg/broker/memory/subscriber.go:Subscriber.Topic", "pkg/broker/memory/memory.go:Memory.Sub", "pkg/space/entity/object.go:Object.SetDOTID"]}
{"id": "C102", "title": "A store call that fails changes nothing", "statement": "If Add, Get, Delete, Link, Unlink or BulkGet of a store returns an error or panics, then at no moment has that call changed a node, an edge or the attributes of anything that was there before, whatever other goroutines did meanwhile; this includes calls with nil UIDs and entities without UID.", "quantifier": "every number of goroutines and calls, every interleaving of their steps, every start state, every argument including nil UIDs, every map iteration order", "why_tests_cant": "A write before the check that fails, undone or not, is visible only to a goroutine that looks at the right moment, or to one that compares the whole graph before and after every kind of failure.", "anchors": ["pkg/store/memory/store.go:Memory.Add", "pkg/store/memory/store.go:Memory.Get", "pkg/store/memory/store.go:Memory.Delete", "pkg/store/memory/store.go:Memory.Link", "pkg/store/memory/store.go:Memory.Unlink", "pkg/store/memory/store.go:Memory.BulkGet"]}
{"id": "C103", "title": "A graph call that fails changes nothing", "statement": "If a call on a graph returns an error or panics, then at no moment has that call changed a node, an edge or the attributes of anything that was there before, whatever other goroutines did meanwhile; this includes calls with nil UIDs and nodes and entities without UID.", "quantifier": "every number of goroutines and calls, every interleaving of their steps, every start state, every argument including nil UIDs, every map iteration order", "why_tests_cant": "A write before the check that fails, undone or not, is visible only to a goroutine that looks at the right moment, or to one that compares the whole graph before and after every kind of failure.", "anchors": ["pkg/graph/memory/wg.go:WG.NewNode", "pkg/graph/memory/wg.go:WG.AddNode", "pkg/graph/memory/wg.go:WG.RemoveNode", "pkg/graph/memory/wg.go:WG.Link", "pkg/graph/memory/wg.go:WG.Unlink", "pkg/graph/memory/wg.go:WG.SubGraph", "pkg/graph/memory/wg.go:WG.Edge", "pkg/graph/memory/wg.go:WG.Node"]}
{"id": "C104", "title": "Plans and link caches withstand nil", "statement": "A plan call with a nil resource, a resource without UID or a nil UID panics, and so does a link cache call with a nil link; if the callers recover, the other calls return what they would return had the panicking calls never been made, except that BulkPut keeps the links before the first that is nil. No lock stays locked, nothing races, every call comes to its end, and a call that panics or fails has at no moment changed anything, BulkPut aside.", "quantifier": "every number of goroutines and calls, every finite interleaving and every infinite fair one, every argument including nil, every map iteration order", "why_tests_cant": "A lock that a panic leaves locked, or a write before the panic, is noticed only by a later or simultaneous call of somebody else.", "anchors": ["pkg/plan/simple/simple.go:Simple.Add", "pkg/plan/simple/simple.go:Simple.Get", "pkg/plan/simple/simple.go:Simple.GetAll", "pkg/plan/simple/simple.go:Simple.Delete", "pkg/cache/memory/links.go:Links.Put", "pkg/cache/memory/links.go:Links.BulkPut"]}
{"id": "C105", "title": "What a store answers is right also if some calls are made with nil", "statement": "Goroutines use a new store, some with nil UIDs or entities without UID, and recover from panics. The calls that have come to their end gave the answers of some sequential order of all calls that respects real time. In that order Add of an entity without UID, Get(nil) and Delete(nil) panic; so do Link and Unlink with a nil UID, unless the first is not nil and not in the store: then Link returns ErrEntityNotFound and Unlink succeeds. None of these calls changes anything. A bulk call does what its single calls do, up to the first that fails. Nothing races, whatever panicked before.", "quantifier": "every number of goroutines and calls, every interleaving of their steps, every argument including nil, every map iteration order, up to 2^63 additions", "why_tests_cant": "A panic half-way leaves a lock or a half-made change behind, and only a later or simultaneous call with the right arguments shows it.", "anchors": ["pkg/store/memory/store.go:Memory.Add", "pkg/store/memory/store.go:Memory.Get", "pkg/store/memory/store.go:Memory.Delete", "pkg/store/memory/store.go:Memory.Link", "pkg/store/memory/store.go:Memory.Unlink", "pkg/store/memory/store.go:Memory.BulkAdd", "pkg/store/memory/store.go:Memory.BulkGet", "pkg/store/memory/store.go:Memory.BulkDelete", "pkg/store/memory/store.go:Memory.BulkLink", "pkg/store/memory/store.go:Memory.BulkUnlink"]}
{"id": "C106", "title": "Marshalled documents can be embedded anywhere", "statement": "Whatever bytes the strings of a value are made of, the document Marshal returns is valid UTF-8 and contains no control character, in particular no line end, none of <, > and &, and neither U+2028 nor U+2029. So documents written one per line can be told apart again.", "quantifier": "every value of every type with the methods of an entity, resource, object or link, every content of its strings and attributes including bytes that are not UTF-8, every map iteration order; every list of documents", "why_tests_cant": "The property depends on every byte of every string, also in attribute keys and nested resources, and on bytes that only together make a character.", "anchors": ["pkg/space/marshal/json/json.go:Marshaler.Marshal"]}
{"id": "C107", "title": "DOTIDs can be set while the graph is in use", "statement": "While goroutines call the methods of a graph, others may call SetDOTID on its nodes and edges, one at a time for each: the methods of the graph do not race with them. In any case nothing races on the maps of the graph, and the DOTID of a node that has not been added yet can be set whatever others do to the graph.", "quantifier": "every number of goroutines and calls other than SubGraph and DOT, every interleaving of their steps, every start state, every argument, every map iteration order, directed and undirected graphs", "why_tests_cant": "The race is between a write and the copy of a whole struct that calling a method with a value receiver makes; nothing in the source shows the read, and both orders give the same result.", "anchors": ["pkg/graph/memory/node.go:Node.SetDOTID", "pkg/graph/memory/node.go:Node.ID", "pkg/graph/memory/edge.go:Edge.SetDOTID", "pkg/graph/memory/edge.go:Edge.ReversedEdge", "pkg/graph/memory/wg.go:WG.AddNode", "pkg/graph/memory/wg.go:WG.RemoveNode", "pkg/graph/memory/wg.go:WG.Edge", "pkg/graph/memory/wg.go:WG.Link", "pkg/graph/memory/wg.go:WG.Unlink", "pkg/graph/memory/wg.go:WG.From", "pkg/graph/memory/wg.go:WG.Edges"]}
