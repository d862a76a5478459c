import Verif.Lemmas.BrokerTopic
import Verif.Lemmas.Identity
import Verif.Props.BrokerStmt
import Verif.Props.Space
import Verif.Props.StoreShared
import Verif.Props.SubGraph

/-!
# What graphs, stores and subscriptions are known by

C101: UID, DOTID and direction of a graph, UID and graph of a store, ID and topic of a subscription.
-/

namespace Netscrape.Props
open Netscrape.Conc Netscrape.Graph Netscrape.Spec Netscrape.Spec.Graph Netscrape.Spec.Identity

/-! ## Graphs -/

/-- **C101**: a new graph has the UID of the last `WithUID`, unless that is nil or there is none, when it has a fresh
one; the DOTID of the last `WithDOTID`, unless that is empty or there is none, when it is the UID; it is directed or not
as asked for; and nothing is in it. -/
theorem c101_graph_new (directed : Bool) (fresh : Uid) (opts : List Opt) :
    let g := new directed fresh opts
    MadeWith directed fresh opts g ∧ (∀ o, nodesList g o = []) ∧ (∀ o, edgesList g o = []) ∧
      ∀ u, node g u = .err .nodeNotFound := by
  refine ⟨madeWith_new directed fresh opts, ?_, ?_, fun u => rfl⟩
  · intro o
    show (o.run (new directed fresh opts).b.nodes.entries).map Prod.snd = []
    rw [show (new directed fresh opts).b.nodes.entries = [] by cases directed <;> rfl, Order.run_nil]
    rfl
  · intro o
    cases directed with
    | true =>
      show (o.nodes.run []).flatMap _ = []
      rw [Order.run_nil]; rfl
    | false =>
      show Gonum.dedup ((o.rows.run []).flatMap _) [] = []
      rw [Order.run_nil]; rfl

/-- Non-vacuity: options given twice. The one graph is made with a DOTID of its own, the other with a nil UID. -/
example :
    let g := new true ⟨9, "f"⟩ [.withUID (some ⟨1, "g"⟩), .withDOTID "x", .withUID (some ⟨2, "h"⟩), .withDOTID "y"]
    let g' := new false ⟨9, "f"⟩ [.withUID (some ⟨1, "g"⟩), .withDOTID "x", .withUID none, .withDOTID ""]
    g.uid = ⟨2, "h"⟩ ∧ g.dotid = "y" ∧ isDirected g ∧ g'.uid = ⟨9, "f"⟩ ∧ g'.dotid = "f" ∧ ¬ isDirected g' :=
  ⟨rfl, rfl, trivial, rfl, rfl, id⟩

/-- C101: UID, DOTID and direction of a graph stay what they are, whatever is called on it and whatever happens to
attributes in between. -/
theorem c101_graph_keeps (s : St) (ops : List Graph.Op) : Same s.g (Graph.run s ops).g := by
  induction ops generalizing s with
  | nil => exact .refl _
  | cons op ops ih =>
    refine Same.trans ?_ (ih (Graph.step s op).1)
    cases op with
    | newNode o e opts => exact .refl _
    | addNode n opts => exact same_addNode s.g n opts
    | addForeign => exact .refl _
    | removeNode u => exact same_removeNode s.g u
    | link fresh a f t opts => exact same_link s.heap s.g fresh a f t opts
    | unlink f t => exact same_unlink s.g f t
    | env h => exact .refl _

/-- C101: a sub graph has the identity its options ask for, not that of the graph it is taken from, and is directed
whatever that is. -/
theorem c101_subgraph {ora : SubOracle} {h h' : Heap} {g sg : WG} {u : Uid} {depth : Int} {opts : List Opt}
    (he : subGraph ora h g u depth opts = (.ok sg, h')) : MadeWith true ora.graphUid opts sg := madeWith_subGraph he

/-- C101: UID, DOTID and direction stay what they are in every state of goroutines that call methods of the graph, and
sub graphs taken while others change the graph have the identity their options ask for. -/
theorem c101_graph_conc {s : St} {allowed : Graph.COp → Prop} {c : GCfg} (hr : Reach (Graph.prog ()) allowed s c) :
    Same s.g c.data.g ∧ ∀ i t sg, Ev.res i t (.graph (.ok sg)) ∈ c.hist → ∃ ora u d opts,
      Ev.inv i t (.subGraph ora u d opts) ∈ c.hist ∧ MadeWith true ora.graphUid opts sg := by
  have h := keepsInv (I := IdI s.g) (Post := Graph.IdPost) (Same.refl s.g) (fun op _ => keeps_prog () op) hr
  refine ⟨h.data, ?_⟩
  intro i t sg hi
  obtain ⟨op, h1, h2⟩ := h.res i t _ hi
  obtain ⟨ora, u, d, opts, rfl, h3⟩ := h2 sg rfl
  exact ⟨ora, u, d, opts, h1, h3⟩

/-- Non-vacuity: a sub graph of an undirected graph is directed and has a name of its own. Another is taken while a
node is removed. -/
example :
    let r := subGraph exOra (exSt false).heap (exSt false).g uA 1 [.withUID (some ⟨7, "s"⟩)]
    r.1.toOption.map (fun sg => (sg.uid, sg.dotid, kind sg.b)) = some (⟨7, "s"⟩, "s", true) ∧
    (exSt false).g.uid = ⟨0, "graph"⟩ ∧ kind (exSt false).g.b = false ∧
    (exec (Graph.prog ()) (.init (exSt false)) ([.call 0 (.subGraph exOra uA 1 [.withDOTID "d"])] ++ taus 0 6 ++
      [.call 1 (.removeNode uB)] ++ taus 1 8 ++ taus 0 2 ++ [.ret 1, .ret 0])).map (fun c =>
        (c.data.g.uid.str, (node c.data.g uB).toOption.isSome, c.hist.filterMap fun e => match e with
        | .res _ _ (.graph (.ok sg)) => some (sg.uid.str, sg.dotid)
        | _ => none)) = some ("graph", false, [("sub", "d")]) := by decide

/-! ## Stores -/

/-- C101: a new store has the UID of the last `WithUID` or else a fresh one, and hands out the graph of the last
`WithGraph`, as it is, or else a new undirected one. -/
theorem c101_store_new (h : Heap) (fresh freshGraph : Uid) (opts : List Store.NOpt) :
    let r := Store.create h fresh freshGraph opts
    r.1 = (storeUid opts).getD fresh ∧ r.2.heap = h ∧ (∀ g, storeGraph opts = some g → r.2.g = g) ∧
      (storeGraph opts = none → MadeWith false freshGraph [] r.2.g ∧ ∀ u, node r.2.g u = .err .nodeNotFound) := by
  have hlast : ∀ {α : Type} (l : List α) (x : α), (x :: l).getLast? = some (l.getLast?.getD x) := by
    intro α l x
    cases l with
    | nil => rfl
    | cons y l => simp [List.getLast?_eq_some_getLast]
  have key : ∀ (opts : List Store.NOpt) (o : Store.NOpts),
      (opts.foldl Store.NOpt.apply o).uid =
        ((opts.filterMap fun o => match o with | .withUID u => some u | _ => none).getLast?).getD o.uid ∧
      (opts.foldl Store.NOpt.apply o).graph =
        ((opts.filterMap fun o => match o with | .withGraph g => some g | _ => none).getLast?).getD o.graph := by
    intro opts
    induction opts with
    | nil => intro o; exact ⟨rfl, rfl⟩
    | cons x l ih =>
      intro o
      obtain ⟨h1, h2⟩ := ih (x.apply o)
      rw [List.foldl_cons, h1, h2]
      cases x with
      | withUID u => exact ⟨by show _ = (u :: List.filterMap _ l).getLast?.getD o.uid; rw [hlast]; rfl,
          by rw [List.filterMap_cons_none rfl]; rfl⟩
      | withGraph g => exact ⟨by rw [List.filterMap_cons_none rfl]; rfl, by
          show _ = (g :: List.filterMap _ l).getLast?.getD o.graph; rw [hlast]; rfl⟩
  obtain ⟨h1, h2⟩ := key opts {}
  have hj : ∀ {α : Type} (o : Option (Option α)), o.getD none = o.join := by
    intro α o; rcases o with _ | _ | _ <;> rfl
  rw [hj] at h1 h2
  refine ⟨?_, rfl, ?_, ?_⟩
  · show (opts.foldl Store.NOpt.apply {}).uid.getD fresh = _
    rw [h1]; rfl
  · intro g hg
    show (opts.foldl Store.NOpt.apply {}).graph.getD _ = _
    rw [h2]
    show (storeGraph opts).getD _ = _
    rw [hg]; rfl
  · intro hg
    have : (Store.create h fresh freshGraph opts).2.g = new false freshGraph [] := by
      show (opts.foldl Store.NOpt.apply {}).graph.getD _ = _
      rw [h2]
      show (storeGraph opts).getD _ = _
      rw [hg]; rfl
    rw [this]
    exact ⟨madeWith_new _ _ _, fun _ => rfl⟩

/-- C101: calls on any number of stores that share a graph and on that graph, made at the same time, leave the identity
of the graph alone; and sub graphs have the identity their options ask for. -/
theorem c101_store_conc {s : St} {allowed : Store.Shared.Op → Prop} {c : SCfg}
    (hr : Reach Store.Shared.prog allowed s c) :
    Same s.g c.data.g ∧ ∀ i t sg, Ev.res i t (.inr (.graph (.ok sg))) ∈ c.hist → ∃ j ora u d opts,
      Ev.inv i t (j, .inr (.subGraph ora u d opts)) ∈ c.hist ∧ MadeWith true ora.graphUid opts sg := by
  have h := keepsInv (I := IdI s.g) (Post := Store.IdPost) (Same.refl s.g) (fun op _ => Store.keeps_shared op) hr
  refine ⟨h.data, ?_⟩
  intro i t sg hi
  obtain ⟨op, h1, h2⟩ := h.res i t _ hi
  obtain ⟨j, ora, u, d, opts, rfl, h3⟩ := h2 sg rfl
  exact ⟨j, ora, u, d, opts, h1, h3⟩

/-- Non-vacuity: a store with a graph, and one that was given a graph and then nil. -/
example :
    let r := Store.create Heap.empty ⟨9, "f"⟩ ⟨8, "k"⟩ [.withGraph (some (exSt true).g), .withUID (some ⟨1, "u"⟩)]
    let r' := Store.create Heap.empty ⟨9, "f"⟩ ⟨8, "k"⟩ [.withGraph (some (exSt true).g), .withUID none, .withGraph none]
    r.1 = ⟨1, "u"⟩ ∧ r.2.g = (exSt true).g ∧ r'.1 = ⟨9, "f"⟩ ∧ r'.2.g.uid = ⟨8, "k"⟩ ∧ kind r'.2.g.b = false :=
  ⟨rfl, rfl, rfl, rfl, rfl⟩

/-- Non-vacuity: one store adds an entity while another deletes one and the graph is asked for a sub graph. -/
example : (exec Store.Shared.prog (.init (exSt true))
    ([.call 0 (0, .inl (.add Order.id (exE 1 "y" "x") []))] ++ taus 0 11 ++
     [.call 2 (0, .inr (.subGraph exOra uA 0 [.withDOTID "d"]))] ++ taus 2 6 ++
     [.call 1 (1, .inl (.delete uC))] ++ taus 1 8 ++ taus 2 1 ++ [.ret 2])).map (fun c =>
        (c.data.g.dotid, (c.calls 0).isSome && (c.calls 1).isSome, c.hist.filterMap fun e => match e with
        | .res _ _ (.inr (.graph (.ok sg))) => some (sg.uid.str, sg.dotid)
        | _ => none)) = some ("graph", true, [("sub", "d")]) := by decide

/-! ## Space values -/

/-- C101: `SetDOTID` on entities, resources and objects, called any number of times, changes the DOTID and nothing
else; the last call counts. -/
theorem c101_space (l : List String) (e : Space.Entity) (r : Space.Resource) (x : Space.Object) :
    l.foldl Space.Entity.setDOTID e = ⟨e.uid, e.typ, l.getLast?.getD e.dotid, e.attrs⟩ ∧
    l.foldl Space.Resource.setDOTID r =
      ⟨r.uid, r.typ, r.name, r.group, r.version, r.kind, r.namespaced, l.getLast?.getD r.dotid, r.attrs⟩ ∧
    l.foldl Space.Object.setDOTID x = ⟨x.uid, x.typ, x.name, x.ns, x.res, l.getLast?.getD x.dotid, x.attrs⟩ := by
  induction l generalizing e r x with
  | nil => exact ⟨rfl, rfl, rfl⟩
  | cons a l ih =>
    obtain ⟨h1, h2, h3⟩ := ih (e.setDOTID a) (r.setDOTID a) (x.setDOTID a)
    have hl : ∀ d, (a :: l).getLast?.getD d = l.getLast?.getD a := by
      intro d
      cases l with
      | nil => rfl
      | cons b l => simp [List.getLast?_eq_some_getLast]
    rw [List.foldl_cons, List.foldl_cons, List.foldl_cons, h1, h2, h3, hl, hl, hl]
    exact ⟨rfl, rfl, rfl⟩

/-- Non-vacuity: an object whose DOTID is set twice. -/
example : ["a", "b"].foldl Space.Object.setDOTID ⟨⟨1, "u"⟩, "t", "n", "ns", none, "d", 0⟩ =
    ⟨⟨1, "u"⟩, "t", "n", "ns", none, "b", 0⟩ := rfl

/-! ## Subscriptions -/

/-- C101: a subscription that `Sub` has returned has the ID and the topic `Sub` was called with, from then on, whatever
else happens to the broker. -/
theorem c101_subscription {cap : Int} {s : Broker.St} (h : Broker.Reach cap Broker.Any s) {x : Nat} {t u : String}
    (ho : s.ops x = some (.sub t u)) (hr : Broker.Ev.ret x .sub ∈ s.log) :
    ∃ o, s.b.sub x = some o ∧ o.id = u ∧ o.topic = t := by
  obtain ⟨o, hx⟩ := Option.isSome_iff_exists.mp (h.made x (.inr hr))
  have := (h.toInv.mem.subs x o hx).1
  rw [ho] at this
  cases this
  exact ⟨o, hx, rfl, rfl⟩

/-- C101, statement by statement. -/
theorem c101_stmt_subscription {cap : Int} {s : BrokerLock.St} (h : BrokerLock.Reach cap BrokerLock.Any s) {x : Nat}
    {t u : String} (ho : s.ops x = some (.sub t u)) (hr : Broker.Ev.ret x .sub ∈ s.log) :
    ∃ o, s.b.sub x = some o ∧ o.id = u ∧ o.topic = t := by
  obtain ⟨c, h1, h2⟩ := BrokerLock.sim_any h
  rw [← h2.log] at hr
  rw [← h2.ops] at ho
  have hb : c.b.sub = s.b.sub := by rw [h2.b]; rfl
  rw [← hb]
  exact c101_subscription h1 ho hr

-- two subscriptions with the same ID on different topics; then the first is unsubscribed and the broker closed
example : let s := Broker.run 1 (opening ++ subscribe 2 "t" "u" ++ subscribe 3 "v" "u" ++ unsubscribe 4 2 ++
      [.call .close, .step 6 .go])
    Broker.Reach 1 Broker.Any s ∧ s.ops 2 = some (.sub "t" "u") ∧ Broker.Ev.ret 2 .sub ∈ s.log ∧
      s.ops 3 = some (.sub "v" "u") ∧ Broker.Ev.ret 3 .sub ∈ s.log ∧ s.b.connected = false :=
  ⟨Broker.reach_run rfl, rfl, by decide, rfl, by decide, rfl⟩

-- a subscription, and another call in the middle of `Sub`
example : let s := Lock.run 2 (Lock.opens 0 ++ Lock.subscribes 2 "t" "u" ++
      [.call (.sub "t" "v")] ++ Lock.reads 3 ++ [.lock 3, .lock 3, .stmt 3 ""])
    BrokerLock.Reach 2 BrokerLock.Any s ∧ s.ops 2 = some (.sub "t" "u") ∧ Broker.Ev.ret 2 .sub ∈ s.log ∧
      (s.calls 3).isSome = true :=
  ⟨Lock.reach_run rfl, rfl, by decide, rfl⟩

end Netscrape.Props
