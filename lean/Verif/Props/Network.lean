import Verif.Lemmas.NetworkDigest
import Verif.Props.Digest

/-!
# From `Ingest` into a store
-/

namespace Netscrape.Props
open Netscrape.Network Netscrape.Spec.Network Netscrape.Spec.Pipeline Netscrape.Spec.Store
open Netscrape.Broker (Msg Ev Op Act)
open Netscrape.Spec.Broker Netscrape.Digest
open Netscrape.Marshal (Value)

/-! ## C93 -/

private theorem run_ok {d : Bool} (l : List (Item × Choice × Msg)) : ∀ {vs : List Item} {s : Graph.St},
    NInv d vs s → (∀ x ∈ l, (∃ ctx t, Ingested x.1.1 x.1.2 ctx t x.2.2) ∧ ValidValue x.1.1 x.1.2) →
    Orderly d (vs ++ l.map Prod.fst) → nodes (vs ++ l.map Prod.fst) ≤ 2 ^ 63 →
    (∀ r ∈ results s (l.map Prod.snd), r = .ok ()) ∧
      NInv d (vs ++ l.map Prod.fst) (Network.run s (l.map Prod.snd)) := by
  induction l with
  | nil => intro vs s hi _ _ _; exact ⟨nofun, by rw [List.map_nil, List.append_nil]; exact hi⟩
  | cons x l ih =>
    intro vs s hi hall ho hk
    obtain ⟨⟨ctx, t, hg⟩, hv⟩ := hall x List.mem_cons_self
    have hsplit : vs ++ (x :: l).map Prod.fst = (vs ++ [x.1]) ++ l.map Prod.fst := by simp
    have hx := ho vs x.1 (l.map Prod.fst) rfl
    have hk' : (nodeOf x.1).isSome = true → nodes vs < 2 ^ 63 := by
      intro hnode
      rw [hsplit] at hk
      have h1 : nodes (vs ++ [x.1]) ≤ nodes ((vs ++ [x.1]) ++ l.map Prod.fst) := by
        unfold nodes; rw [List.countP_append (l₁ := vs ++ [x.1])]; omega
      rw [nodes_snoc, if_pos hnode] at h1
      omega
    obtain ⟨s', h1, h2⟩ := handle_ok hi hk' hg hv hx x.2.1
    obtain ⟨h3, h4⟩ := ih h2 (fun y hy => hall y (List.mem_cons_of_mem _ hy)) (hsplit ▸ ho) (hsplit ▸ hk)
    constructor
    · intro r hr
      simp only [List.map_cons, Network.results, h1] at hr
      rcases List.mem_cons.mp hr with rfl | hr
      · rfl
      · exact h3 r hr
    · rw [hsplit]
      simp only [List.map_cons, Network.run, List.foldl_cons, h1]
      exact h4

/-- C93: values that were ingested, each with its type and the JSON marshaler, and handed to the handler in an
order in which they can be stored, are all stored: the handler returns nil for each of them, and then a store that
was new holds exactly the network they describe. -/
theorem c93_builds {d : Bool} {s₀ : Graph.St} (h0 : Start d s₀) (l : List (Item × Choice × Msg))
    (hall : ∀ x ∈ l, (∃ ctx t, Ingested x.1.1 x.1.2 ctx t x.2.2) ∧ ValidValue x.1.1 x.1.2)
    (ho : Orderly d (l.map Prod.fst)) (hk : nodes (l.map Prod.fst) ≤ 2 ^ 63) :
    (∀ r ∈ results s₀ (l.map Prod.snd), r = .ok ()) ∧
      Holds d (l.map Prod.fst) (Network.run s₀ (l.map Prod.snd)) := by
  obtain ⟨h1, h2⟩ := run_ok l (ninv_start h0) hall (by simpa using ho) (by simpa using hk)
  exact ⟨h1, by simpa using h2.holds⟩

/-- C93: and what the handler does with a value that does not fit: an entity, resource or object whose UID is
there already is refused with `ErrAlreadyExists`, a link with a missing end with `ErrEntityNotFound`; a link
between nodes that are linked already is accepted. In these cases the store still holds the same network. A link
from a node to itself makes the handler panic. -/
theorem c93_rejects {d : Bool} {s₀ : Graph.St} (h0 : Start d s₀) (l : List (Item × Choice × Msg))
    (hall : ∀ x ∈ l, (∃ ctx t, Ingested x.1.1 x.1.2 ctx t x.2.2) ∧ ValidValue x.1.1 x.1.2)
    (ho : Orderly d (l.map Prod.fst)) (hk : nodes (l.map Prod.fst) < 2 ^ 63)
    {v : Item} {ctx : Nat} {t : String} {m : Msg} (hg : Ingested v.1 v.2 ctx t m) (hv : ValidValue v.1 v.2)
    (c : Choice) :
    let s := Network.run s₀ (l.map Prod.snd)
    let vs := l.map Prod.fst
    (∀ u typ a, nodeOf v = some (u, typ, a) → HasNode vs u →
      ∃ s', handle s c m = (.err (.store .alreadyExists), s') ∧ Holds d vs s') ∧
    (∀ f t a, edgeOf v = some (f, t, a) →
      ((¬ HasNode vs f ∨ ¬ HasNode vs t) →
        ∃ s', handle s c m = (.err (.store .entityNotFound), s') ∧ Holds d vs s') ∧
      (f ≠ t → HasEdge d vs f t → ∃ s', handle s c m = (.ok (), s') ∧ Holds d vs s') ∧
      (f = t → HasNode vs f → (handle s c m).1 = .panic)) := by
  obtain ⟨-, h2⟩ := run_ok l (ninv_start h0) hall (by simpa using ho) (by simpa using Nat.le_of_lt hk)
  rw [List.nil_append] at h2
  exact handle_not h2 hk hg hv c

private theorem zipped {src : Nat → Item} : ∀ (z : List (Nat × Msg)) (l : List (Choice × Msg)),
    l.map Prod.snd = z.map Prod.snd → ∃ w : List (Item × Choice × Msg),
      w.map Prod.fst = (z.map Prod.fst).map src ∧ w.map Prod.snd = l ∧
      ∀ x ∈ w, ∃ p, (p, x.2.2) ∈ z ∧ x.1 = src p
  | [], [], _ => ⟨[], rfl, rfl, nofun⟩
  | [], _ :: _, h => nomatch h
  | _ :: _, [], h => nomatch h
  | (p, m) :: z, (c, m') :: l, h => by
    simp only [List.map_cons, List.cons.injEq] at h
    obtain ⟨rfl, h⟩ := h
    obtain ⟨w, h1, h2, h3⟩ := zipped (src := src) z l h
    refine ⟨(src p, c, m') :: w, by simp [h1], by simp [h2], ?_⟩
    intro x hx
    rcases List.mem_cons.mp hx with rfl | hx
    · exact ⟨p, List.mem_cons_self, rfl⟩
    · obtain ⟨q, h4, h5⟩ := h3 x hx
      exact ⟨q, List.mem_cons_of_mem _ h4, h5⟩

private theorem orderly_prefix {d : Bool} {vs ws : List Item} (h : Orderly d ws) (hp : vs <+: ws) : Orderly d vs := by
  obtain ⟨r, rfl⟩ := hp
  intro b v a hv
  exact h b v (a ++ r) (by rw [hv]; simp)

private theorem nodes_prefix {vs ws : List Item} (hp : vs <+: ws) : nodes vs ≤ nodes ws := by
  obtain ⟨r, rfl⟩ := hp
  unfold nodes
  rw [List.countP_append]
  omega

/-- Whatever was accepted on the topic of a subscription, with the broker not closed since, was put on its
channel. -/
theorem accepted_sent {cap : Int} {s : Broker.St} (hr : Broker.Reach cap Broker.Any s) {x p c : Nat} {t u : String} {m : Msg}
    {o : Broker.Sub} (hox : s.b.sub x = some o) (hx : s.ops x = some (.sub t u)) (hcx : ¬ ClosedAfter x s.log)
    (hp : s.ops p = some (.pub c t m)) (hret : Ev.ret p .nil ∈ s.log) (hc : ¬ ClosedAfter p s.log)
    (hd : s.b.done c = false) : p ∈ sentOn o.queue.msg s.log := by
  have h2 : o.topic = t := by
    have h1 := (hr.toInv.mem.subs x o hox).1
    rw [hx] at h1
    injection h1 with h1; injection h1 with h1; exact h1.symm
  have hsent : ∃ ch, sentBy p s.log = [ch] := by
    rcases (c51_published_partial hr hp hret).2 rfl with ⟨ch, g, -⟩ | ⟨-, -, g | g⟩
    · exact ⟨ch, g⟩
    · exact (hc g).elim
    · rw [hd] at g; cases g
  obtain ⟨ch, hch⟩ := hsent
  have hev : Ev.sent p ch ∈ s.log := by
    have : ch ∈ sentBy p s.log := by rw [hch]; simp
    obtain ⟨e, he, g⟩ := List.mem_filterMap.mp this
    cases e with
    | sent q c' =>
      simp only at g
      split at g
      · cases g; subst_vars; exact he
      · cases g
    | _ => cases g
  obtain ⟨q, hq, hcur⟩ := hr.toTopic.sent p ch c m t hev hp
  have hcur := hcur.resolve_left hc
  have hsub := (hr.toTopic.sub _ o hox).resolve_left hcx
  rw [h2, hcur] at hsub
  cases hsub
  exact List.mem_filterMap.mpr ⟨_, hev, by simp [hq]⟩

/-- C93: if everything published on a topic was ingested with its type and the JSON marshaler (`src` says which
call ingested what), `Digest` runs on a subscription to the topic, and nobody else receives on the topic, then the
handler has been given the values that reached the topic first, in their order. If they reached the topic in an
order in which they can be stored, the handler returned nil each time, and a store that was new holds exactly the
network they describe.

Nothing is left out: whenever `Digest` is about to receive, and the broker was not closed since the
subscription was made, every value whose `Ingest` was accepted (the broker was not closed since, its context not
cancelled) is in the store or still waits on the topic. And at any time the value of every message given to the
handler is among those stored. -/
theorem c93_digests {cap : Int} {ctx x : Nat} {dg : DSt} (h : DReach cap ctx x dg) {t u : String}
    (hx : dg.s.ops x = some (.sub t u)) {src : Nat → Item}
    (hall : ∀ p c m, dg.s.ops p = some (.pub c t m) →
      Ingested (src p).1 (src p).2 c t m ∧ ValidValue (src p).1 (src p).2)
    (honly : ∀ r c y w, dg.s.ops r = some (.receive c y) → dg.s.ops y = some (.sub t w) → r ∈ dg.recvs) :
    ∃ ch ps, OnTopic dg.s.ops ch t ∧ ps <+: sentOn ch dg.s.log ∧
      (∀ {d : Bool} {s₀ : Graph.St}, Start d s₀ → Orderly d ((sentOn ch dg.s.log).map src) →
        nodes ((sentOn ch dg.s.log).map src) ≤ 2 ^ 63 →
        ∀ l : List (Choice × Msg), l.map Prod.snd = handled dg →
          (∀ r ∈ results s₀ l, r = .ok ()) ∧ Holds d (ps.map src) (Network.run s₀ l)) ∧
      (dg.pos = .start → ¬ ClosedAfter x dg.s.log → ∀ p c m, dg.s.ops p = some (.pub c t m) →
        Ev.ret p .nil ∈ dg.s.log → ¬ ClosedAfter p dg.s.log → dg.s.b.done c = false →
        p ∈ ps ∨ takers p dg.s.log = []) ∧
      ∀ r ∈ dg.recvs, handledBy r dg.s.log ≠ [] → ∀ p ∈ tookBy r dg.s.log, p ∈ ps := by
  have hr := h.reach
  have hl := hr.toLog.1
  obtain ⟨o, hox⟩ := Option.isSome_iff_exists.mp h.inv.sub
  obtain ⟨h1, h2, z, h3, h4, h5, h6, h7, h8⟩ := digest_pairs h hx honly hox
  refine ⟨o.queue.msg, z.map Prod.fst, h1, h3.trans h4, ?_, ?_, h8⟩
  · intro d s₀ h0 ho hk l hm
    obtain ⟨w, g1, g2, g3⟩ := zipped (src := src) z l (by rw [hm, h6])
    have hpre : (z.map Prod.fst).map src <+: (sentOn o.queue.msg dg.s.log).map src := (h3.trans h4).map src
    have := c93_builds h0 w ?_ (g1 ▸ orderly_prefix ho hpre) (g1 ▸ Nat.le_trans (nodes_prefix hpre) hk)
    · rwa [g1, g2] at this
    · intro y hy
      obtain ⟨p, k1, k2⟩ := g3 y hy
      obtain ⟨c, k3⟩ := h7 _ k1
      obtain ⟨k4, k5⟩ := hall p c _ k3
      rw [k2]
      exact ⟨⟨c, t, k4⟩, k5⟩
  · intro hs hcx p c m hp hret hc hd
    rw [h5 hs]
    have hin := accepted_sent hr hox hx hcx hp hret hc hd
    rw [hl.chan, List.mem_append] at hin
    rcases hin with hin | hin
    · exact .inl hin
    · right
      obtain ⟨y, hy, rfl⟩ := List.mem_map.mp hin
      exact (hl.buf1 _ _ _ hy).2

/-! An example: two entities and a link between them, with attributes. -/

def netHeap : Heap := (Heap.empty.alloc (GoMap.empty.set "k" "v")).2

def netItem (p : Nat) : Item :=
  (netHeap, if p = 3 then .entity ⟨⟨1, "a"⟩, "t", "", 0⟩ else if p = 4 then .entity ⟨⟨2, "b"⟩, "t", "", 0⟩
    else .link ⟨⟨3, "l"⟩, ⟨1, "a"⟩, ⟨2, "b"⟩, 0⟩)

def netPublished (p : Nat) : List (Nat × Nat × String × Msg) :=
  published (Pipeline.Ingester.ingest (Pipeline.newIngester [])
    ⟨fun _ => Pipeline.jsonMarshaler netHeap .id, fun _ _ _ _ => .ok (), Order.id, Order.id⟩ 0 (some 0) "t"
    (typeOf (netItem p).2) (asData (netItem p).2) [Pipeline.withMarshaler (some 0)]).2

def netMsg (p : Nat) : Msg := ((netPublished p).map (·.2.2.2)).headD ⟨"", 0, "", GoMap.empty⟩

theorem netItem_valid (p : Nat) : ValidValue (netItem p).1 (netItem p).2 := by
  have hv : ∀ s, s ∈ ["a", "b", "t", "k", "v", "l"] → Spec.Json.Valid s := by
    intro s hs
    refine (Marshal.san_iff s).mp ?_
    revert s; decide
  have hm : Spec.Json.ValidMap (netHeap.read 0) := by
    intro k v hk
    have : netHeap.read 0 = GoMap.empty.set "k" "v" := by decide
    rw [this, GoMap.get?_set] at hk
    split at hk
    · cases hk; subst k; exact ⟨hv _ (by simp), hv _ (by simp)⟩
    · cases hk
  unfold netItem
  split
  · exact ⟨hv _ (by simp), hv _ (by simp), hm⟩
  · split
    · exact ⟨hv _ (by simp), hv _ (by simp), hm⟩
    · exact ⟨hv _ (by simp), hv _ (by simp), hv _ (by simp), hm⟩

theorem netItem_ingested {p : Nat} (h : (0, 0, "t", netMsg p) ∈ netPublished p) :
    Ingested (netItem p).1 (netItem p).2 0 "t" (netMsg p) :=
  ⟨Pipeline.newIngester [], ⟨fun _ => Pipeline.jsonMarshaler netHeap .id, fun _ _ _ _ => .ok (), Order.id, Order.id⟩,
    0, 0, [Pipeline.withMarshaler (some 0)], .id, rfl, rfl, h⟩

def netBefore : DSt :=
  digesting 5 (opening ++ subscribe 2 "t" "u" ++ publish 3 "t" (netMsg 3) ++ publish 4 "t" (netMsg 4) ++
    publish 5 "t" (netMsg 5))

def netDigest : DSt :=
  drun 7 2 netBefore (digestOne 6 none ++ digestOne 7 none ++ digestOne 8 none)

theorem netOps (n : Nat) : netDigest.s.ops (n + 9) = none := rfl

theorem netOrderly : Orderly false ([3, 4, 5].map netItem) := by
  intro before v after hs
  rcases before with _ | ⟨b1, _ | ⟨b2, _ | ⟨b3, bs⟩⟩⟩
  · cases hs
    refine ⟨?_, nofun⟩
    rintro u typ a - ⟨w, hw, -⟩
    cases hw
  · cases hs
    refine ⟨?_, nofun⟩
    rintro u typ a he ⟨w, hw, typ', a', hn⟩
    cases he
    rcases List.mem_singleton.mp hw
    have hn : some "a" = some "b" := congrArg (Option.map fun x : String × String × AttrMap => x.1) hn
    exact absurd hn (by decide)
  · cases hs
    refine ⟨nofun, ?_⟩
    rintro f t a he
    cases he
    refine ⟨by decide, ⟨_, List.mem_cons_self, _, _, rfl⟩,
      ⟨_, List.mem_cons_of_mem _ List.mem_cons_self, _, _, rfl⟩, ?_⟩
    rintro ⟨w, hw, a', he | ⟨-, he⟩⟩
    · rcases List.mem_cons.mp hw with rfl | hw
      · cases he
      · rcases List.mem_singleton.mp hw; cases he
    · rcases List.mem_cons.mp hw with rfl | hw
      · cases he
      · rcases List.mem_singleton.mp hw; cases he
  · simp at hs

-- they are ingested, digested and handed to the handler
example : DReach 5 7 2 netDigest ∧ netDigest.s.ops 2 = some (.sub "t" "u") ∧
    (∀ p c m, netDigest.s.ops p = some (.pub c "t" m) → Ingested (netItem p).1 (netItem p).2 c "t" m ∧
      ValidValue (netItem p).1 (netItem p).2) ∧
    (∀ r c y w, netDigest.s.ops r = some (.receive c y) → netDigest.s.ops y = some (.sub "t" w) →
      r ∈ netDigest.recvs) ∧
    sentOn 2 netDigest.s.log = [3, 4, 5] ∧ handled netDigest = [netMsg 3, netMsg 4, netMsg 5] ∧
    Orderly false ([3, 4, 5].map netItem) ∧ nodes ([3, 4, 5].map netItem) = 2 ∧
    HasEdge false ([3, 4, 5].map netItem) "b" "a" ∧ (netHeap.read 0).get? "k" = some "v" := by
  refine ⟨dreach_run (.init _ (Broker.reach_run (by decide +kernel)) (by decide +kernel)) (by decide +kernel),
    by decide +kernel, ?_, ?_, by decide +kernel, by decide +kernel, netOrderly, by decide +kernel,
    ⟨netItem 5, by simp, _, .inr ⟨rfl, rfl⟩⟩, by decide +kernel⟩
  · intro p c m hp
    rcases p with _ | _ | _ | _ | _ | _ | _ | _ | _ | p
    · cases hp
    · cases hp
    · cases hp
    · cases hp; exact ⟨netItem_ingested (by decide +kernel), netItem_valid _⟩
    · cases hp; exact ⟨netItem_ingested (by decide +kernel), netItem_valid _⟩
    · cases hp; exact ⟨netItem_ingested (by decide +kernel), netItem_valid _⟩
    · cases hp
    · cases hp
    · cases hp
    · cases hp
  · intro r c y w hr hy
    rcases r with _ | _ | _ | _ | _ | _ | _ | _ | _ | r
    · cases hr
    · cases hr
    · cases hr
    · cases hr
    · cases hr
    · cases hr
    · decide +kernel
    · decide +kernel
    · decide +kernel
    · cases hr

-- with the handler on a new store they make a network of two nodes and an edge, seen from both ends; the first
-- entity once more is refused
example : Start false exStore ∧
    (let c : Choice := ⟨⟨1, 2, 3, .id, .id⟩, .id, ⟨9, "x"⟩, 9⟩
     let s := Network.run exStore ((handled netDigest).map fun m => (c, m))
     ((Graph.edge s.g ⟨7, "b"⟩ ⟨8, "a"⟩).toOption.map fun e => (s.heap.read e.attrs).get? "k") =
      some (some "v") ∧
     HasNode ([3, 4, 5].map netItem) "a" ∧ (handle s c (netMsg 3)).1 = .err (.store .alreadyExists)) :=
  ⟨.default _ _, by decide +kernel, ⟨netItem 3, by simp, _, _, rfl⟩, by decide +kernel⟩

end Netscrape.Props
