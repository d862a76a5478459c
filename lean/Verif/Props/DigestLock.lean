import Verif.Lemmas.DigestLockRun
import Verif.Props.BrokerStmt
import Verif.Props.DigestDrain

/-!
# `Digest` on the in-memory broker, statement by statement

As in `Props/Digest.lean`, `Props/Network.lean` and `Props/DigestDrain.lean`, but with the mutex of the broker explicit
and every access to a field a step of its own. `DReach cap ctx x d` are all states of a broker of capacity `cap` in
which `Digest` was called with context `ctx` on subscription `x`, whatever other callers do meanwhile.
-/

namespace Netscrape.Props
open Netscrape.DigestLock
open Netscrape.BrokerLock (St Act Reach Any sim_any sim_tidy)
open Netscrape.Broker (Msg Ev Op Ret Alt Sub)
open Netscrape.Digest (Pos waiting)
open Netscrape.Spec.Broker Netscrape.Spec.Pipeline Netscrape.Spec.Store
open Netscrape.Marshal (Value)
open Netscrape.Spec.Network hiding handled
open Netscrape.Network

namespace Lock

/-- The state after some steps of the broker and its users, when `Digest` is called. -/
def digesting (cap : Int) (acts : List Act) : DSt := ⟨run cap acts, .start, []⟩

/-- The state after some steps with `Digest` running. -/
def drun (ctx x : Nat) (d : DSt) (acts : List DAct) : DSt := (dexec ctx x d acts).getD d

theorem drun_eq {ctx x : Nat} {d : DSt} {acts : List DAct} (h : (dexec ctx x d acts).isSome = true) :
    dexec ctx x d acts = some (drun ctx x d acts) := by
  obtain ⟨d', hd'⟩ := Option.isSome_iff_exists.mp h
  rw [drun, hd']; rfl

theorem dreach_run {cap : Int} {ctx x : Nat} {d : DSt} {acts : List DAct} (hd : DReach cap ctx x d)
    (h : (dexec ctx x d acts).isSome = true) : DReach cap ctx x (drun ctx x d acts) :=
  DigestLock.dreach_exec hd (drun_eq h)

/-- One message: `Receive` is called (as call `r`), takes it, the handler returns `e`. -/
def digestOne (r : Nat) (e : Option Nat) : List DAct :=
  [.receive, .sys (.step r .go), .sys (.step r .msg), .sys (.step r (.result e)), .sys (.ret r), .resume]

/-- `Unsubscribe` (call `i`) of subscription `x`. -/
def unsubscribes (i x : Nat) : List Act := [.call (.unsubscribe x), .step i .go, .step i .go, .step i .go, .step i .go, .ret i]

end Lock

/-! ## C61 -/

/-- C61, statement by statement: if the context of `Digest` is cancelled, or the session its subscription belongs to is
closed, and the subscription has not been ended, `Digest` can call `Receive` for ever without ever blocking. -/
theorem c61_stmt_spins {cap : Int} {ctx x : Nat} {d : DSt} (h : DReach cap ctx x d) (hn : d.s.b.crashed = false)
    (hp : d.pos = .start) {o : Sub} (hx : d.s.b.sub x = some o) (ha : o.active = true)
    (hc : d.s.b.done ctx = true ∨ d.s.b.isClosed o.queue.exit = true) :
    ∃ (f : Nat → DSt) (acts : Nat → DAct), f 0 = d ∧ Fair ctx x f acts ∧
      (∀ n, own (f n) (acts n)) ∧ ∀ n v, (f n).pos ≠ .returned v := by
  have : ∃ alt, Idle d.s.b ctx x alt := by
    rcases hc with hc | hc
    · exact ⟨.ctx, hn, nofun, ⟨o, hx, ha⟩, fun i => by simp only [Broker.micro, hc]; rfl⟩
    · exact ⟨.exit, hn, nofun, ⟨o, hx, ha⟩, fun i => by simp only [Broker.micro, hx, hc]; rfl⟩
  obtain ⟨alt, hid⟩ := this
  obtain ⟨f, acts, h0, hf⟩ := Spin.run ⟨h, hid, .inl hp⟩
  exact ⟨f, acts, h0, ⟨fun n => (hf n).1, fun n => .inr ⟨n, Nat.le_refl _, (hf n).2.1⟩⟩,
    fun n => (hf n).2.1, fun n => (hf n).2.2⟩

-- the context of `Digest` is cancelled while it waits
example : let d := Lock.digesting 1 (Lock.opens 0 ++ Lock.subscribes 2 "t" "u" ++ [.cancel 7])
    DReach 1 7 2 d ∧ d.s.b.crashed = false ∧ d.s.b.done 7 = true ∧
      d.s.b.sub 2 = some ⟨"u", "t", true, ⟨2, some 0⟩, some 0⟩ :=
  ⟨.init _ (Lock.reach_run rfl) (by decide), rfl, rfl, rfl⟩

/-- C61, statement by statement: after somebody's `Unsubscribe` has returned, `Digest` returns after at most eight more
steps of its own, whatever anybody else does and whatever locks are held; until then it can always make one. -/
theorem c61_stmt_stops_partial {cap : Int} {ctx x : Nat} {d : DSt} (h : DReach cap ctx x d) (he : Ended x d.s) :
    (∀ acts d', dexec ctx x d acts = some d' → ownSteps ctx x d acts ≤ 8) ∧
    (∀ acts d', dexec ctx x d acts = some d' → d'.s.b.crashed = false →
      (∃ v, d'.pos = .returned v) ∨ ∃ a d'', own d' a ∧ dstep ctx x d' a = some d'') ∧
    (∀ f acts, f 0 = d → Fair ctx x f acts → ∃ n v, (f n).pos = .returned v) := by
  obtain ⟨c, hc, hs⟩ := h.sim
  have he' := (ended_iff hs.s x).mpr he
  have hle : ∀ acts d', dexec ctx x d acts = some d' → ownSteps ctx x d acts ≤ 8 := by
    intro acts d' hd
    obtain ⟨acts', c', h1, _, h3⟩ := dexec_sim hs h hc hd
    rw [← h3]
    exact (c61_stops_partial hc he').1 acts' c' h1
  refine ⟨hle, ?_, ?_⟩
  · intro acts d' hd hn
    obtain ⟨acts', c', h1, h2, _⟩ := dexec_sim hs h hc hd
    rcases (c61_stops_partial hc he').2.1 acts' c' h1 (by rw [h2.s.crashed]; exact hn) with ⟨v, hv⟩ | ⟨a, c'', h3, h4⟩
    · exact .inl ⟨v, by rw [← h2.pos]; exact hv⟩
    · obtain ⟨a1, f', h5, _, h6⟩ := own_back h2 (DigestLock.dreach_exec h hd) (Netscrape.Props.dreach_exec hc h1) h3 h4
      exact .inr ⟨a1, f', h5, h6⟩
  · rintro f acts rfl hf
    rcases fair_own hf 0 9 with ⟨n, v, _, hv⟩ | ⟨n, hn⟩
    · exact ⟨n, v, hv⟩
    · have := hle _ _ (window_exec hf.step n 0)
      omega

-- `Digest` waits for a message when the subscription is ended, and somebody holds the mutex
example : let d0 := Lock.digesting 1 (Lock.opens 0 ++ Lock.subscribes 2 "t" "u")
    let acts := [DAct.receive, .sys (.step 3 .go)] ++ (Lock.unsubscribes 4 2 ++ [Act.call .close, Act.lock 6, Act.lock 6]).map .sys
    let d := Lock.drun 7 2 d0 acts
    DReach 1 7 2 d ∧ Ended 2 d.s ∧ d.pos = .waiting 3 ∧ d.s.calls 3 = some (.out (.recvSel 7 2)) ∧ d.s.mu.wr = .held :=
  ⟨Lock.dreach_run (.init _ (Lock.reach_run rfl) (by decide)) (by decide +kernel), ⟨4, .nil, rfl, by decide +kernel⟩, rfl,
    rfl, rfl⟩

/-- C61, statement by statement: the messages `Digest` took were published on one channel of the topic, in the order
they were taken. Every `Receive` but the last returned nil, having handed the message it took, if it took one, to the
handler, which returned nil. If `Digest` returned, then with what the last `Receive` returned, which is an error: the one
its handler returned for the message it took, an ended subscription, or a timeout, in which case the message taken may
have been dropped. -/
theorem c61_stmt_in_order_partial {cap : Int} {ctx x : Nat} {d : DSt} (h : DReach cap ctx x d) :
    (∃ ch, (d.recvs.flatMap fun r => tookBy r d.s.log).Sublist (sentOn ch d.s.log)) ∧
    (∀ r ∈ d.recvs, d.s.ops r = some (.receive ctx x)) ∧
    (∀ cs r, d.recvs = cs ++ [r] → ∀ c ∈ cs, Ev.ret c .nil ∈ d.s.log ∧
      ((handledBy c d.s.log = [] ∧ tookBy c d.s.log = []) ∨
       ∃ p m ctx' t, handledBy c d.s.log = [m] ∧ tookBy c d.s.log = [p] ∧ d.s.ops p = some (.pub ctx' t m) ∧
         Ev.handled c none ∈ d.s.log)) ∧
    (∀ v, d.pos = .returned v → ∃ cs r, d.recvs = cs ++ [r] ∧ Ev.ret r v ∈ d.s.log ∧
      ((v = .inactive ∧ handledBy r d.s.log = [] ∧ tookBy r d.s.log = []) ∨
       (v = .timeout ∧ handledBy r d.s.log = [] ∧ (tookBy r d.s.log).length ≤ 1) ∨
       ∃ p m ctx' t e, handledBy r d.s.log = [m] ∧ tookBy r d.s.log = [p] ∧ d.s.ops p = some (.pub ctx' t m) ∧
         Ev.handled r (some e) ∈ d.s.log ∧ v = .fail e)) := by
  obtain ⟨c, hc, hs⟩ := h.sim
  rw [← hs.s.log, ← hs.s.ops, ← hs.pos, ← hs.recvs]
  exact c61_in_order_partial hc

-- two messages are handled, the handler fails on the second
example : let d0 := Lock.digesting 2 (Lock.opens 0 ++ Lock.subscribes 2 "t" "u" ++ Lock.publishes 3 "t" msgA ++
      Lock.publishes 4 "t" msgB)
    let acts := Lock.digestOne 5 none ++ Lock.digestOne 6 (some 9)
    let d := Lock.drun 7 2 d0 acts
    DReach 2 7 2 d ∧ d.recvs = [5, 6] ∧ d.pos = .returned (.fail 9) ∧
      d.recvs.flatMap (fun r => tookBy r d.s.log) = [3, 4] :=
  ⟨Lock.dreach_run (.init _ (Lock.reach_run rfl) (by decide)) (by decide +kernel), by decide +kernel, rfl,
    by decide +kernel⟩

/-! ## C69 -/

/-- C69, statement by statement: if everything published on a topic was ingested with its type and the JSON marshaler
(`src` says which call ingested what), every handler called for a subscription to the topic gets a message from which
`Unmarshal`, asked for what the message's type says, makes a value like the one ingested; the call that ingested it was
made on this topic, and its value is handed to no other receiver. -/
theorem c69_stmt_end_to_end {cap : Int} {s : St} (h : Reach cap Any s) {t : String} {src : Nat → Heap × Value}
    (hall : ∀ p ctx m, s.ops p = some (.pub ctx t m) →
      Ingested (src p).1 (src p).2 ctx t m ∧ ValidValue (src p).1 (src p).2)
    {r ctx x : Nat} {u : String} {m : Msg} (hr : s.ops r = some (.receive ctx x))
    (hx : s.ops x = some (.sub t u)) (hm : Ev.handle r m ∈ s.log) :
    ∃ p ctx', s.ops p = some (.pub ctx' t m) ∧ takers p s.log = [r] ∧
      ∀ (g : Heap) (c : Transport.Choice), ∃ w g',
        Marshal.unmarshal g c m.data.toList (targetOf m.typ) = .ok (w, g') ∧
        LikeValue (src p).1 (src p).2 g' w ∧ g'.Extends g := by
  obtain ⟨c, h1, h2⟩ := sim_any h
  rw [← h2.ops] at hall hr hx ⊢
  rw [← h2.log] at hm ⊢
  exact c69_end_to_end h1 hall hr hx hm

/-! ## C93 -/

/-- C93, statement by statement: if everything published on a topic was ingested with its type and the JSON marshaler
(`src` says which call ingested what), `Digest` runs on a subscription to the topic, and nobody else receives on the
topic, then the handler has been given the values that reached the topic first, in their order. If they reached the
topic in an order in which they can be stored, the handler returned nil each time, and a store that was new holds
exactly the network they describe.

Nothing is left out: whenever `Digest` is about to receive, and the broker was not closed since the subscription was
made, every value whose `Ingest` was accepted (the broker was not closed since, its context not cancelled) is in the
store or still waits on the topic. And at any time the value of every message given to the handler is among those
stored. -/
theorem c93_stmt_digests {cap : Int} {ctx x : Nat} {dg : DSt} (h : DReach cap ctx x dg) {t u : String}
    (hx : dg.s.ops x = some (.sub t u)) {src : Nat → Item}
    (hall : ∀ p c m, dg.s.ops p = some (.pub c t m) →
      Ingested (src p).1 (src p).2 c t m ∧ ValidValue (src p).1 (src p).2)
    (honly : ∀ r c y w, dg.s.ops r = some (.receive c y) → dg.s.ops y = some (.sub t w) → r ∈ dg.recvs) :
    ∃ ch ps, OnTopic dg.s.ops ch t ∧ ps <+: sentOn ch dg.s.log ∧
      (∀ {d : Bool} {s₀ : Graph.St}, Start d s₀ → Orderly d ((sentOn ch dg.s.log).map src) →
        nodes ((sentOn ch dg.s.log).map src) ≤ 2 ^ 63 →
        ∀ l : List (Choice × Msg), l.map Prod.snd = handled dg →
          (∀ r ∈ results s₀ l, r = .ok ()) ∧ Holds d (ps.map src) (Network.run s₀ l)) ∧
      (dg.pos = .start → ¬ ClosedAfter x dg.s.log → ∀ p c m, dg.s.ops p = some (.pub c t m) →
        Ev.ret p .nil ∈ dg.s.log → ¬ ClosedAfter p dg.s.log → dg.s.b.done c = false →
        p ∈ ps ∨ takers p dg.s.log = []) ∧
      ∀ r ∈ dg.recvs, handledBy r dg.s.log ≠ [] → ∀ p ∈ tookBy r dg.s.log, p ∈ ps := by
  obtain ⟨c, hc, hs⟩ := h.sim
  have hd : c.s.b.done = dg.s.b.done := by rw [hs.s.b]; rfl
  unfold handled
  rw [← hs.s.ops] at hx hall
  rw [← hs.s.ops, ← hs.recvs] at honly
  rw [← hs.s.log, ← hs.s.ops, ← hs.pos, ← hs.recvs, ← hd]
  exact c93_digests hc hx hall honly

def Lock.netBefore : DSt :=
  Lock.digesting 5 (Lock.opens 0 ++ Lock.subscribes 2 "t" "u" ++ Lock.publishes 3 "t" (netMsg 3) ++
    Lock.publishes 4 "t" (netMsg 4) ++ Lock.publishes 5 "t" (netMsg 5))

def Lock.netSteps : List DAct := Lock.digestOne 6 none ++ Lock.digestOne 7 none ++ Lock.digestOne 8 none ++
  [.receive, .sys (.step 9 .go), .sys (.step 9 .timeout), .sys (.step 9 .go), .sys (.ret 9), .resume]

def Lock.netAfter : DSt := Lock.drun 7 2 Lock.netBefore Lock.netSteps

theorem Lock.netBefore_reach : DReach 5 7 2 Lock.netBefore := .init _ (Lock.reach_run (by decide +kernel)) (by decide +kernel)

theorem Lock.netAfter_run : dexec 7 2 Lock.netBefore Lock.netSteps = some Lock.netAfter := Lock.drun_eq (by decide +kernel)

theorem Lock.netAfter_pubs {p c : Nat} {m : Msg} (hp : Lock.netAfter.s.ops p = some (.pub c "t" m)) :
    Ingested (netItem p).1 (netItem p).2 c "t" m ∧ ValidValue (netItem p).1 (netItem p).2 := by
  rcases p with _ | _ | _ | _ | _ | _ | _ | _ | _ | _ | p
  · cases hp
  · cases hp
  · cases hp
  · cases hp; exact ⟨netItem_ingested (by decide +kernel), netItem_valid _⟩
  · cases hp; exact ⟨netItem_ingested (by decide +kernel), netItem_valid _⟩
  · cases hp; exact ⟨netItem_ingested (by decide +kernel), netItem_valid _⟩
  · cases hp
  · cases hp
  · cases hp
  · cases hp
  · cases hp

theorem Lock.netAfter_recvs {r c y : Nat} (hr : Lock.netAfter.s.ops r = some (.receive c y)) : r ∈ Lock.netAfter.recvs := by
  rcases r with _ | _ | _ | _ | _ | _ | _ | _ | _ | _ | r
  · cases hr
  · cases hr
  · cases hr
  · cases hr
  · cases hr
  · cases hr
  · decide +kernel
  · decide +kernel
  · decide +kernel
  · decide +kernel
  · cases hr

-- two entities and a link between them are ingested, digested and handed to the handler
example : DReach 5 7 2 Lock.netAfter ∧ Lock.netAfter.s.ops 2 = some (.sub "t" "u") ∧
    (∀ p c m, Lock.netAfter.s.ops p = some (.pub c "t" m) → Ingested (netItem p).1 (netItem p).2 c "t" m ∧
      ValidValue (netItem p).1 (netItem p).2) ∧
    (∀ r c y w, Lock.netAfter.s.ops r = some (.receive c y) → Lock.netAfter.s.ops y = some (.sub "t" w) →
      r ∈ Lock.netAfter.recvs) ∧
    sentOn 2 Lock.netAfter.s.log = [3, 4, 5] ∧ handled Lock.netAfter = [netMsg 3, netMsg 4, netMsg 5] ∧
    Orderly false ([3, 4, 5].map netItem) ∧ nodes ([3, 4, 5].map netItem) = 2 :=
  ⟨DigestLock.dreach_exec Lock.netBefore_reach Lock.netAfter_run, by decide +kernel, fun _ _ _ => Lock.netAfter_pubs,
    fun _ _ _ _ hr _ => Lock.netAfter_recvs hr, by decide +kernel, by decide +kernel, netOrderly, by decide +kernel⟩

-- for C69: one of them is given to a handler
example : Reach 5 Any Lock.netAfter.s ∧ Lock.netAfter.s.ops 6 = some (.receive 7 2) ∧
    Ev.handle 6 (netMsg 3) ∈ Lock.netAfter.s.log :=
  ⟨(DigestLock.dreach_exec Lock.netBefore_reach Lock.netAfter_run).reach, by decide +kernel, by decide +kernel⟩

/-! ## C94 -/

/-- C94, statement by statement: let a message wait on the channel of `Digest`'s subscription, with `k` others before
it. As long as the context is not cancelled, nobody called `Unsubscribe`, and the session is not closed, after more than
`6 k + 9` steps of its own goroutine `Digest` has given the message to its handler, unless some other receiver took it or
`Digest` has returned. Until then `Digest` always can make a step, whoever holds the mutex, and not just by a timeout. So
in every execution in which it makes steps again and again the message is delivered, or `Digest` returns. -/
theorem c94_stmt_keeps_up {cap : Int} {ctx x : Nat} {d : DSt} (h : DReach cap ctx x d) {o : Broker.Sub}
    (hx : d.s.b.sub x = some o) {pre post : List Nat} {p : Nat}
    (hw : waiting o.queue.msg d.s.log = pre ++ p :: post) :
    (∀ acts d', dexec ctx x d acts = some d' → Undisturbed ctx x d'.s →
      6 * pre.length + 9 < ownSteps ctx x d acts → Delivered p d' ∨ ∃ v, d'.pos = .returned v) ∧
    (∀ acts d', dexec ctx x d acts = some d' → d'.s.b.crashed = false →
      Delivered p d' ∨ (∃ v, d'.pos = .returned v) ∨
      ∃ a d'', own d' a ∧ (∀ r, a ≠ .sys (.step r .timeout)) ∧ dstep ctx x d' a = some d'') ∧
    (∀ f acts, f 0 = d → Fair ctx x f acts → (∀ n, Undisturbed ctx x (f n).s) →
      ∃ n, Delivered p (f n) ∨ ∃ v, (f n).pos = .returned v) := by
  obtain ⟨c, hc, hs⟩ := h.sim
  obtain ⟨k1, k2, -⟩ := c94_keeps_up hc (o := o) (by rw [sub_eq hs.s]; exact hx) (by rw [hs.s.log]; exact hw)
  refine ⟨?_, ?_, ?_⟩
  · intro acts d' he hq hk
    obtain ⟨acts', c', h1, h2, h3⟩ := dexec_sim hs h hc he
    have := k1 acts' c' h1 ((undisturbed_iff h2.s _ _).mpr hq) (by rw [h3]; exact hk)
    rwa [delivered_iff h2, h2.pos] at this
  · intro acts d' he hn
    obtain ⟨acts', c', h1, h2, _⟩ := dexec_sim hs h hc he
    rcases k2 acts' c' h1 (by rw [h2.s.crashed]; exact hn) with h4 | h4 | ⟨a, c'', h4, h5, h6⟩
    · exact .inl ((delivered_iff h2 p).mp h4)
    · rw [h2.pos] at h4; exact .inr (.inl h4)
    · obtain ⟨a1, f', h7, h8, h9⟩ := own_back h2 (DigestLock.dreach_exec h he) (Netscrape.Props.dreach_exec hc h1) h4 h6
      refine .inr (.inr ⟨a1, f', h7, fun r e => ?_, h9⟩)
      obtain ⟨r', e'⟩ := h8 ⟨r, e⟩
      exact h5 r' e'
  · rintro f acts rfl hf hq
    obtain ⟨hp, -⟩ := Digest.ahead_le hw
    obtain ⟨n, _, h1⟩ := fair_drains h hf hq hx hp
    exact ⟨n, h1⟩

private def exBefore : DSt :=
  Lock.digesting 2 (Lock.opens 0 ++ Lock.subscribes 2 "t" "u" ++ Lock.publishes 3 "t" msgA ++ Lock.publishes 4 "t" msgB)

private def exSteps : List DAct := Lock.digestOne 5 none ++ Lock.digestOne 6 none ++
  [.receive, .sys (.step 7 .go), .sys (.step 7 .timeout), .sys (.step 7 .go), .sys (.ret 7), .resume]

private def exAfter : DSt := Lock.drun 7 2 exBefore exSteps

private theorem exAfter_run : dexec 7 2 exBefore exSteps = some exAfter := Lock.drun_eq (by decide +kernel)

-- two messages wait; `Digest` handles both and then times out
example : DReach 2 7 2 exBefore ∧ exBefore.s.b.sub 2 = some ⟨"u", "t", true, ⟨2, some 0⟩, some 0⟩ ∧
    waiting 2 exBefore.s.log = [3] ++ 4 :: [] ∧
    ∃ f acts, f 0 = exBefore ∧ Fair 7 2 f acts ∧ (∀ n, Undisturbed 7 2 (f n).s) ∧
      ∃ n, takers 4 (f n).s.log = [6] ∧ handledBy 6 (f n).s.log = [msgB] := by
  have hd : DReach 2 7 2 exBefore := .init _ (Lock.reach_run rfl) (by decide +kernel)
  have hops : ∀ u x, exAfter.s.ops u ≠ some (.unsubscribe x) := by
    intro u x
    rcases u with _ | _ | _ | _ | _ | _ | _ | _ | u <;> exact fun h => nomatch h
  have hq : Undisturbed 7 2 exAfter.s := ⟨by decide +kernel, fun u => hops u 2, fun o ho => by
    cases ho; decide +kernel⟩
  obtain ⟨f, a, h0, hf, h1, n, hn⟩ := fair_run (c := 8) (by decide) hd exAfter_run ⟨.timeout, by decide +kernel⟩
    (by decide +kernel) hq
  exact ⟨hd, by decide +kernel, by decide +kernel, f, a, h0, hf, fun n => (h1 n).1, n, by rw [hn]; decide +kernel,
    by rw [hn]; decide +kernel⟩

/-- C94, statement by statement: if whenever `Close` finds the broker open every topic has had a subscriber and no `Pub`
or `Sub` is about to look up its topic, the exit channel of a subscription is closed only by closing the broker after the
subscription was made. -/
theorem c94_stmt_undisturbed {cap : Int} {s : St} (h : Reach cap Spec.BrokerLock.TidyClose s) {ctx x : Nat}
    (hd : s.b.done ctx = false) (hu : ∀ u, s.ops u ≠ some (.unsubscribe x)) (hc : ¬ ClosedAfter x s.log) :
    Undisturbed ctx x s := by
  obtain ⟨c, h1, h2⟩ := sim_tidy h
  have hd' : c.b.done = s.b.done := by rw [h2.b]; rfl
  rw [← undisturbed_iff h2]
  exact c94_undisturbed h1 (by rw [hd']; exact hd) (by rw [h2.ops]; exact hu) (by rw [h2.log]; exact hc)

-- the broker is closed and opened again before the subscription is made
example : let s := (Lock.execIf Lock.tidyClose (.init 1) (Lock.opens 0 ++ Lock.subscribes 2 "t" "u" ++
      Lock.closesOne 3 "t" "u" ++ Lock.opens 4 ++ Lock.subscribes 6 "t" "v")).getD (.init 1)
    Reach 1 Spec.BrokerLock.TidyClose s ∧ s.b.done 0 = false ∧ (∀ u, s.ops u ≠ some (.unsubscribe 6)) ∧
      ¬ ClosedAfter 6 s.log ∧ ClosedAfter 2 s.log := by
  intro s
  refine ⟨Lock.reach_checked Lock.tidyClose_ok rfl, rfl, ?_, ?_, ?_⟩
  · intro u
    rcases u with _ | _ | _ | _ | _ | _ | _ | u <;> exact fun h => nomatch h
  · rintro ⟨j, l1, l2, l3, h⟩
    have hl : s.log = [.call 0, .opened 0, .ret 0 .nil, .call 2, .ret 2 .sub, .call 3, .closed 3, .ret 3 .nil, .call 4,
      .opened 4, .ret 4 .nil] ++ [.call 6, .ret 6 .sub] := by decide +kernel
    rw [hl] at h
    rcases List.append_eq_append_iff.mp h with ⟨k, h1, h2⟩ | ⟨k, h1, h2⟩
    · have : Ev.closed j ∈ [Ev.call 6, Ev.ret 6 .sub] := by rw [h2]; simp
      simp at this
    · have : Ev.call 6 ∈ [Ev.call 0, .opened 0, .ret 0 .nil, .call 2, .ret 2 .sub, .call 3, .closed 3, .ret 3 .nil, .call 4,
        .opened 4, .ret 4 .nil] ∨ Ev.closed j ∈ [Ev.call 6, Ev.ret 6 .sub] := by
        cases k with
        | nil => right; rw [show [Ev.call 6, Ev.ret 6 .sub] = _ from h2.symm]; simp
        | cons e k => left; rw [h1]; simp at h2 ⊢; simp [h2.1]
      simp at this
  · exact ⟨3, [.call 0, .opened 0, .ret 0 .nil], [.ret 2 .sub, .call 3], [.ret 3 .nil, .call 4, .opened 4, .ret 4 .nil,
      .call 6, .ret 6 .sub], by decide +kernel⟩

/-- C94, with what the pipeline does (C93), statement by statement: let everything published on a topic be ingested with
its type and the JSON marshaler (`src` says which call ingested what), and let `Digest`, alone on the topic, make steps
again and again, undisturbed. Then for every value whose `Ingest` was accepted there comes a time when a store, new at
first and filled by the handler, holds exactly the network described by a beginning of the values that reached the
topic, and that value is among them; unless `Digest` returns, or the values reach the topic in an order in which they
cannot be stored. -/
theorem c94_stmt_stored {cap : Int} {ctx x : Nat} {f : Nat → DSt} {acts : Nat → DAct} (h : DReach cap ctx x (f 0))
    (hf : Fair ctx x f acts) (hq : ∀ n, Undisturbed ctx x (f n).s) {t u : String}
    (hx : (f 0).s.ops x = some (.sub t u)) {src : Nat → Item}
    (hall : ∀ n p c m, (f n).s.ops p = some (.pub c t m) →
      Ingested (src p).1 (src p).2 c t m ∧ ValidValue (src p).1 (src p).2)
    (honly : ∀ n r c y w, (f n).s.ops r = some (.receive c y) → (f n).s.ops y = some (.sub t w) → r ∈ (f n).recvs)
    {n p c : Nat} {m : Msg} (hp : (f n).s.ops p = some (.pub c t m)) (hret : Ev.ret p .nil ∈ (f n).s.log)
    (hcx : ¬ ClosedAfter x (f n).s.log) (hcp : ¬ ClosedAfter p (f n).s.log) (hdc : (f n).s.b.done c = false) :
    ∃ N, n ≤ N ∧ ((∃ v, (f N).pos = .returned v) ∨
      ∃ ch ps, OnTopic (f N).s.ops ch t ∧ ps <+: sentOn ch (f N).s.log ∧ p ∈ ps ∧
        ∀ {d : Bool} {s₀ : Graph.St}, Start d s₀ →
          Orderly d ((sentOn ch (f N).s.log).map src) →
          nodes ((sentOn ch (f N).s.log).map src) ≤ 2 ^ 63 →
          ∀ l : List (Choice × Msg), l.map Prod.snd = handled (f N) →
            (∀ r ∈ results s₀ l, r = .ok ()) ∧ Holds d (ps.map src) (Network.run s₀ l)) := by
  have later : ∀ j k, j ≤ k → ∀ i op, (f j).s.ops i = some op → (f k).s.ops i = some op := by
    intro j k hjk i op
    have := (fair_early h hf.step j (k - j)).ops i op
    rwa [show j + (k - j) = k from by omega] at this
  have hdn := fair_reach h hf.step n
  obtain ⟨cn, hcn, hsn⟩ := hdn.sim
  obtain ⟨o, hox⟩ := Option.isSome_iff_exists.mp hcn.inv.sub
  have hdone : cn.s.b.done = (f n).s.b.done := by rw [hsn.s.b]; rfl
  have hs := accepted_sent (u := u) (c := c) (m := m) hcn.reach hox
    (by rw [hsn.s.ops]; exact later 0 n (Nat.zero_le _) _ _ hx) (by rw [hsn.s.log]; exact hcx)
    (by rw [hsn.s.ops]; exact hp) (by rw [hsn.s.log]; exact hret) (by rw [hsn.s.log]; exact hcp)
    (by rw [hdone]; exact hdc)
  rw [hsn.s.log] at hs
  rw [sub_eq hsn.s] at hox
  obtain ⟨N, hN, hdel⟩ := fair_drains h hf hq hox hs
  refine ⟨N, hN, hdel.symm.imp_right fun hdel => ?_⟩
  have hdN := fair_reach h hf.step N
  obtain ⟨cN, hcN, hsN⟩ := hdN.sim
  obtain ⟨ch, ps, h1, h2, h3, _, h4⟩ := c93_stmt_digests hdN (later 0 N (Nat.zero_le _) _ _ hx) (hall N) (honly N)
  refine ⟨ch, ps, h1, h2, ?_, h3⟩
  obtain ⟨r, hr, hh⟩ := hdel
  obtain ⟨e, he, h5⟩ := List.mem_filterMap.mp hr
  cases e with
  | took r' c' q =>
    simp only at h5
    split at h5
    · cases h5
      subst_vars
      obtain ⟨c1, x1, t1, u1, c2, m2, g1, g2, g3, _⟩ := hcN.reach.toLog.1.took r c' q (by rw [hsN.s.log]; exact he)
      rw [hsN.s.ops] at g1 g2 g3
      rw [later n N hN _ _ hp] at g3; cases g3
      have hrm := honly N r c1 x1 u1 g1 g2
      exact h4 r hrm (hh.resolve_right fun hn => hn hrm) q (List.mem_filterMap.mpr ⟨_, he, by simp⟩)
    · cases h5
  | _ => cases h5

-- the link of the example of C93 is accepted, everything is digested
example : ∃ f acts, DReach 5 7 2 (f 0) ∧ Fair 7 2 f acts ∧ (∀ n, Undisturbed 7 2 (f n).s) ∧
    (f 0).s.ops 2 = some (.sub "t" "u") ∧
    (∀ n p c m, (f n).s.ops p = some (.pub c "t" m) → Ingested (netItem p).1 (netItem p).2 c "t" m ∧
      ValidValue (netItem p).1 (netItem p).2) ∧
    (∀ n r c y w, (f n).s.ops r = some (.receive c y) → (f n).s.ops y = some (.sub "t" w) → r ∈ (f n).recvs) ∧
    (f 0).s.ops 5 = some (.pub 0 "t" (netMsg 5)) ∧ Ev.ret 5 .nil ∈ (f 0).s.log ∧
    ¬ ClosedAfter 2 (f 0).s.log ∧ ¬ ClosedAfter 5 (f 0).s.log ∧ (f 0).s.b.done 0 = false := by
  have hd := Lock.netBefore_reach
  have hops : ∀ u x, Lock.netAfter.s.ops u ≠ some (.unsubscribe x) := by
    intro u x
    rcases u with _ | _ | _ | _ | _ | _ | _ | _ | _ | _ | u <;> exact fun h => nomatch h
  have hq : Undisturbed 7 2 Lock.netAfter.s := ⟨by decide +kernel, fun u => hops u 2, fun o ho => by
    cases ho; decide +kernel⟩
  obtain ⟨f, a, h0, hf, h1, -⟩ := fair_run (c := 8) (by decide) hd Lock.netAfter_run ⟨.timeout, by decide +kernel⟩
    (by decide +kernel) hq
  have hcl : ∀ j, Ev.closed j ∉ Lock.netBefore.s.log := by
    intro j hj
    have h : (Lock.netBefore.s.log.all fun | .closed _ => false | _ => true) = true := by decide +kernel
    cases List.all_eq_true.mp h _ hj
  have hca : ∀ i, ¬ ClosedAfter i Lock.netBefore.s.log := by
    rintro i ⟨j, a, b, c, h⟩
    exact hcl j (by rw [h]; simp)
  refine ⟨f, a, by rw [h0]; exact hd, hf, fun n => (h1 n).1, by rw [h0]; decide +kernel,
    fun n p c m hp => Lock.netAfter_pubs ((h1 n).2.1 _ _ hp), ?_,
    by rw [h0]; decide +kernel, by rw [h0]; decide +kernel, by rw [h0]; exact hca 2, by rw [h0]; exact hca 5,
    by rw [h0]; decide +kernel⟩
  intro n r c y w hr hy
  have hlt : r < (f n).s.next := by
    obtain ⟨cn, h2, h3⟩ := (fair_reach (by rw [h0]; exact hd) hf.step n).sim
    rw [← Nat.not_le]
    intro hle
    rw [← h3.s.next] at hle
    rw [← h3.s.ops, h2.reach.toInv.ops r hle] at hr; cases hr
  exact ((h1 n).2.2 r (Lock.netAfter_recvs ((h1 n).2.1 _ _ hr))).resolve_right (by omega)

end Netscrape.Props
