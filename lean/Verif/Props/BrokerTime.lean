import Verif.Lemmas.BrokerTimeEnd
import Verif.Props.Broker

/-!
# The in-memory broker with a clock: options and timeouts

`TReach opts t os` are all states a broker made with options `opts` can get into, `os i` the options of call `i`; the
history with times is `t.log`.
-/

namespace Netscrape.Props
open Netscrape.Broker Netscrape.Spec Netscrape.Spec.Broker

/-! ## Runs used in examples -/

/-- The same steps with a clock; calls get the given options. -/
def clocked (opts : List Opt) : List Act → List TAct
  | [] => []
  | .call op :: as => .call op opts :: clocked opts as
  | a :: as => .act a :: clocked opts as

/-- The state after a concrete run of a broker made with options `opts`. -/
def trun (opts : List Opt) (as : List TAct) : TSt × (Nat → List Opt) :=
  (texec (.new opts, fun _ => []) as).getD (.new opts, fun _ => [])

theorem treach_trun {opts : List Opt} {as : List TAct} (h : (texec (.new opts, fun _ => []) as).isSome = true) :
    TReach opts (trun opts as).1 (trun opts as).2 := by
  cases he : texec (.new opts, fun _ => []) as with
  | none => rw [he] at h; cases h
  | some y => rw [trun, he]; exact treach_texec (x := (.new opts, fun _ => [])) .init he

/-! ## C81 -/

/-- **C81** (the clock). A run with a clock is a run without one with the same history, so everything proved about
runs without a clock holds; and every run without a clock is one with a clock. -/
theorem c81_clock {opts : List Opt} {t : TSt} {os : Nat → List Opt} (h : TReach opts t os) :
    Reach ((capOf opts).getD 0) Any t.s ∧ t.log.map Prod.snd = t.s.log :=
  ⟨h.inv.reach, h.inv.erase⟩

theorem c81_every_run {opts : List Opt} {s : St} (h : Reach ((capOf opts).getD 0) Any s) :
    ∃ t os, TReach opts t os ∧ t.s = s := timed_of_reach h

/-- **C81** (`Pub`). A `Pub` call reports a timeout no earlier after it was made than the timeout given to it; if none
was given, than the one given to the broker; if none was given either, than five seconds. -/
theorem c81_pub {opts : List Opt} {t : TSt} {os : Nat → List Opt} (h : TReach opts t os) {i ctx : Nat} {tp : String}
    {m : Msg} (ho : t.s.ops i = some (.pub ctx tp m)) : NotBefore t i (pubWait opts (os i)) := by
  intro τ τ' h1 h2
  obtain ⟨e, he, hle⟩ := h.inv.rets i τ' h2
  have h3 := h.inv.timer i e τ he h1
  have h4 := h.inv.timeout i _ ho
  dsimp only at h4
  omega

/-- **C81** (`Receive`). A `Receive` call reports a timeout no earlier after it was made than the timeout given to
it; if none was given, than five seconds. -/
theorem c81_receive {opts : List Opt} {t : TSt} {os : Nat → List Opt} (h : TReach opts t os) {i ctx x : Nat}
    (ho : t.s.ops i = some (.receive ctx x)) : NotBefore t i (recvWait (os i)) := by
  intro τ τ' h1 h2
  obtain ⟨e, he, hle⟩ := h.inv.rets i τ' h2
  have h3 := h.inv.timer i e τ he h1
  have h4 := h.inv.timeout i _ ho
  dsimp only at h4
  omega

/-- **C81** (not late). Unless the process has crashed, a `Pub` or `Receive` call in progress can return within its
timeout from now, whatever others do or do not do (if a message has been handed to the handler of `Receive`: provided the
handler returns). -/
theorem c81_in_time {opts : List Opt} {t : TSt} {os : Nat → List Opt} (h : TReach opts t os) {i : Nat}
    (hn : t.s.b.crashed = false) (hr : ∀ r, Ev.ret i r ∉ t.s.log) :
    (∀ ctx tp m, t.s.ops i = some (.pub ctx tp m) → ReturnsBy t os i (t.now + max 0 (pubWait opts (os i)))) ∧
    (∀ ctx x, t.s.ops i = some (.receive ctx x) → ReturnsBy t os i (t.now + max 0 (recvWait (os i)))) := by
  have pc : ∀ op, t.s.ops i = some op → ∃ pc, t.s.calls i = some pc := by
    intro op ho
    rcases h.inv.reach.pending i op ho with hc | ⟨r, hc⟩
    · exact Option.isSome_iff_exists.mp hc
    · exact (hr r hc).elim
  constructor
  · intro ctx tp m ho
    obtain ⟨_, hc⟩ := pc _ ho
    have ht := h.inv.timeout i _ ho
    dsimp only at ht
    exact pub_in_time h hn ho hc (by omega) (by omega)
  · intro ctx x ho
    obtain ⟨_, hc⟩ := pc _ ho
    have ht := h.inv.timeout i _ ho
    dsimp only at ht
    exact recv_in_time h hn ho hc (by omega) (by omega)

-- a `Receive` call nobody sends a message to, in the middle of its wait
example : let x := trun [] (clocked [] (opening ++ subscribe 2 "t" "u") ++ [.wait 10] ++
      clocked [.withSubTimeout 4] [.call (.receive 0 2), .step 3 .go] ++ [.wait 3])
    TReach [] x.1 x.2 ∧ x.1.s.ops 3 = some (.receive 0 2) ∧ recvWait (x.2 3) = 4 ∧ x.1.now = 13 ∧
      x.1.s.b.crashed = false ∧ (x.1.s.log.all fun | .ret 3 _ => false | _ => true) = true :=
  ⟨treach_trun (by decide +kernel), rfl, by decide, by decide +kernel, by decide +kernel, by decide +kernel⟩

-- a call with its own timeout on a broker with another one; it returns exactly then
example : let x := trun [.withPubTimeout 7, .withCap 0] (clocked [] opening ++ [.wait 3] ++
      clocked [.withPubTimeout 2] [.call (.pub 0 "t" msgA), .step 2 .go, .step 2 .go, .step 2 .go] ++ [.wait 2] ++
      clocked [] [.step 2 .timeout, .ret 2])
    TReach [.withPubTimeout 7, .withCap 0] x.1 x.2 ∧ x.1.s.ops 2 = some (.pub 0 "t" msgA) ∧
      pubWait [.withPubTimeout 7, .withCap 0] (x.2 2) = 2 ∧ (3, Ev.call 2) ∈ x.1.log ∧ (5, Ev.ret 2 .timeout) ∈ x.1.log :=
  ⟨treach_trun (by decide +kernel), rfl, by decide, by decide +kernel, by decide +kernel⟩

-- no sooner: the step is not possible
example : (texec (.new [.withPubTimeout 7], fun _ => []) (clocked [] opening ++ [.wait 3] ++
      clocked [.withPubTimeout 2] [.call (.pub 0 "t" msgA), .step 2 .go, .step 2 .go, .step 2 .go] ++ [.wait 1] ++
      clocked [] [.step 2 .timeout])).isSome = false := by decide +kernel

-- neither the call nor the broker says anything
example : pubWait [.withSubTimeout 7] [.withPubTimeout 3, .withPubTimeout 0] = 5000000000 := by decide

-- `Receive` waits as long as it was told
example : let x := trun [] (clocked [] (opening ++ subscribe 2 "t" "u") ++ [.wait 10] ++
      clocked [.withSubTimeout 4] [.call (.receive 0 2), .step 3 .go] ++ [.wait 9] ++
      clocked [] [.step 3 .timeout, .step 3 .go, .ret 3])
    TReach [] x.1 x.2 ∧ x.1.s.ops 3 = some (.receive 0 2) ∧ recvWait (x.2 3) = 4 ∧ (10, Ev.call 3) ∈ x.1.log ∧
      (19, Ev.ret 3 .timeout) ∈ x.1.log :=
  ⟨treach_trun (by decide +kernel), rfl, by decide, by decide +kernel, by decide +kernel⟩

/-! ## C80 -/

/-- The part of **C80** about the capacity if none is given: it is `DefaultSize`, 100. -/
def DefaultCapStatement : Prop := ∀ opts, capOf opts = none → ∀ n : Nat, n ≤ 100 →
  ∃ t os ch, TReach opts t os ∧ (sentOn ch t.s.log).length = (tookFrom ch t.s.log).length + n

/-- **C80** fails: a broker made without `WithCap` can hold no message at all. -/
theorem c80_default_cap_violated : ¬ DefaultCapStatement := by
  intro H
  obtain ⟨t, os, ch, ht, hn⟩ := H [] rfl 1 (by omega)
  have := (c50_capacity ht.inv.reach ch).2 rfl
  rw [this] at hn
  omega

/-- The part of **C80** about the sink: with `FanOut`, a message published when there are two subscriptions to its
topic and taken by one can still be received by the other. -/
def FanOutStatement : Prop := ∀ opts t os, TReach opts t os → sinkOf opts = some 1 →
  ∀ p x y r ch ctx ctx' tp u v m, x ≠ y → t.s.ops x = some (.sub tp u) → t.s.ops y = some (.sub tp v) →
  t.s.ops p = some (.pub ctx tp m) → Before (.ret x .sub) (.call p) t.s.log → Before (.ret y .sub) (.call p) t.s.log →
  t.s.ops r = some (.receive ctx' x) → Ev.took r ch p ∈ t.s.log →
  ∃ t' os', Later t t' ∧ TReach opts t' os' ∧
    ∃ r' ch' ctx', t'.s.ops r' = some (.receive ctx' y) ∧ Ev.took r' ch' p ∈ t'.s.log

theorem later_log {t t' : TSt} (h : Later t t') {opts : List Opt} {os : Nat → List Opt} (ht : TReach opts t os) :
    ∃ os', TReach opts t' os' ∧ (∀ i op, t.s.ops i = some op → t'.s.ops i = some op) ∧ ∀ e ∈ t.s.log, e ∈ t'.s.log := by
  induction h with
  | refl => exact ⟨os, ht, fun _ _ h => h, fun _ h => h⟩
  | step t1 t2 a _ hs ih =>
    obtain ⟨os1, h1, h2, h3⟩ := ih
    have key : ∀ (a : Act) (s' : St), step t1.s a = some s' → (∀ i op, t1.s.ops i = some op → s'.ops i = some op) ∧
        ∀ e ∈ t1.s.log, e ∈ s'.log := by
      intro a s' hst
      obtain ⟨_, htr⟩ := step_tr hst
      obtain ⟨evs, hevs⟩ := tr_log htr
      refine ⟨?_, fun e he => by rw [hevs]; exact List.mem_append_left _ he⟩
      intro i op ho
      cases htr with
      | call op' _ => exact ops_upd (h1.inv.reach.toInv.ops _ (Nat.le_refl _)) ho
      | _ => exact ho
    cases a with
    | wait d => cases hs; exact ⟨os1, .wait _ _ d _ h1 rfl, h2, h3⟩
    | call op o =>
      obtain ⟨s', hst, rfl⟩ := tstep_call hs
      obtain ⟨k1, k2⟩ := key _ _ hst
      exact ⟨_, .call _ _ op o _ h1 hs, fun i o h => k1 i o (h2 i o h), fun e h => k2 e (h3 e h)⟩
    | act a =>
      obtain ⟨_, s', hst, rfl⟩ := tstep_act hs
      obtain ⟨k1, k2⟩ := key _ _ hst
      exact ⟨_, .act _ _ a _ h1 hs, fun i o h => k1 i o (h2 i o h), fun e h => k2 e (h3 e h)⟩

/-- **C80** fails: the sink is ignored; a message taken by one subscription is lost for all others. -/
theorem c80_sink_violated : ¬ FanOutStatement := by
  intro H
  let o : List Opt := [.withCap 5, .withSink 1]
  let x := trun o (clocked [] (opening ++ subscribe 2 "t" "u" ++ subscribe 3 "t" "v" ++ publish 4 "t" msgA ++
    receive 5 2 none))
  have hx : TReach o x.1 x.2 := treach_trun (by decide +kernel)
  have h5 : x.1.s.ops 5 = some (.receive 0 2) := by decide +kernel
  have htook : Ev.took 5 2 4 ∈ x.1.s.log := by decide +kernel
  have hb : ∀ j, (j = 2 ∨ j = 3) → Before (.ret j .sub) (.call 4) x.1.s.log := by
    rintro j (rfl | rfl)
    · exact ⟨x.1.s.log.take 4, [.call 3, .ret 3 .sub], x.1.s.log.drop 8, by decide +kernel⟩
    · exact ⟨x.1.s.log.take 6, [], x.1.s.log.drop 8, by decide +kernel⟩
  obtain ⟨t', os', hl, ht', r', ch', ctx', hr', htook'⟩ := H o x.1 x.2 hx rfl 4 2 3 5 2 0 0 "t" "u" "v" msgA (by decide)
    (by decide +kernel) (by decide +kernel) (by decide +kernel) (hb 2 (.inl rfl)) (hb 3 (.inr rfl)) h5 htook
  obtain ⟨os2, _, hops, hlog⟩ := later_log hl hx
  have h1 := ((c49_delivery ht'.inv.reach).2.1 4).2
  have m1 : 5 ∈ takers 4 t'.s.log := List.mem_filterMap.mpr ⟨_, hlog _ htook, by simp⟩
  have m2 : r' ∈ takers 4 t'.s.log := List.mem_filterMap.mpr ⟨_, htook', by simp⟩
  have : r' = 5 := by
    match hk : takers 4 t'.s.log, h1 with
    | [], _ => rw [hk] at m1; cases m1
    | [a], _ => rw [hk] at m1 m2; rw [List.mem_singleton.mp m1, List.mem_singleton.mp m2]
    | a :: b :: l, h1 => simp at h1
  subst this
  have := hops _ _ h5
  rw [hr'] at this
  cases this

/-- The part of **C80** about receiving: a `Receive` call without a timeout of its own waits as long as the broker was
told. -/
def RecvTimeoutStatement : Prop := ∀ opts t os, TReach opts t os → ∀ i ctx x d, t.s.ops i = some (.receive ctx x) →
  recvTimeoutOf (os i) = none → recvTimeoutOf opts = some d → NotBefore t i d

/-- **C80** fails: the receive timeout of the broker is ignored. -/
theorem c80_recv_timeout_violated : ¬ RecvTimeoutStatement := by
  intro H
  let o : List Opt := [.withSubTimeout 60000000000]
  let x := trun o (clocked [] (opening ++ subscribe 2 "t" "u" ++ [.call (.receive 0 2), .step 3 .go]) ++
    [.wait 5000000000] ++ clocked [] [.step 3 .timeout, .step 3 .go, .ret 3])
  have hx : TReach o x.1 x.2 := treach_trun (by decide +kernel)
  have := H o x.1 x.2 hx 3 0 2 60000000000 (by decide +kernel) (by decide +kernel) rfl 0 5000000000
    (by decide +kernel) (by decide +kernel)
  omega

/-- **C80** (what holds; missing: the default capacity, the sink and the broker's receive timeout). The last
`WithCap` decides: if it is `c`, no topic ever holds more than `c` undelivered messages (100 if `c` is negative), and
it can hold that many. The publish timeout of the broker and the timeouts of the calls are honoured, the call's before
the broker's. -/
theorem c80_options_partial (opts : List Opt) (c : Int) (hc : capOf opts = some c) :
    (∀ t os, TReach opts t os → ∀ ch,
      ((sentOn ch t.s.log).length : Int) ≤ (tookFrom ch t.s.log).length + capacity c) ∧
    (∃ t os ch, TReach opts t os ∧
      ((sentOn ch t.s.log).length : Int) = (tookFrom ch t.s.log).length + capacity c) ∧
    (∀ t os, TReach opts t os → ∀ i d,
      (∀ ctx tp m, t.s.ops i = some (.pub ctx tp m) → pubTimeoutOf (os i) = some d → NotBefore t i d) ∧
      (∀ ctx tp m, t.s.ops i = some (.pub ctx tp m) → pubTimeoutOf (os i) = none → pubTimeoutOf opts = some d →
        NotBefore t i d) ∧
      (∀ ctx x, t.s.ops i = some (.receive ctx x) → recvTimeoutOf (os i) = some d → NotBefore t i d)) := by
  refine ⟨?_, ?_, ?_⟩
  · intro t os ht ch
    have := ht.inv.reach
    rw [hc] at this
    exact (c50_capacity this ch).1
  · have hnn : 0 ≤ capacity c := by unfold capacity; split <;> omega
    obtain ⟨s, ch, hr, hs⟩ := c50_attained c (capacity c).toNat (by omega)
    obtain ⟨t, os, ht, rfl⟩ := timed_of_reach (opts := opts) (by rw [hc]; exact hr)
    exact ⟨t, os, ch, ht, by omega⟩
  · intro t os ht i d
    refine ⟨fun ctx tp m ho hd => ?_, fun ctx tp m ho hd hd' => ?_, fun ctx x ho hd => ?_⟩
    · have := c81_pub ht ho
      rwa [pubWait, hd] at this
    · have := c81_pub ht ho
      rwa [pubWait, hd, hd'] at this
    · have := c81_receive ht ho
      rwa [recvWait, hd] at this

-- several options: the last one of a kind counts
example : capOf [.withCap 3, .withSink 1, .withCap 7] = some 7 ∧ pubTimeoutOf [.withPubTimeout 3] = some 3 ∧
    recvTimeoutOf [.withSubTimeout 1, .withSubTimeout 2] = some 2 := by decide

end Netscrape.Props
