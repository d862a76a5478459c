import Verif.Lemmas.DigestStop
import Verif.Props.BrokerSession

/-!
# `Digest` on the in-memory broker

`DReach cap ctx x d` are all states of a broker of capacity `cap` in which `Digest` was called with context
`ctx` on subscription `x`, whatever other callers do meanwhile. The calls of `Receive` it made are in
`d.recvs`, oldest first.
-/

namespace Netscrape.Props
open Netscrape.Broker Netscrape.Spec Netscrape.Spec.Broker Netscrape.Digest

/-- The state after some steps of the broker and its users, when `Digest` is called. -/
def digesting (cap : Int) (acts : List Act) : DSt := ⟨run cap acts, .start, []⟩

theorem dreach_exec {cap : Int} {ctx x : Nat} {acts : List DAct} : ∀ {d d' : DSt}, DReach cap ctx x d →
    dexec ctx x d acts = some d' → DReach cap ctx x d' := by
  induction acts with
  | nil => intro d d' hd h; cases h; exact hd
  | cons a as ih =>
    intro d d' hd h
    unfold dexec at h
    cases hs : dstep ctx x d a with
    | none => rw [hs] at h; cases h
    | some d1 => rw [hs] at h; exact ih (.step _ _ _ hd hs) h

/-- The state after some steps with `Digest` running. -/
def drun (ctx x : Nat) (d : DSt) (acts : List DAct) : DSt := (dexec ctx x d acts).getD d

theorem dreach_run {cap : Int} {ctx x : Nat} {d : DSt} {acts : List DAct} (hd : DReach cap ctx x d)
    (h : (dexec ctx x d acts).isSome = true) : DReach cap ctx x (drun ctx x d acts) := by
  obtain ⟨d', hd'⟩ := Option.isSome_iff_exists.mp h
  rw [drun, hd']
  exact dreach_exec hd hd'

/-- One message: `Receive` is called (as call `r`), takes it, the handler returns `e`. -/
def digestOne (r : Nat) (e : Option Nat) : List DAct :=
  [.receive, .sys (.step r .go), .sys (.step r .msg), .sys (.step r (.result e)), .sys (.ret r), .resume]

/-! ## C61 -/

/-- C61: once the context is cancelled `Digest` returns. -/
def StopOnCancelStatement : Prop := ∀ cap ctx x f acts, DReach cap ctx x (f 0) → Fair ctx x f acts →
  (f 0).s.b.done ctx = true → ∃ n v, (f n).pos = .returned v

/-- C61: once the broker the subscription was made on is closed `Digest` returns. -/
def StopOnCloseStatement : Prop := ∀ cap ctx x f acts, DReach cap ctx x (f 0) → Fair ctx x f acts →
  (∃ j, Before (.ret x .sub) (.closed j) (f 0).s.log) → ∃ n v, (f n).pos = .returned v

/-- C61: if the context of `Digest` is cancelled, or the session its subscription belongs to is closed, and
the subscription has not been ended, `Digest` can call `Receive` for ever without ever blocking: both cases
of the `select` return nil. -/
theorem c61_spins {cap : Int} {ctx x : Nat} {d : DSt} (h : DReach cap ctx x d) (hn : d.s.b.crashed = false)
    (hp : d.pos = .start) {o : Sub} (hx : d.s.b.sub x = some o) (ha : o.active = true)
    (hc : d.s.b.done ctx = true ∨ d.s.b.isClosed o.queue.exit = true) :
    ∃ (f : Nat → DSt) (acts : Nat → DAct), f 0 = d ∧ Fair ctx x f acts ∧
      (∀ n, own (f n) (acts n)) ∧ ∀ n v, (f n).pos ≠ .returned v := by
  have : ∃ alt, Idle d.s.b ctx x alt := by
    rcases hc with hc | hc
    · exact ⟨.ctx, hn, ⟨o, hx, ha⟩, fun i => by simp only [micro, hc]; rfl⟩
    · exact ⟨.exit, hn, ⟨o, hx, ha⟩, fun i => by simp only [micro, hx, hc]; rfl⟩
  obtain ⟨alt, hid⟩ := this
  obtain ⟨f, acts, h0, hf⟩ := Spin.run ⟨h, hid, .inl hp⟩
  exact ⟨f, acts, h0, ⟨fun n => (hf n).1, fun n => .inr ⟨n, Nat.le_refl _, (hf n).2.1⟩⟩,
    fun n => (hf n).2.1, fun n => (hf n).2.2⟩

-- the context of `Digest` is cancelled while it waits
example : let d := digesting 1 (opening ++ subscribe 2 "t" "u" ++ [.cancel 7])
    DReach 1 7 2 d ∧ d.s.b.crashed = false ∧ d.s.b.done 7 = true ∧
      d.s.b.sub 2 = some ⟨"u", "t", true, ⟨2, some 0⟩, some 0⟩ :=
  ⟨.init _ (reach_run rfl) (by decide), rfl, rfl, rfl⟩

theorem c61_cancel_violated : ¬ StopOnCancelStatement := by
  intro h
  let d := digesting 1 (opening ++ subscribe 2 "t" "u" ++ [.cancel 7])
  have hd : DReach 1 7 2 d := .init _ (reach_run rfl) (by decide)
  obtain ⟨f, acts, h0, hf, _, hv⟩ := c61_spins hd rfl rfl (o := ⟨"u", "t", true, ⟨2, some 0⟩, some 0⟩) rfl rfl (.inl rfl)
  obtain ⟨n, v, h1⟩ := h 1 7 2 f acts (by rw [h0]; exact hd) hf (by rw [h0]; rfl)
  exact hv n v h1

theorem c61_close_violated : ¬ StopOnCloseStatement := by
  intro h
  let d := digesting 1 (opening ++ subscribe 2 "t" "u" ++ closing 3)
  have hd : DReach 1 7 2 d := .init _ (reach_run rfl) (by decide)
  obtain ⟨f, acts, h0, hf, _, hv⟩ := c61_spins hd rfl rfl (o := ⟨"u", "t", true, ⟨2, some 0⟩, some 0⟩) rfl rfl (.inr rfl)
  obtain ⟨n, v, h1⟩ := h 1 7 2 f acts (by rw [h0]; exact hd) hf (by
    rw [h0]
    exact ⟨3, [.call 0, .opened 0, .ret 0 .nil, .call 2], [.call 3], [.ret 3 .nil], by decide⟩)
  exact hv n v h1

/-- C61: every message received is handed to the handler. -/
def HandsOverStatement : Prop := ∀ cap ctx x d v, DReach cap ctx x d → d.pos = .returned v →
  ∀ r ∈ d.recvs, ∀ p, p ∈ tookBy r d.s.log → handledBy r d.s.log ≠ []

/-- C61: a message that arrives when the timer of `Receive` has just expired is taken and dropped. -/
theorem c61_hands_over_violated : ¬ HandsOverStatement := by
  intro h
  let d0 := digesting 1 (opening ++ subscribe 2 "t" "u")
  have hd : DReach 1 7 2 d0 := .init _ (reach_run rfl) (by decide)
  exact h 1 7 2 (drun 7 2 d0 ([.receive, .sys (.step 3 .go), .sys (.step 3 .timeout)] ++
    (publish 4 "t" msgA).map .sys ++ [.sys (.step 3 .go), .sys (.ret 3), .resume])) .timeout
    (dreach_run hd (by decide)) (by decide) 3 (by decide) 4 (by decide) (by decide)

/-- C61: what does hold. After somebody's `Unsubscribe` has returned, `Digest` returns after at most eight
more steps of its own, whatever anybody else does; until then it can always make one. -/
theorem c61_stops_partial {cap : Int} {ctx x : Nat} {d : DSt} (h : DReach cap ctx x d) (he : Ended x d.s) :
    (∀ acts d', dexec ctx x d acts = some d' → ownSteps ctx x d acts ≤ 8) ∧
    (∀ acts d', dexec ctx x d acts = some d' → d'.s.b.crashed = false →
      (∃ v, d'.pos = .returned v) ∨ ∃ a d'', own d' a ∧ dstep ctx x d' a = some d'') ∧
    (∀ f acts, f 0 = d → Fair ctx x f acts → ∃ n v, (f n).pos = .returned v) := by
  refine ⟨?_, ?_, ?_⟩
  · intro acts d' hd
    have := own_le h he hd
    have := rank_le d
    omega
  · intro acts d' hd hn
    have hr := dreach_exec h hd
    cases hp : d'.pos with
    | returned v => exact .inl ⟨v, rfl⟩
    | start => exact .inr (can_go hr hn (ended_exec h he hd) (by rw [hp]; exact nofun))
    | waiting r => exact .inr (can_go hr hn (ended_exec h he hd) (by rw [hp]; exact nofun))
  · rintro f acts rfl hf
    exact fair_stops (rank (f 0)) h he hf (Nat.le_refl _)

-- `Digest` waits for a message when the subscription is ended
example : let d0 := digesting 1 (opening ++ subscribe 2 "t" "u")
    let acts := [DAct.receive, .sys (.step 3 .go)] ++ (unsubscribe 4 2).map .sys
    let d := drun 7 2 d0 acts
    DReach 1 7 2 d ∧ Ended 2 d.s ∧ d.pos = .waiting 3 ∧ d.s.calls 3 = some (.recvSel 7 2) :=
  ⟨dreach_run (.init _ (reach_run rfl) (by decide)) rfl, ⟨4, .nil, rfl, by decide⟩, rfl, rfl⟩

/-- C61: what does hold. The messages `Digest` took were published on one channel of the topic, in the order
they were taken. Every `Receive` but the last returned nil, having handed the message it took, if it took one,
to the handler, which returned nil. If `Digest` returned, then with what the last `Receive` returned, which is
an error: the one its handler returned for the message it took, an ended subscription, or a timeout, in which
case the message taken may have been dropped. -/
theorem c61_in_order_partial {cap : Int} {ctx x : Nat} {d : DSt} (h : DReach cap ctx x d) :
    (∃ ch, (d.recvs.flatMap fun r => tookBy r d.s.log).Sublist (sentOn ch d.s.log)) ∧
    (∀ r ∈ d.recvs, d.s.ops r = some (.receive ctx x)) ∧
    (∀ cs r, d.recvs = cs ++ [r] → ∀ c ∈ cs, Ev.ret c .nil ∈ d.s.log ∧
      ((handledBy c d.s.log = [] ∧ tookBy c d.s.log = []) ∨
       ∃ p m ctx' t, handledBy c d.s.log = [m] ∧ tookBy c d.s.log = [p] ∧ d.s.ops p = some (.pub ctx' t m) ∧
         Ev.handled c none ∈ d.s.log)) ∧
    (∀ v, d.pos = .returned v → ∃ cs r, d.recvs = cs ++ [r] ∧ Ev.ret r v ∈ d.s.log ∧
      ((v = .inactive ∧ handledBy r d.s.log = [] ∧ tookBy r d.s.log = []) ∨
       (v = .timeout ∧ handledBy r d.s.log = [] ∧ (tookBy r d.s.log).length ≤ 1) ∨
       ∃ p m ctx' t e, handledBy r d.s.log = [m] ∧ tookBy r d.s.log = [p] ∧ d.s.ops p = some (.pub ctx' t m) ∧
         Ev.handled r (some e) ∈ d.s.log ∧ v = .fail e)) := by
  have hr := h.reach
  have hin := h.inv
  obtain ⟨o, hx⟩ := Option.isSome_iff_exists.mp hin.sub
  refine ⟨⟨o.queue.msg, ?_⟩, hin.ops, ?_, ?_⟩
  · rw [← hin.took]
    refine (tookByAny_sublist ?_).trans (hr.order o.queue.msg _ (List.prefix_refl _)).sublist
    intro r c p he hm
    obtain ⟨ctx', x', o', h1, h2, h3⟩ := hr.took r c p he
    rw [hin.ops r hm] at h1
    cases h1
    rw [hx] at h2
    cases h2
    exact h3.symm
  · intro cs r hrs c hc
    have hnil : Ev.ret c .nil ∈ d.s.log := by
      have h1 := hin.pos
      cases hp : d.pos with
      | start => rw [hp] at h1; exact h1 c (by rw [hrs]; simp [hc])
      | waiting r' =>
        rw [hp] at h1
        obtain ⟨cs', h2, h3⟩ := h1
        rw [hrs] at h2
        obtain ⟨rfl, _⟩ := List.append_inj' h2 rfl
        exact h3 c hc
      | returned v =>
        rw [hp] at h1
        obtain ⟨cs', r', h2, h3, _⟩ := h1
        rw [hrs] at h2
        obtain ⟨rfl, _⟩ := List.append_inj' h2 rfl
        exact h3 c hc
    refine ⟨hnil, ?_⟩
    rcases c56_receive_partial hr (hin.ops c (by rw [hrs]; simp [hc])) hnil with
      ⟨h1, h2, _⟩ | ⟨p, m, ctx', t, h1, h2, h3, ⟨h4, _⟩ | ⟨_, _, h4⟩⟩ | ⟨_, _, h4⟩
    · exact .inl ⟨h1, h2⟩
    · exact .inr ⟨p, m, ctx', t, h1, h2, h3, h4⟩
    · cases h4
    · cases h4
  · intro v hp
    have h1 := hin.pos
    rw [hp] at h1
    obtain ⟨cs, r, h2, _, h3, h4⟩ := h1
    refine ⟨cs, r, h2, h3, ?_⟩
    rcases c56_receive_partial hr (hin.ops r (by rw [h2]; simp)) h3 with
      ⟨h5, h6, rfl | rfl | rfl⟩ | ⟨p, m, ctx', t, h5, h6, h7, ⟨_, h8⟩ | ⟨e, h8, h9⟩⟩ | ⟨h5, ⟨p, h6⟩, h7⟩
    · exact (h4 rfl).elim
    · exact .inl ⟨rfl, h5, h6⟩
    · exact .inr (.inl ⟨rfl, h5, by rw [h6]; exact Nat.zero_le _⟩)
    · exact (h4 h8).elim
    · exact .inr (.inr ⟨p, m, ctx', t, e, h5, h6, h7, h8, h9⟩)
    · exact .inr (.inl ⟨h7, h5, by rw [h6]; exact Nat.le_refl _⟩)

-- two messages are handled, the handler fails on the second
example : let d0 := digesting 2 (opening ++ subscribe 2 "t" "u" ++ publish 3 "t" msgA ++ publish 4 "t" msgB)
    let acts := digestOne 5 none ++ digestOne 6 (some 9)
    let d := drun 7 2 d0 acts
    DReach 2 7 2 d ∧ d.recvs = [5, 6] ∧ d.pos = .returned (.fail 9) ∧
      d.recvs.flatMap (fun r => tookBy r d.s.log) = [3, 4] :=
  ⟨dreach_run (.init _ (reach_run rfl) (by decide)) rfl, by decide, rfl, by decide⟩

end Netscrape.Props
