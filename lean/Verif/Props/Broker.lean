import Verif.Lemmas.BrokerRun

/-!
# The in-memory broker

Callers, schedules, timers and cancellations are arbitrary; `Reach cap Any s` are all states a broker of
capacity `cap` can get into, with the history so far in `s.log` and the calls made in `s.ops`.
-/

namespace Netscrape.Props
open Netscrape.Broker Netscrape.Spec Netscrape.Spec.Broker

/-! ## Runs used in examples -/

/-- A message. -/
def msgA : Msg := ⟨"a", 1, "data of a", GoMap.empty⟩
/-- Another one. -/
def msgB : Msg := ⟨"b", 0, "data of b", GoMap.empty⟩

/-- Open the broker (call 0, goroutine 1). -/
def opening : List Act := [.call (.open 0), .step 0 .go, .step 0 .go, .ret 0]
/-- Call `i` publishes a message and returns. -/
def publish (i : Nat) (t : String) (m : Msg) : List Act :=
  [.call (.pub 0 t m), .step i .go, .step i .go, .step i .go, .step i .msg, .ret i]
/-- Call `i` subscribes. -/
def subscribe (i : Nat) (t u : String) : List Act := [.call (.sub t u), .step i .go, .step i .go, .ret i]
/-- Call `i` receives a message on subscription `x` and its handler returns `e`. -/
def receive (i x : Nat) (e : Option Nat) : List Act :=
  [.call (.receive 0 x), .step i .go, .step i .msg, .step i (.result e), .ret i]
/-- Call `i` unsubscribes `x`. -/
def unsubscribe (i x : Nat) : List Act :=
  [.call (.unsubscribe x), .step i .go, .step i .go, .step i .go, .step i .go, .ret i]

/-! ## C49 -/

/-- C49: on every channel, at every moment, the messages taken are the first ones that were put there, in the
same order; no `Pub` call puts its message anywhere twice and nobody takes it twice; a message taken by a
receiver was put there before by a `Pub` call on the topic the receiver is subscribed to, and a handler is
called with exactly the message its receiver took. -/
theorem c49_delivery {cap : Int} {s : St} (h : Reach cap Any s) :
    (∀ ch l, l <+: s.log → tookFrom ch l <+: sentOn ch l) ∧
    (∀ p, (sentBy p s.log).length ≤ 1 ∧ (takers p s.log).length ≤ 1) ∧
    (∀ r ch p, Ev.took r ch p ∈ s.log → Before (.sent p ch) (.took r ch p) s.log ∧
      ∃ ctx x t u ctx' m, s.ops r = some (.receive ctx x) ∧ s.ops x = some (.sub t u) ∧
        s.ops p = some (.pub ctx' t m)) ∧
    (∀ r m, Ev.handle r m ∈ s.log → ∃ p ch ctx t, Ev.took r ch p ∈ s.log ∧
      s.ops p = some (.pub ctx t m)) := by
  have hl := h.toLog.1
  refine ⟨h.order, fun p => ⟨hl.once p, (hl.takers p).1⟩, ?_, hl.handle⟩
  intro r ch p ht
  obtain ⟨ctx, x, t, u, ctx', m, h1, h2, h3, _⟩ := hl.took r ch p ht
  exact ⟨h.sent_before ht, ctx, x, t, u, ctx', m, h1, h2, h3⟩

-- two messages are published, one on each topic, and one is received
example : let s := run 5 (opening ++ subscribe 2 "t" "u" ++ publish 3 "t" msgA ++ publish 4 "v" msgB ++
      publish 5 "t" msgB ++ receive 6 2 none)
    Reach 5 Any s ∧ sentOn 2 s.log = [3, 5] ∧ tookFrom 2 s.log = [3] ∧ Ev.took 6 2 3 ∈ s.log ∧
      Ev.handle 6 msgA ∈ s.log :=
  ⟨reach_run rfl, by decide, by decide, by decide, by decide⟩

/-! ## C50 -/

/-- C50: a channel never holds more messages than the configured capacity, 100 if that is negative; if it is
zero, every message put there is taken in the same step. -/
theorem c50_capacity {cap : Int} {s : St} (h : Reach cap Any s) (ch : Nat) :
    ((sentOn ch s.log).length : Int) ≤ (tookFrom ch s.log).length + capacity cap ∧
    (cap = 0 → sentOn ch s.log = tookFrom ch s.log) := by
  obtain ⟨hl, hsz, hb⟩ := h.toLog
  have h1 := hb ch
  rw [hsz] at h1
  have h2 := hl.chan ch
  constructor
  · rw [h2, List.length_append, List.length_map]
    unfold capacity
    unfold Broker.sizeOf at h1
    split <;> split at h1 <;> omega
  · rintro rfl
    have : s.b.buf ch = [] := List.length_eq_zero_iff.mp (Nat.le_zero.mp h1)
    rw [h2, this, List.map_nil, List.append_nil]

/-- C50: and the whole capacity can be used: there are runs in which a channel holds exactly that many
messages. -/
theorem c50_attained (cap : Int) (n : Nat) (hn : (n : Int) ≤ capacity cap) :
    ∃ s ch, Reach cap Any s ∧ (sentOn ch s.log).length = (tookFrom ch s.log).length + n := by
  have hn' : n ≤ Broker.sizeOf cap := by
    unfold capacity at hn
    unfold Broker.sizeOf
    split at hn <;> split <;> omega
  obtain ⟨s, ch, e, hr, _, _, _, hb⟩ := fill (cap := cap) n hn'
  refine ⟨s, ch, hr, ?_⟩
  rw [hr.toLog.1.chan ch, List.length_append, List.length_map, hb]

-- capacity 1: one message waits; capacity 0: a message is handed over directly
example : let s := run 1 (opening ++ subscribe 2 "t" "u" ++ publish 3 "t" msgA)
    Reach 1 Any s ∧ (sentOn 2 s.log).length = 1 ∧ (tookFrom 2 s.log).length = 0 :=
  ⟨reach_run rfl, by decide, by decide⟩
example : let s := run 0 (opening ++ subscribe 2 "t" "u" ++ [.call (.pub 0 "t" msgA), .step 3 .go, .step 3 .go,
      .step 3 .go, .call (.receive 0 2), .step 4 .go, .meet 3 4])
    Reach 0 Any s ∧ sentOn 2 s.log = [3] ∧ tookFrom 2 s.log = [3] :=
  ⟨reach_run rfl, by decide, by decide⟩

/-! ## C51 -/

/-- C51: nil means accepted, an error means not. -/
def PubStatement : Prop := ∀ cap s, Reach cap Any s → ∀ i ctx t m r, s.ops i = some (.pub ctx t m) →
  Ev.ret i r ∈ s.log →
  (r = .nil → ∃ ch, sentBy i s.log = [ch]) ∧ (r ≠ .nil → sentBy i s.log = [] ∧ takers i s.log = [])

/-- C51 does not hold: if somebody closes the broker while `Pub` waits, `Pub` returns nil and the message is
gone. -/
theorem c51_published_violated : ¬ PubStatement := by
  intro h
  let s := run 1 (opening ++ [.call (.pub 0 "t" msgA), .step 2 .go, .step 2 .go, .step 2 .go,
    .call .close, .step 3 .go, .step 2 .exit, .ret 2])
  obtain ⟨ch, hch⟩ := (h 1 s (reach_run rfl) 2 0 "t" msgA .nil rfl (by decide)).1 rfl
  rw [show sentBy 2 s.log = [] from by decide] at hch
  cases hch

/-- C51: the same happens if the context of the call is cancelled, which is not reported either. -/
def PubCancelStatement : Prop := ∀ cap s, Reach cap Any s → ∀ i ctx t m, s.ops i = some (.pub ctx t m) →
  Ev.ret i .nil ∈ s.log → (∀ j, s.ops j ≠ some .close) → ∃ ch, sentBy i s.log = [ch]

theorem c51_cancelled_violated : ¬ PubCancelStatement := by
  intro h
  let s := run 1 (opening ++ [.call (.pub 7 "t" msgA), .step 2 .go, .step 2 .go, .step 2 .go,
    .cancel 7, .step 2 .ctx, .step 2 .go, .ret 2])
  obtain ⟨ch, hch⟩ := h 1 s (reach_run rfl) 2 7 "t" msgA rfl (by decide) (by
      intro j
      rcases j with _ | _ | _ | j <;> exact nofun)
  rw [show sentBy 2 s.log = [] from by decide] at hch
  cases hch

/-- C51: what does hold. If `Pub` returns an error its message was not put anywhere and nobody ever takes it.
If it returns nil, the message was put on a channel of the topic exactly once, or it was not put anywhere and
the broker was closed during the call or the context of the call was cancelled. -/
theorem c51_published_partial {cap : Int} {s : St} (h : Reach cap Any s) {i ctx : Nat} {t : String} {m : Msg}
    {r : Ret} (ho : s.ops i = some (.pub ctx t m)) (hr : Ev.ret i r ∈ s.log) :
    (r ≠ .nil → sentBy i s.log = [] ∧ takers i s.log = []) ∧
    (r = .nil → (∃ ch, sentBy i s.log = [ch] ∧ OnTopic s.ops ch t) ∨
      (sentBy i s.log = [] ∧ takers i s.log = [] ∧ (ClosedAfter i s.log ∨ s.b.done ctx = true))) := by
  have hl := h.toLog.1
  constructor
  · intro hne
    have := (hl.rets i r hr).2.sent hne
    exact ⟨this, (hl.takers i).2 this⟩
  · rintro rfl
    have h1 := hl.once i
    match hs : sentBy i s.log, h1 with
    | [], _ => exact .inr ⟨rfl, (hl.takers i).2 hs, h.toPub.ret i hr ctx t m ho hs⟩
    | [ch], _ =>
      refine .inl ⟨ch, rfl, ?_⟩
      have : Ev.sent i ch ∈ s.log := by
        have hm : ch ∈ sentBy i s.log := by rw [hs]; simp
        obtain ⟨ev, hev, hp⟩ := List.mem_filterMap.mp hm
        cases ev with
        | sent p' c =>
          dsimp only at hp
          split at hp
          · next hc => cases hp; rw [← hc]; exact hev
          · cases hp
        | _ => cases hp
      obtain ⟨_, _, _, h2, h3⟩ := hl.sent i ch this
      rw [ho] at h2; cases h2; exact h3

example : let s := run 1 (opening ++ publish 2 "t" msgA)
    Reach 1 Any s ∧ s.ops 2 = some (.pub 0 "t" msgA) ∧ Ev.ret 2 .nil ∈ s.log ∧ sentBy 2 s.log = [2] :=
  ⟨reach_run rfl, rfl, by decide, by decide⟩
example : let s := run 1 (opening ++ publish 2 "t" msgA ++ [.call (.pub 0 "t" msgB), .step 3 .go, .step 3 .go,
      .step 3 .go, .step 3 .timeout, .ret 3])
    Reach 1 Any s ∧ s.ops 3 = some (.pub 0 "t" msgB) ∧ Ev.ret 3 .timeout ∈ s.log ∧ sentBy 3 s.log = [] :=
  ⟨reach_run rfl, rfl, by decide, by decide⟩

/-! ## C52 -/

/-- C52: `Pub` and `Sub` that start while the broker is closed, and return before anybody opens it, return
`ErrNotConnected`; then they have not put a message anywhere, made a subscription or made a channel. -/
theorem c52_not_connected {cap : Int} {s : St} (h : Reach cap Any s) {i : Nat} {op : Op} {r : Ret}
    {l1 l2 l3 : List Ev} (ho : s.ops i = some op)
    (hop : (∃ ctx t m, op = .pub ctx t m) ∨ ∃ t u, op = .sub t u)
    (hl : s.log = l1 ++ Ev.call i :: (l2 ++ Ev.ret i r :: l3)) (h1 : isOpen l1 = false) (h2 : ¬ Opens l2) :
    r = .notConnected ∧ sentBy i s.log = [] ∧ takers i s.log = [] ∧ s.b.sub i = none ∧
    (∀ t q, s.b.topics.get? t = some q → q.msg ≠ i) ∧ ∀ p, Ev.sent p i ∉ s.log := by
  have hr : r = .notConnected := by
    refine h.toIdle.past i op l1 l2 r l3 ho ?_ hl h1 h2
    rcases hop with ⟨_, _, _, rfl⟩ | ⟨_, _, rfl⟩ <;> trivial
  subst hr
  have hm : Ev.ret i .notConnected ∈ s.log := by rw [hl]; simp
  have hlog := h.toLog.1
  have hs := (hlog.rets i _ hm).2.sent nofun
  have hu := h.toUnused i (.inr (.inr hm))
  exact ⟨rfl, hs, (hlog.takers i).2 hs, hu.sub, hu.topics, hu.sent⟩

-- the broker is opened, closed and a message published; then it is opened again
example : let s := run 1 (opening ++ [.call .close, .step 2 .go, .ret 2, .call (.pub 0 "t" msgA), .step 3 .go, .ret 3,
      .call (.open 0), .step 4 .go, .step 4 .go, .ret 4])
    Reach 1 Any s ∧ s.ops 3 = some (.pub 0 "t" msgA) ∧
      s.log = [.call 0, .opened 0, .ret 0 .nil, .call 2, .closed 2, .ret 2 .nil] ++ Ev.call 3 ::
        ([] ++ Ev.ret 3 .notConnected :: [.call 4, .opened 4, .ret 4 .nil]) ∧
      isOpen [.call 0, .opened 0, .ret 0 .nil, .call 2, .closed 2, .ret 2 .nil] = false ∧ ¬ Opens [] :=
  ⟨reach_run rfl, rfl, by decide, by decide, nofun⟩
example : let s := run 1 ([.call (.sub "t" "u"), .step 0 .go, .ret 0])
    Reach 1 Any s ∧ s.log = [] ++ Ev.call 0 :: ([] ++ Ev.ret 0 .notConnected :: []) :=
  ⟨reach_run rfl, by decide⟩

/-! ## C53 -/

/-- C53: as long as nobody unsubscribes, the process does not panic, whatever is called, cancelled and
scheduled: no channel is closed twice, and `Close` never meets a nil or closed exit channel. -/
theorem c53_no_panic {cap : Int} {s : St} (h : Reach cap NoUnsubscribe s) : s.b.crashed = false := by
  cases hc : s.b.crashed with
  | false => rfl
  | true =>
    exfalso
    obtain ⟨i, x, hi⟩ := h.crash hc
    have hop := (h.toInv.fits i _ hi).1
    refine h.inv (P := fun s => ∀ i x, s.ops i ≠ some (.unsubscribe x)) nofun ?_ i x hop
    intro s s' a hr h ha _ ht
    refine tr_elim hr.toInv ht ?_ ?_ ?_ ?_ ?_
    · rintro op rfl _ rfl j x
      dsimp only
      by_cases hj : j = s.next
      · subst hj
        rw [Conc.upd_self]
        intro e; cases e
        exact ha x rfl
      · rw [Conc.upd_ne _ _ hj]; exact h j x
    · rintro _ rfl; exact h
    · intro _ _ _ _ _ _ _ ms; rw [ms.ops]; exact h
    · intro _ _ _ _ _ _ _ _ _ _ _ ms; rw [ms.ops]; exact h
    · rintro _ _ _ rfl; exact h

/-- C53: in general, when the process panics, it does so in an `Unsubscribe` call. -/
theorem c53_only_unsubscribe {cap : Int} {s : St} (h : Reach cap Any s) (hc : s.b.crashed = true) :
    ∃ i x, s.ops i = some (.unsubscribe x) ∧ (s.calls i).isSome = true := by
  obtain ⟨i, x, hi⟩ := h.crash hc
  exact ⟨i, x, (h.toInv.fits i _ hi).1, by rw [hi]; rfl⟩

-- two concurrent `Open` calls both set up a session, and both sessions' goroutines close
example : let s := (execIf (fun _ a => match a with | .call (.unsubscribe _) => false | _ => true) (.init 1)
      [.call (.open 0), .call (.open 0), .step 0 .go, .step 1 .go, .step 0 .go, .step 1 .go, .call .close,
        .call .close, .step 4 .go, .step 5 .go, .step 2 .go, .step 3 .go, .step 2 .go, .step 3 .stale, .step 2 .exit, .step 3 .exit,
        .step 2 .go, .step 3 .go]).getD (.init 1)
    Reach 1 NoUnsubscribe s ∧ s.log = [.call 0, .call 1, .opened 0, .opened 1, .call 4, .call 5, .closed 4] :=
  ⟨reach_runIf (fun _ a _ h x e => by subst e; cases h) rfl, by decide⟩

/-! ## C54 -/

/-- C54: nothing that callers do makes the process panic. -/
def IdempotentStatement : Prop := ∀ cap s, Reach cap Any s → s.b.crashed = false

/-- C54 does not hold: two concurrent `Unsubscribe` calls on one subscription can both find it active, and
the second one closes its exit channel again. -/
theorem c54_idempotent_violated : ¬ IdempotentStatement := by
  intro h
  have := h 1 (run 1 (opening ++ subscribe 2 "t" "u" ++ [.call (.unsubscribe 2), .call (.unsubscribe 2),
    .step 3 .go, .step 4 .go, .step 3 .go, .step 4 .go])) (reach_run rfl)
  exact absurd this (by decide)

/-- C54: what does hold. If `Unsubscribe` calls on one subscription do not overlap, the process never panics,
however often it is called. -/
theorem c54_idempotent_partial {cap : Int} {s : St} (h : Reach cap OneAtATime s) : s.b.crashed = false :=
  (reach_seq h).crash

/-- C54: and, overlapping or not, a subscription is inactive once an `Unsubscribe` call on it has
returned. -/
theorem c54_deactivates {cap : Int} {s : St} (h : Reach cap Any s) {u x : Nat} {r : Ret}
    (ho : s.ops u = some (.unsubscribe x)) (hr : Ev.ret u r ∈ s.log) :
    r = .nil ∧ ∃ o, s.b.sub x = some o ∧ o.active = false := by
  have hs := h.toSub
  constructor
  · have := retOk_ret h hr
    rw [ho] at this
    cases r <;> first | rfl | exact this.elim
  · have := hs.isSome u _ x ho rfl
    cases hx : s.b.sub x with
    | none => rw [hx] at this; cases this
    | some o => exact ⟨o, rfl, hs.off u x ho (.inr ⟨r, hr⟩) o hx⟩

/-- A check for `OneAtATime`. -/
def oneAtATime (s : St) (a : Act) : Bool :=
  match a with
  | .call (.unsubscribe x) => (List.range s.next).all fun i =>
      (s.calls i).isNone || s.ops i ≠ some (.unsubscribe x)
  | _ => true

theorem oneAtATime_ok (cap : Int) (s : St) (a : Act) (h : Reach cap OneAtATime s)
    (hk : oneAtATime s a = true) : OneAtATime s a := by
  rintro x rfl i hi
  have hlt : i < s.next := by
    rcases Nat.lt_or_ge i s.next with h1 | h1
    · exact h1
    · rw [h.toInv.calls i h1] at hi; cases hi
  have := List.all_eq_true.mp hk i (List.mem_range.mpr hlt)
  cases hc : s.calls i with
  | none => rw [hc] at hi; cases hi
  | some pc => simpa [hc] using this

-- unsubscribe twice, one after the other
example : let s := (execIf oneAtATime (.init 1) (opening ++ subscribe 2 "t" "u" ++ unsubscribe 3 2 ++
      [.call (.unsubscribe 2), .step 5 .go, .ret 5])).getD (.init 1)
    Reach 1 OneAtATime s ∧ s.ops 3 = some (.unsubscribe 2) ∧ Ev.ret 3 .nil ∈ s.log ∧ Ev.ret 5 .nil ∈ s.log :=
  ⟨reach_runIf (oneAtATime_ok 1) rfl, rfl, by decide, by decide⟩

/-! ## C55 -/

/-- C55: a `Receive` call made after an `Unsubscribe` call on the same subscription has returned takes no
message, calls no handler, and if it returns, returns `ErrSubscriptionInactive`. -/
theorem c55_unsubscribed {cap : Int} {s : St} (h : Reach cap Any s) {u r x ctx : Nat} {res : Ret}
    (hu : s.ops u = some (.unsubscribe x)) (hr : s.ops r = some (.receive ctx x))
    (hb : Before (.ret u res) (.call r) s.log) :
    tookBy r s.log = [] ∧ handledBy r s.log = [] ∧ ∀ v, Ev.ret r v ∈ s.log → v = .inactive := by
  have hl := h.toLog.1
  have fin : ∀ {v}, DoneLog s.log r v → v = .inactive → tookBy r s.log = [] ∧ handledBy r s.log = [] := by
    rintro v hd rfl
    rcases hd.took with ⟨h1, h2, _⟩ | ⟨_, _, _, _, ⟨_, h⟩ | ⟨_, _, h⟩⟩ | ⟨_, _, _, h⟩
    · exact ⟨h1, h2⟩
    all_goals cases h
  rcases h.late u r x ctx res hu hr hb with h1 | h1 | h1
  · have h2 := hl.calls r _ h1
    exact ⟨h2.2.1, h2.2.2, fun v hv => by have := (hl.rets r v hv).1; rw [h1] at this; cases this⟩
  · have h2 := fin (hl.calls r _ h1) rfl
    exact ⟨h2.1, h2.2, fun v hv => by have := (hl.rets r v hv).1; rw [h1] at this; cases this⟩
  · have h2 := fin (hl.rets r _ h1).2 rfl
    exact ⟨h2.1, h2.2, fun v hv => hl.rets1 r v _ hv h1⟩

example : let s := run 1 (opening ++ subscribe 2 "t" "u" ++ publish 3 "t" msgA ++ unsubscribe 4 2 ++
      [.call (.receive 0 2), .step 6 .go, .ret 6])
    Reach 1 Any s ∧ s.ops 4 = some (.unsubscribe 2) ∧ s.ops 6 = some (.receive 0 2) ∧
      (∃ l1 l2, s.log = l1 ++ Ev.ret 4 .nil :: ([] ++ Ev.call 6 :: l2)) ∧ Ev.ret 6 .inactive ∈ s.log :=
  ⟨reach_run rfl, rfl, rfl, ⟨[.call 0, .opened 0, .ret 0 .nil, .call 2, .ret 2 .sub, .call 3, .sent 3 2,
    .ret 3 .nil, .call 4], [.ret 6 .inactive], by decide⟩, by decide⟩

/-! ## C56 -/

/-- C56: a `Receive` that returns without having called its handler has not taken a message. -/
def ReceiveStatement : Prop := ∀ cap s, Reach cap Any s → ∀ r ctx x v, s.ops r = some (.receive ctx x) →
  Ev.ret r v ∈ s.log → handledBy r s.log = [] → tookBy r s.log = []

/-- C56 does not hold: when its timer expires, `Receive` throws away the next message. -/
theorem c56_receive_violated : ¬ ReceiveStatement := by
  intro h
  have := h 1 (run 1 (opening ++ subscribe 2 "t" "u" ++ [.call (.receive 0 2), .step 3 .go, .step 3 .timeout] ++
    publish 4 "t" msgA ++ [.step 3 .go, .ret 3])) (reach_run rfl) 3 0 2 .timeout rfl (by decide) (by decide)
  exact absurd this (by decide)

/-- C56: what does hold. `Receive` calls its handler at most once, and only with a message it took; it then
returns what the handler returned. If it returns nil or an inactive subscription without calling the handler
it took nothing; if it returns `ErrTimeout` it called no handler and took at most one message. -/
theorem c56_receive_partial {cap : Int} {s : St} (h : Reach cap Any s) {r ctx x : Nat} {v : Ret}
    (ho : s.ops r = some (.receive ctx x)) (hr : Ev.ret r v ∈ s.log) :
    (handledBy r s.log = [] ∧ tookBy r s.log = [] ∧ (v = .nil ∨ v = .inactive ∨ v = .timeout)) ∨
    (∃ p m ctx' t, handledBy r s.log = [m] ∧ tookBy r s.log = [p] ∧ s.ops p = some (.pub ctx' t m) ∧
      ((Ev.handled r none ∈ s.log ∧ v = .nil) ∨ ∃ e, Ev.handled r (some e) ∈ s.log ∧ v = .fail e)) ∨
    (handledBy r s.log = [] ∧ (∃ p, tookBy r s.log = [p]) ∧ v = .timeout) := by
  have hl := h.toLog.1
  have hok := retOk_ret h hr
  rw [ho] at hok
  rcases (hl.rets r v hr).2.took with ⟨h1, h2, h3⟩ | ⟨p, m, h1, h2, h3⟩ | ⟨p, h1, h2, h3⟩
  · refine .inl ⟨h2, h1, ?_⟩
    cases v with
    | nil => exact .inl rfl
    | inactive => exact .inr (.inl rfl)
    | timeout => exact .inr (.inr rfl)
    | fail e => exact (h3 e rfl).elim
    | _ => exact hok.elim
  · right; left
    have hm : Ev.handle r m ∈ s.log := by
      have hm : m ∈ handledBy r s.log := by rw [h2]; simp
      obtain ⟨ev, hev, hp⟩ := List.mem_filterMap.mp hm
      cases ev with
      | handle r' m' =>
        dsimp only at hp
        split at hp
        · next hc => cases hp; rw [← hc]; exact hev
        · cases hp
      | _ => cases hp
    obtain ⟨p', ch, ctx', t, h4, h5⟩ := hl.handle r m hm
    have : p' ∈ tookBy r s.log := List.mem_filterMap.mpr ⟨_, h4, by simp⟩
    rw [h1] at this
    cases List.mem_singleton.mp this
    exact ⟨p, m, ctx', t, h2, h1, h5, h3⟩
  · exact .inr (.inr ⟨h2, ⟨p, h1⟩, h3⟩)

example : let s := run 1 (opening ++ subscribe 2 "t" "u" ++ publish 3 "t" msgA ++ receive 4 2 (some 7))
    Reach 1 Any s ∧ s.ops 4 = some (.receive 0 2) ∧ Ev.ret 4 (.fail 7) ∈ s.log ∧
      handledBy 4 s.log = [msgA] ∧ tookBy 4 s.log = [3] :=
  ⟨reach_run rfl, rfl, by decide, by decide, by decide⟩
example : let s := run 1 (opening ++ subscribe 2 "t" "u" ++ [.call (.receive 0 2), .step 3 .go, .step 3 .timeout,
      .step 3 .go, .ret 3])
    Reach 1 Any s ∧ s.ops 3 = some (.receive 0 2) ∧ Ev.ret 3 .timeout ∈ s.log ∧ tookBy 3 s.log = [] :=
  ⟨reach_run rfl, rfl, by decide, by decide⟩

end Netscrape.Props
