import Verif.Props.BrokerSession
import Verif.Lemmas.BrokerRace

/-!
# The in-memory broker: topics, termination, goroutines, data races
-/

namespace Netscrape.Props
open Netscrape.Conc (upd upd_self upd_ne)
open Netscrape.Broker Netscrape.Spec Netscrape.Spec.Broker

/-! ## C65 -/

/-- C65: until the broker is closed, everybody on a topic uses the same channel: two `Pub` calls put their
messages on the same one, and receivers of a subscription take messages from where `Pub` calls on its topic
put them. -/
theorem c65_shared {cap : Int} {s : St} (h : Reach cap Any s) {p ch ctx : Nat} {t : String} {m : Msg}
    (hp : Ev.sent p ch ∈ s.log) (ho : s.ops p = some (.pub ctx t m)) (hc : ¬ ClosedAfter p s.log) :
    (∀ p' ch' ctx' m', Ev.sent p' ch' ∈ s.log → s.ops p' = some (.pub ctx' t m') →
      ¬ ClosedAfter p' s.log → ch' = ch) ∧
    (∀ r ch' p' ctx' x u, Ev.took r ch' p' ∈ s.log → s.ops r = some (.receive ctx' x) →
      s.ops x = some (.sub t u) → ¬ ClosedAfter x s.log → ch' = ch) := by
  have ht := h.toTopic
  obtain ⟨q, hq, hcur⟩ := ht.sent p ch ctx m t hp ho
  have hcur := hcur.resolve_left hc
  constructor
  · intro p' ch' ctx' m' hp' ho' hc'
    obtain ⟨q', hq', hcur'⟩ := ht.sent p' ch' ctx' m' t hp' ho'
    have := hcur'.resolve_left hc'
    rw [hcur] at this; cases this
    rw [← hq, ← hq']
  · intro r ch' p' ctx' x u hr hor hx hc'
    obtain ⟨_, x', o, h1, h2, h3⟩ := h.took r ch' p' hr
    rw [hor] at h1; cases h1
    have h4 := (h.toInv.mem.subs _ o h2).1
    rw [hx] at h4
    injection h4 with h4
    injection h4 with h4 h5
    have := (ht.sub _ o h2).resolve_left hc'
    rw [← h4, hcur] at this
    cases this
    rw [← hq, ← h3]

/-- C65: if a message was published on a topic and not taken yet, and there is a subscription to the topic
nobody has unsubscribed, and the broker was not closed since either call was made, a new `Receive` on the
subscription can get a message at once: the oldest one on the topic that was not taken. -/
theorem c65_available {cap : Int} {s : St} (h : Reach cap Any s) {p ch ctx x c : Nat} {t u : String} {m : Msg}
    (hn : s.b.crashed = false)
    (hp : Ev.sent p ch ∈ s.log) (ho : s.ops p = some (.pub ctx t m)) (hc : ¬ ClosedAfter p s.log)
    (hu : takers p s.log = [])
    (hr : Ev.ret x .sub ∈ s.log) (hx : s.ops x = some (.sub t u)) (hcx : ¬ ClosedAfter x s.log)
    (ha : ∀ i, s.ops i ≠ some (.unsubscribe x)) :
    ∃ s' p' ctx' m' l, sentOn ch s.log = tookFrom ch s.log ++ p' :: l ∧ s.ops p' = some (.pub ctx' t m') ∧
      exec s [.call (.receive c x), .step s.next .go, .step s.next .msg] = some s' ∧
      tookBy s.next s'.log = [p'] ∧ handledBy s.next s'.log = [m'] := by
  have ht := h.toTopic
  have hi := h.toInv
  have hl := h.toLog.1
  obtain ⟨o, hox⟩ := Option.isSome_iff_exists.mp (h.made x (.inr hr))
  have h4 := (hi.mem.subs _ o hox).1
  rw [hx] at h4
  injection h4 with h4
  injection h4 with h4 h5
  have hact : o.active = true := by
    cases hb : o.active with
    | true => rfl
    | false =>
      obtain ⟨i, hi'⟩ := h.toRecv.unsub x ⟨t, u, hx⟩ (h.offClosed.1 x o hox hb)
      exact (ha i hi').elim
  have hq : o.queue.msg = ch := by
    obtain ⟨q, hq, hcur⟩ := ht.sent p ch ctx m t hp ho
    have hcur := hcur.resolve_left hc
    have := (ht.sub _ o hox).resolve_left hcx
    rw [← h4, hcur] at this
    cases this
    exact hq
  -- the message
  have hin : p ∈ (s.b.buf ch).map Prod.fst := by
    have h1 : p ∈ sentOn ch s.log := List.mem_filterMap.mpr ⟨_, hp, by simp⟩
    rw [hl.chan ch, List.mem_append] at h1
    rcases h1 with h1 | h1
    · obtain ⟨e, he, hee⟩ := List.mem_filterMap.mp h1
      cases e with
      | took r c p' =>
        dsimp only at hee
        split at hee
        · cases hee
          have : r ∈ takers p s.log := List.mem_filterMap.mpr ⟨_, he, by simp⟩
          rw [hu] at this; cases this
        · cases hee
      | _ => cases hee
    · exact h1
  cases hb : s.b.buf ch with
  | nil => rw [hb] at hin; cases hin
  | cons x' l =>
    obtain ⟨p', m'⟩ := x'
    obtain ⟨ctx', t', h6, h7⟩ := hi.mem.buf ch p' m' (by rw [hb]; exact List.mem_cons_self)
    obtain ⟨_, t'', _, h8, h9⟩ := hl.sent p ch hp
    rw [ho] at h8; cases h8
    have htt : t' = t := by
      rcases h7 with ⟨_, _, h7⟩ | ⟨_, h7⟩ <;> rcases h9 with ⟨_, _, h9⟩ | ⟨_, h9⟩ <;> rw [h7] at h9 <;>
        cases h9 <;> rfl
    subst htt
    have hnone : ∀ e ∈ s.log, subj e ≠ some s.next := fun e he hs =>
      absurd (hl.ids e he _ hs) (Nat.lt_irrefl _)
    have h10 := none_of hnone
    refine ⟨{ s with
        b := { s.b with buf := upd s.b.buf ch l },
        calls := upd (upd (upd s.calls s.next (some (.recvChk c x))) s.next (some (.recvSel c x))) s.next
          (some (.handling m')),
        ops := upd s.ops s.next (some (.receive c x)),
        next := s.next + 1,
        log := ((s.log ++ [.call s.next]) ++ []) ++ [.took s.next ch p', .handle s.next m'] },
      p', ctx', m', l.map Prod.fst, ?_, h6, ?_, ?_, ?_⟩
    · rw [hl.chan ch, hb]; rfl
    · subst hq
      simp only [exec, Broker.step, hn, Mem.has, hox, Option.isSome_some, if_true, Bool.false_eq_true, if_false,
        upd_self, PC.start, micro, hact, hb]
    · simp only [tookBy_append, List.append_nil, h10.2.1]
      simp [tookBy]
    · simp only [handledBy_append, List.append_nil, h10.2.2]
      simp [handledBy]

-- two messages published before and one after a subscription was made, all on the same channel
example : let s := run 5 (opening ++ publish 2 "t" msgA ++ publish 3 "t" msgB ++ subscribe 4 "t" "u" ++
      publish 5 "t" msgA ++ receive 6 4 none)
    Reach 5 Any s ∧ sentOn 2 s.log = [2, 3, 5] ∧ Ev.took 6 2 2 ∈ s.log ∧ takers 5 s.log = [] ∧
      Ev.ret 4 .sub ∈ s.log ∧ s.b.crashed = false ∧ (∀ j, Ev.closed j ∉ s.log) ∧
      ∀ i, s.ops i ≠ some (.unsubscribe 4) := by
  intro s
  refine ⟨reach_run rfl, by decide, by decide, by decide, by decide, by decide, ?_, ?_⟩
  · intro j
    have : s.log = [.call 0, .opened 0, .ret 0 .nil, .call 2, .sent 2 2, .ret 2 .nil, .call 3, .sent 3 2,
      .ret 3 .nil, .call 4, .ret 4 .sub, .call 5, .sent 5 2, .ret 5 .nil, .call 6, .took 6 2 2,
      .handle 6 msgA, .handled 6 none, .ret 6 .nil] := by decide
    rw [this]; simp
  · intro u
    rcases u with _ | _ | _ | _ | _ | _ | _ | u <;> exact nofun

/-! ## C66 -/

/-- C66: no call of the broker makes more than a few steps of its own, whatever everybody else does. -/
theorem c66_bounded {cap : Int} {acts : List Act} {s : St} {i : Nat} {op : Op}
    (h : exec (.init cap) acts = some s) (ho : s.ops i = some op) : acts.countP (mine i) ≤ bound op :=
  mine_bound .init (Nat.zero_le _) h ho

/-- C66: unless the process has crashed, a call that has not returned can go on: nobody can block it
for good. -/
theorem c66_enabled {cap : Int} {s : St} {i : Nat} {op : Op} (h : Reach cap Any s) (hn : s.b.crashed = false)
    (ho : s.ops i = some op) (hr : ∀ r, Ev.ret i r ∉ s.log) :
    ∃ a, mine i a = true ∧ (step s a).isSome = true := by
  rcases h.pending i op ho with hc | ⟨r, hc⟩
  · obtain ⟨pc, hc⟩ := Option.isSome_iff_exists.mp hc
    exact can_step h hn ho hc
  · exact (hr r hc).elim

/-- C66: in every execution that treats it fairly every call returns. -/
theorem c66_returns {cap : Int} {f : Nat → St} {acts : Nat → Act} {i : Nat} {op : Op}
    (h : Reach cap Any (f 0)) (ho : (f 0).ops i = some op) (hf : FairTo i f acts) :
    ∃ n r, Ev.ret i r ∈ (f n).log := fair_returns h ho hf

-- the longest possible `Pub`, whose context is cancelled
example : let acts := opening ++ [.call (.pub 7 "t" msgA), .step 2 .go, .step 2 .go, .step 2 .go, .cancel 7,
      .step 2 .ctx, .step 2 .go, .ret 2]
    (exec (.init 0) acts).isSome = true ∧ acts.countP (mine 2) = bound (.pub 7 "t" msgA) ∧
      (run 0 acts).ops 2 = some (.pub 7 "t" msgA) ∧ Ev.ret 2 .nil ∈ (run 0 acts).log := by decide

-- a `Pub` that waits for a receiver can give up; afterwards other contexts are cancelled for ever
example : let s := run 0 (opening ++ [.call (.pub 0 "t" msgA), .step 2 .go, .step 2 .go, .step 2 .go])
    Reach 0 Any s ∧ s.b.crashed = false ∧ s.ops 2 = some (.pub 0 "t" msgA) ∧ (∀ r, Ev.ret 2 r ∉ s.log) ∧
    ∃ f acts, f 0 = s ∧ FairTo 2 f acts := by
  intro s
  have hlog : s.log = [.call 0, .opened 0, .ret 0 .nil, .call 2] := by decide
  let s1 := run 0 (opening ++ [.call (.pub 0 "t" msgA), .step 2 .go, .step 2 .go, .step 2 .go, .step 2 .timeout])
  let s2 := run 0 (opening ++ [.call (.pub 0 "t" msgA), .step 2 .go, .step 2 .go, .step 2 .go, .step 2 .timeout,
    .ret 2])
  let later : Nat → St := fun n => Nat.rec s2 (fun n s => { s with b := { s.b with done := upd s.b.done n true } }) n
  have hl : ∀ n, (later n).b.crashed = false ∧ (later n).calls 2 = none := by
    intro n
    induction n with
    | zero => exact ⟨rfl, rfl⟩
    | succ n ih => exact ih
  refine ⟨reach_run rfl, rfl, rfl, by rw [hlog]; simp,
    fun | 0 => s | 1 => s1 | n + 2 => later n, fun | 0 => .step 2 .timeout | 1 => .ret 2 | n + 2 => .cancel n,
    rfl, ?_, ?_⟩
  · intro n
    rcases n with _ | _ | n
    · rfl
    · rfl
    · show step (later n) (.cancel n) = some (later (n + 1))
      exact if_neg (by rw [(hl n).1]; exact nofun)
  · intro n hall
    rcases n with _ | _ | n
    · exact ⟨0, Nat.le_refl _, rfl⟩
    · exact ⟨1, Nat.le_refl _, rfl⟩
    · exfalso
      obtain ⟨a, h1, h2⟩ := hall (n + 2) (Nat.le_refl _)
      change (step (later n) a).isSome = true at h2
      cases a with
      | step j alt =>
        have : 2 = j := by simpa [mine] using h1
        subst this
        simp [step, (hl n).1, (hl n).2] at h2
      | ret j =>
        have : 2 = j := by simpa [mine] using h1
        subst this
        simp [step, (hl n).1, (hl n).2] at h2
      | _ => simp [mine] at h1

/-! ## C67 -/

/-- C67: once the broker is closed, every goroutine it has started can end. -/
def LeakStatement : Prop := ∀ cap s, Reach cap Any s → s.b.crashed = false → isOpen s.log = false →
  ∀ j, s.ops j = none → (s.calls j).isSome = true → CanEnd s j

/-- C67 does not hold: two concurrent calls of `Open` both start a session, `Close` closes the exit channel of
one of them only, and the goroutine of the other one waits for ever (unless its context is cancelled). -/
theorem c67_leak_violated : ¬ LeakStatement := by
  intro h
  let s := run 1 ([.call (.open 0), .call (.open 0), .step 0 .go, .step 1 .go, .step 0 .go, .step 2 .go,
    .step 2 .go, .step 1 .go, .ret 0, .ret 1] ++ [.call .close, .step 4 .go, .ret 4])
  obtain ⟨acts, s', h1, h2, h3⟩ := h 1 s (reach_run rfl) rfl (by decide) 2 rfl rfl
  have hc : s.calls 2 = some (.runSel 0 (some 0) (some 0)) := rfl
  cases acts with
  | nil => cases h2; rw [hc] at h3; cases h3
  | cons a as =>
    have ha := h1 a List.mem_cons_self
    have : step s a = none := by
      cases a with
      | step j alt =>
        have : 2 = j := by simpa [mine] using ha
        subst this
        cases alt <;> rfl
      | ret j =>
        have : 2 = j := by simpa [mine] using ha
        subst this
        rfl
      | _ => simp [mine] at ha
    rw [exec, this] at h2
    cases h2

/-- C67: if `Open` is called only when no other `Open` call and no goroutine of an earlier session is in
progress, every goroutine the broker has started can end, without anybody's help, once the broker is
closed. -/
theorem c67_ends_partial {cap : Int} {s : St} (h : Reach cap SoloOpen s) (hn : s.b.crashed = false)
    (hd : isOpen s.log = false) {j : Nat} (ho : s.ops j = none) (hc : (s.calls j).isSome = true) :
    CanEnd s j := by
  obtain ⟨pc, hc⟩ := Option.isSome_iff_exists.mp hc
  exact can_end h hn (by rw [h.toCall.conn]; exact hd) ho hc

-- the session's goroutine and that of an `Unsubscribe`, both waiting when the broker is closed
example : let s := (execIf soloOpen (.init 1) (opening ++ [.step 1 .go, .step 1 .go] ++ subscribe 2 "t" "u" ++
      unsubscribe 3 2 ++ closing 5)).getD (.init 1)
    Reach 1 SoloOpen s ∧ s.b.crashed = false ∧ isOpen s.log = false ∧ s.ops 1 = none ∧
      (s.calls 1).isSome = true ∧ s.ops 4 = none ∧ (s.calls 4).isSome = true :=
  ⟨reach_runIf (soloOpen_ok 1) rfl, rfl, by decide, rfl, rfl, rfl, rfl⟩

/-! ## C68 -/

/-- C68: nobody can make two goroutines access a field of the broker at the same time, one of them writing. -/
def ExitRaceStatement : Prop := ∀ cap s, Reach cap Any s → ¬ RaceOn s .exit

/-- C68 does not hold: a broker that is opened, closed and opened again by a single caller races with the
goroutine of its first session, which reads the exit channel without the lock. -/
theorem c68_exit_violated : ¬ ExitRaceStatement := by
  intro h
  let s := run 1 (opening ++ closing 2 ++ [.call (.open 0), .step 3 .go])
  exact h 1 s (reach_run rfl) ⟨3, 1, .openSet 0, .run 0, ⟨.exit, true, .write⟩, ⟨.exit, false, .none⟩,
    by decide, rfl, rfl, by decide, by decide, rfl, rfl, .inl rfl, id⟩

/-- C68 does not hold even if sessions do not overlap: `Pub` reads the exit channel without the lock. -/
theorem c68_pub_violated : ¬ ∀ cap s, Reach cap SoloOpen s → ¬ RaceOn s .exit := by
  intro h
  let acts : List Act := opening ++ [.step 1 .go, .step 1 .go, .call (.pub 0 "t" msgA), .step 2 .go, .step 2 .go] ++ closing 3 ++
    [.step 1 .exit, .step 1 .go, .ret 1, .call (.open 0), .step 4 .go]
  have hr := reach_runIf (soloOpen_ok 1) (acts := acts) rfl
  exact h 1 _ hr ⟨4, 2, .openSet 0, .pubRead 0 ⟨2, some 0⟩ msgA, ⟨.exit, true, .write⟩, ⟨.exit, false, .none⟩,
    by decide, rfl, rfl, by decide, by decide, rfl, rfl, .inl rfl, id⟩

/-- C68: the same for the state of a subscription. -/
def ActiveRaceStatement : Prop := ∀ cap s, Reach cap Any s → ∀ x, ¬ RaceOn s (.active x)

/-- C68 does not hold: `Unsubscribe` writes while it holds the read lock, so it races with `Receive` and with
itself. -/
theorem c68_active_violated : ¬ ActiveRaceStatement := by
  intro h
  let s := run 1 (opening ++ subscribe 2 "t" "u" ++ [.call (.unsubscribe 2), .step 3 .go, .step 3 .go,
    .call (.receive 0 2)])
  exact h 1 s (reach_run rfl) 2 ⟨3, 4, .unsubSet 2, .recvChk 0 2, ⟨.active 2, true, .read⟩,
    ⟨.active 2, false, .read⟩, by decide, rfl, rfl, by decide, by decide, rfl, rfl, .inl rfl, id⟩

/-- C68: there is never a race on whether the broker is open, its topics, and its table of subscriptions,
and every step writes only the fields listed for it. -/
theorem c68_guarded_partial {cap : Int} {s : St} (h : Reach cap Any s) :
    (¬ RaceOn s .connected ∧ ¬ RaceOn s .topics ∧ ¬ RaceOn s .subs) ∧
    ∀ i alt pc s', s.calls i = some pc → step s (.step i alt) = some s' → Accounted s.b s'.b pc := by
  exact ⟨⟨no_race_locked (.inl rfl), no_race_locked (.inr (.inl rfl)), no_race_locked (.inr (.inr rfl))⟩,
    fun i alt pc s' h1 h2 => h.accounted h1 h2⟩

/-- C68: if `Open` is only called when no other `Open`, no `Pub` and no goroutine of an earlier session is in
progress, and `Unsubscribe` does not overlap with other calls on the same subscription, there are no races. -/
theorem c68_free_partial {cap : Int} {s : St} (h : Reach cap (fun s a => QuietOpen s a ∧ AloneUnsub s a) s)
    (l : Loc) : ¬ RaceOn s l := by
  have hq := reach_quiet (h.mono fun _ _ h => h.1)
  have ha := reach_alone (h.mono fun _ _ h => h.2)
  cases l with
  | connected => exact no_race_locked (.inl rfl)
  | topics => exact no_race_locked (.inr (.inl rfl))
  | subs => exact no_race_locked (.inr (.inr rfl))
  | exit => exact no_race_session hq (.inl rfl)
  | ctl => exact no_race_session hq (.inr rfl)
  | active x => exact no_race_active h.toInv ha x

/-- A check for both. -/
def careful (s : St) (a : Act) : Bool :=
  match a with
  | .call (.open _) => s.next == 0
  | .call (.unsubscribe x) => (List.range s.next).all fun i => !(s.calls i).isSome ||
      match s.ops i with
      | some (.unsubscribe y) => x != y
      | some (.receive _ y) => x != y
      | _ => true
  | .call (.receive _ x) => (List.range s.next).all fun i => !(s.calls i).isSome ||
      match s.ops i with
      | some (.unsubscribe y) => x != y
      | _ => true
  | _ => true

theorem careful_ok (cap : Int) (s : St) (a : Act)
    (h : Reach cap (fun s a => QuietOpen s a ∧ AloneUnsub s a) s) (hk : careful s a = true) :
    QuietOpen s a ∧ AloneUnsub s a := by
  have hi := h.toInv
  have lt : ∀ {i}, (s.calls i).isSome = true → i ∈ List.range s.next := by
    intro i hc
    rw [List.mem_range]
    rcases Nat.lt_or_ge i s.next with h1 | h1
    · exact h1
    · rw [hi.calls i h1] at hc; cases hc
  constructor
  · rintro ctx rfl j pc hj
    have h0 : s.next = 0 := by simpa [careful] using hk
    rw [hi.calls j (by omega)] at hj
    cases hj
  · intro x
    constructor
    · rintro rfl i hc
      have h1 := List.all_eq_true.mp hk i (lt hc)
      rw [hc] at h1
      constructor
      · intro ho; rw [ho] at h1; simp at h1
      · intro c ho; rw [ho] at h1; simp at h1
    · rintro ⟨c, rfl⟩ i hc ho
      have h1 := List.all_eq_true.mp hk i (lt hc)
      rw [hc, ho] at h1
      simp at h1

-- publishing, receiving and unsubscribing at the same time, on two subscriptions
example : let s := (execIf careful (.init 1) (opening ++ subscribe 2 "t" "u" ++ subscribe 3 "t" "v" ++
      [.call (.pub 0 "t" msgA), .step 4 .go, .step 4 .go, .call (.receive 0 2), .call (.receive 0 2),
        .call (.unsubscribe 3), .step 7 .go, .step 7 .go, .call .close])).getD (.init 1)
    Reach 1 (fun s a => QuietOpen s a ∧ AloneUnsub s a) s ∧ s.calls 1 = some (.run 0) ∧
      s.calls 4 = some (.pubRead 0 ⟨2, some 0⟩ msgA) ∧ s.calls 5 = some (.recvChk 0 2) ∧
      s.calls 6 = some (.recvChk 0 2) ∧ s.calls 7 = some (.unsubSet 3) ∧ s.calls 8 = some .closing :=
  ⟨reach_runIf (careful_ok 1) rfl, rfl, rfl, rfl, rfl, rfl, rfl⟩

end Netscrape.Props
