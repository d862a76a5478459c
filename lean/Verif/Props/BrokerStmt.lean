import Verif.Lemmas.BrokerStmt
import Verif.Props.BrokerLock
import Verif.Props.BrokerSession

/-!
# What is known of the broker, statement by statement

C51, C54, C56, C57, C58, C65, C67 and C68 once more, for the broker in which goroutines take turns in the middle of
critical sections.
-/

namespace Netscrape.Props
open Netscrape.BrokerLock Netscrape.Spec Netscrape.Spec.BrokerLock
open Netscrape.Broker (Mem Msg Op Ret PC Ev Alt Queue Sub Loc)
open Netscrape.Spec.Broker (tookFrom sentOn sentBy takers tookBy handledBy isOpen Opens ClosedAfter OnTopic)

/-! ## Without restrictions -/

/-- C51, statement by statement. -/
theorem c51_stmt_partial {cap : Int} {s : St} (h : Reach cap Any s) {i ctx : Nat} {t : String} {m : Msg} {r : Ret}
    (ho : s.ops i = some (.pub ctx t m)) (hr : Ev.ret i r ∈ s.log) :
    (r ≠ .nil → sentBy i s.log = [] ∧ takers i s.log = []) ∧
    (r = .nil → (∃ ch, sentBy i s.log = [ch] ∧ OnTopic s.ops ch t) ∨
      (sentBy i s.log = [] ∧ takers i s.log = [] ∧ (ClosedAfter i s.log ∨ s.b.done ctx = true))) := by
  obtain ⟨c, h1, h2, h3, h4, _⟩ := c96_atomic h
  rw [← h3] at ho
  rw [← h2] at hr
  rw [← h2, ← h3, ← h4]
  exact c51_published_partial h1 ho hr

/-- C54, statement by statement: a subscription is inactive once an `Unsubscribe` call on it has returned. -/
theorem c54_stmt_deactivates {cap : Int} {s : St} (h : Reach cap Any s) {u x : Nat} {r : Ret}
    (ho : s.ops u = some (.unsubscribe x)) (hr : Ev.ret u r ∈ s.log) :
    r = .nil ∧ ∃ o, s.b.sub x = some o ∧ o.active = false := by
  obtain ⟨c, h1, h2⟩ := sim_any h
  have hb : c.b.sub = s.b.sub := by rw [h2.b]; rfl
  rw [← h2.log] at hr
  rw [← h2.ops] at ho
  rw [← hb]
  exact c54_deactivates h1 ho hr

/-- C56, statement by statement. -/
theorem c56_stmt_partial {cap : Int} {s : St} (h : Reach cap Any s) {r ctx x : Nat} {v : Ret}
    (ho : s.ops r = some (.receive ctx x)) (hr : Ev.ret r v ∈ s.log) :
    (handledBy r s.log = [] ∧ tookBy r s.log = [] ∧ (v = .nil ∨ v = .inactive ∨ v = .timeout)) ∨
    (∃ p m ctx' t, handledBy r s.log = [m] ∧ tookBy r s.log = [p] ∧ s.ops p = some (.pub ctx' t m) ∧
      ((Ev.handled r none ∈ s.log ∧ v = .nil) ∨ ∃ e, Ev.handled r (some e) ∈ s.log ∧ v = .fail e)) ∨
    (handledBy r s.log = [] ∧ (∃ p, tookBy r s.log = [p]) ∧ v = .timeout) := by
  obtain ⟨c, h1, h2, h3, _⟩ := c96_atomic h
  rw [← h3] at ho
  rw [← h2] at hr
  rw [← h2, ← h3]
  exact c56_receive_partial h1 ho hr

/-- C58, statement by statement. -/
theorem c58_stmt_cancel_partial {cap : Int} {s : St} (h : Reach cap Any s)
    (hp : ∀ i ctx t m, s.ops i = some (.pub ctx t m) → s.b.done ctx = false)
    (hc : ∃ j, Ev.closed j ∈ s.log) :
    (∃ i, s.ops i = some .close) ∨ ∃ i ctx, s.ops i = some (.open ctx) ∧ s.b.done ctx = true := by
  obtain ⟨c, h1, h2, h3, h4, _⟩ := c96_atomic h
  rw [← h3, ← h4] at hp ⊢
  rw [← h2] at hc
  exact c58_cancel_partial h1 hp hc

/-- C65, statement by statement. -/
theorem c65_stmt_shared {cap : Int} {s : St} (h : Reach cap Any s) {p ch ctx : Nat} {t : String} {m : Msg}
    (hp : Ev.sent p ch ∈ s.log) (ho : s.ops p = some (.pub ctx t m)) (hc : ¬ ClosedAfter p s.log) :
    (∀ p' ch' ctx' m', Ev.sent p' ch' ∈ s.log → s.ops p' = some (.pub ctx' t m') →
      ¬ ClosedAfter p' s.log → ch' = ch) ∧
    (∀ r ch' p' ctx' x u, Ev.took r ch' p' ∈ s.log → s.ops r = some (.receive ctx' x) →
      s.ops x = some (.sub t u) → ¬ ClosedAfter x s.log → ch' = ch) := by
  obtain ⟨c, h1, h2, h3, _⟩ := c96_atomic h
  rw [← h3] at ho ⊢
  rw [← h2] at hp hc ⊢
  exact c65_shared h1 hp ho hc

-- `Pub`, `Receive` and `Unsubscribe` have returned, another `Receive` has a message of another subscription, and
-- `Close` is in the middle
example : let s := Lock.run 2 (Lock.opens 0 ++ Lock.subscribes 2 "t" "u" ++ Lock.subscribes 3 "v" "w" ++
      Lock.publishes 4 "t" msgA ++ [.call (.receive 0 2), .step 5 .go, .step 5 .msg, .step 5 (.result none), .ret 5] ++
      Lock.publishes 6 "v" msgB ++ [.call (.receive 0 3), .step 7 .go, .step 7 .msg, .call (.unsubscribe 2), .step 8 .go,
        .step 8 .go, .step 8 .go, .step 8 .go, .ret 8, .call .close, .lock 10, .lock 10, .stmt 10 "", .stmt 10 ""])
    Reach 2 Any s ∧ Ev.ret 4 .nil ∈ s.log ∧ s.ops 4 = some (.pub 0 "t" msgA) ∧ Ev.ret 5 .nil ∈ s.log ∧
      s.ops 5 = some (.receive 0 2) ∧ Ev.ret 8 .nil ∈ s.log ∧ s.ops 8 = some (.unsubscribe 2) ∧
      Ev.closed 10 ∈ s.log ∧ s.calls 10 = some .close3 ∧ s.b.done 0 = false :=
  ⟨Lock.reach_run rfl, by decide, rfl, by decide, rfl, by decide, rfl, by decide, rfl, rfl⟩

-- two messages on one topic, sent while the broker is open
example : let s := Lock.run 2 (Lock.opens 0 ++ Lock.subscribes 2 "t" "u" ++ Lock.publishes 3 "t" msgA ++
      Lock.publishes 4 "t" msgB ++ [.call (.sub "t" "v")] ++ Lock.reads 5 ++ [.lock 5, .lock 5, .stmt 5 ""])
    Reach 2 Any s ∧ Ev.sent 3 2 ∈ s.log ∧ Ev.sent 4 2 ∈ s.log ∧ s.ops 3 = some (.pub 0 "t" msgA) ∧
      (∀ j, Ev.closed j ∉ s.log) ∧ s.calls 5 = some (.sub4 "t" "v" ⟨2, some 0⟩) :=
  ⟨Lock.reach_run rfl, by decide, by decide, rfl, by
    intro j hj
    have : (Ev.closed j) ∈ [Ev.call 0, .opened 0, .ret 0 .nil, .call 2, .ret 2 .sub, .call 3, .sent 3 2, .ret 3 .nil,
      .call 4, .sent 4 2, .ret 4 .nil, .call 5] := hj
    simp at this, rfl⟩

/-! ## Sessions -/

/-- C57, statement by statement: if whenever the broker is closed every topic has had a subscriber and no `Pub` or `Sub`
is about to look up its topic, then a closed broker has no topics, and subscriptions made after closing see no message
published before. -/
theorem c57_stmt_fresh_partial {cap : Int} {s : St} (h : Reach cap TidyClose s) :
    (isOpen s.log = false → s.mu.wr = .free → ∀ t, s.b.topics.get? t = none) ∧
    (∀ l1 j l2 r ctx x ch p, s.log = l1 ++ Ev.closed j :: l2 → Ev.call x ∈ l2 →
      s.ops r = some (.receive ctx x) → Ev.took r ch p ∈ s.log → Ev.sent p ch ∉ l1) := by
  obtain ⟨c, h1, h2⟩ := sim_tidy h
  obtain ⟨h3, h4⟩ := c57_fresh_partial h1
  constructor
  · intro ho hm
    have he := h2.eqg fun i hi => (h.inv.lock.free hm i).2 hi
    rw [he.topics]
    exact h3 (by rw [h2.log]; exact ho)
  · rw [← h2.log, ← h2.ops]; exact h4

/-- C57, statement by statement: under the same condition subscriptions are live until the broker is closed. -/
theorem c57_stmt_live_partial {cap : Int} {s : St} (h : Reach cap TidyClose s) {r ctx x : Nat}
    (hr : s.ops r = some (.receive ctx x)) (hn : Ev.ret r .nil ∈ s.log) (hh : handledBy r s.log = []) :
    s.b.done ctx = true ∨ (∃ u, s.ops u = some (.unsubscribe x)) ∨ ClosedAfter x s.log := by
  obtain ⟨c, h1, h2⟩ := sim_tidy h
  have hd : c.b.done = s.b.done := by rw [h2.b]; rfl
  rw [← h2.log, ← h2.ops, ← hd] at *
  exact c57_live_partial h1 hr hn hh

/-- C57, statement by statement: if `Open` is called only when no other `Open` and no goroutine of an earlier session is
in progress, a session is closed only by a `Close` call that had not returned before it was opened, because its own
context was cancelled, or by a `Pub` call whose context was cancelled. -/
theorem c57_stmt_stays_open_partial {cap : Int} {s : St} (h : Reach cap SoloOpen s) {l1 l2 l3 : List Ev} {i j : Nat}
    (hl : s.log = l1 ++ Ev.opened i :: (l2 ++ Ev.closed j :: l3)) (hn : ¬ Opens l2) :
    (s.ops j = some .close ∧ ∀ r, Ev.ret j r ∉ l1) ∨
    (∃ ctx, s.ops i = some (.open ctx) ∧ s.b.done ctx = true) ∨
    ∃ ctx t m, s.ops j = some (.pub ctx t m) ∧ s.b.done ctx = true := by
  obtain ⟨c, h1, h2⟩ := sim_solo h
  have hd : c.b.done = s.b.done := by rw [h2.b]; rfl
  rw [← h2.log] at hl
  rw [← h2.ops, ← hd]
  exact c57_stays_open_partial h1 hl hn

/-- C67, statement by statement: if `Open` is called only when no other `Open` and no goroutine of an earlier session is
in progress, then once the broker is closed, and nobody is in a critical section, every goroutine it has started can end
by its own steps alone. -/
theorem c67_stmt_ends_partial {cap : Int} {s : St} (h : Reach cap SoloOpen s) (hn : s.b.crashed = false)
    (hd : isOpen s.log = false) (hm : s.mu.readers = 0 ∧ s.mu.wr = .free) {j : Nat} (ho : s.ops j = none)
    (hc : (s.calls j).isSome = true) :
    ∃ acts s', (∀ a ∈ acts, mine j a = true) ∧ exec s acts = some s' ∧ s'.calls j = none := by
  obtain ⟨c, h1, h2⟩ := sim_solo h
  have he := idle_eq h2 (idle_of h.inv hm.1 hm.2)
  obtain ⟨p, hp⟩ := Option.isSome_iff_exists.mp hc
  obtain ⟨acts, c', h3, h4, h5⟩ := Broker.can_end_now h1 (by rw [h2.crashed]; exact hn)
    (by rw [h1.toCall.conn, h2.log]; exact hd) (by rw [h2.ops]; exact ho) (h2.calls.some j p hp)
  obtain ⟨xs, h6, h7⟩ := expand_exec s.b.ctlWas (h1.mono fun _ _ _ => trivial) (fun a ha => (h3 a ha).2) h4
  rw [← he] at h7
  refine ⟨xs, _, fun x hx => ?_, h7, by show (c'.calls j).map _ = none; rw [h5]; rfl⟩
  obtain ⟨a, ha, hpart⟩ := h6 x hx
  exact part_mine hpart (h3 a ha).1

/-- Which positions access the channels of a session. -/
theorem touch_session {p : Pos} {l : Loc} {w : Bool} (hl : l = .exit ∨ l = .ctl) (h : (l, w) ∈ touches p) :
    cls p = .writing ∧ (w = true → (∃ ctx, p = .open2 ctx) ∨ ∃ ctx n, p = .open3 ctx n) ∨
    w = false ∧ ((∃ ctx q m, p = .out (.pubRead ctx q m) ∧ l = .exit) ∨ (∃ ctx, p = .out (.run ctx) ∧ l = .exit) ∨
      ∃ ctx e, p = .out (.runCtl ctx e) ∧ l = .ctl) := by
  cases p
  case out pc =>
    right
    cases pc <;> simp only [touches, List.not_mem_nil, List.mem_singleton, Prod.mk.injEq] at h <;>
      (obtain ⟨rfl, rfl⟩ := h; simp at hl ⊢)
  all_goals simp only [touches, List.not_mem_nil, List.mem_singleton, Prod.mk.injEq] at h
  all_goals obtain ⟨rfl, rfl⟩ := h
  all_goals simp [cls] at hl ⊢

/-- C68, statement by statement: if `Open` is only called when no other `Open`, no `Pub` and no goroutine of an earlier
session is in progress, and `Unsubscribe` does not overlap with other calls on the same subscription, there are no
races. -/
theorem c68_stmt_free_partial {cap : Int} {s : St} (h : Reach cap (fun s a => QuietOpen s a ∧ AloneUnsub s a) s) (l : Loc) :
    ¬ RaceOn s l := by
  obtain ⟨c, h1, h2⟩ := sim_careful h
  have hq := Broker.reach_quiet (h1.mono fun _ _ h => h.1)
  have hs := Broker.reach_solo (h1.mono fun s a h => show Spec.Broker.SoloOpen s a from
    fun ctx e j pc hj => (h.1 ctx e j pc hj).1)
  have ha := Broker.reach_alone (h1.mono fun _ _ h => h.2)
  obtain ⟨g1, g2, g3⟩ := c68_stmt_guarded_partial (h.mono fun _ _ _ => trivial)
  have session : ∀ l, (l = .exit ∨ l = .ctl) → ¬ RaceOn s l := by
    intro l hl
    have key : ∀ i j p q w, i ≠ j → s.calls i = some p → s.calls j = some q → (l, true) ∈ touches p →
        (l, w) ∈ touches q → False := by
      intro i j p q w hij hi hj hp hw
      have h3 := touch_session hl hp
      have h4 := touch_session hl hw
      rcases h3 with ⟨h3, h5⟩ | ⟨h3, _⟩
      · rcases h4 with ⟨h4, _⟩ | ⟨_, h4⟩
        · exact hij (h.inv.lock.one i j (.inr ((clsAt_some hi).trans h3)) (.inr ((clsAt_some hj).trans h4)))
        · rcases h5 rfl with ⟨ctx, rfl⟩ | ⟨ctx, n, rfl⟩
          · obtain ⟨_, hno⟩ := hq i _ (h2.calls.some i _ hi) trivial
            obtain ⟨q1, q2⟩ := hno j _ (Ne.symm hij) (h2.calls.some j _ hj)
            rcases h4 with ⟨_, _, _, rfl, _⟩ | ⟨_, rfl, _⟩ | ⟨_, _, rfl, _⟩
            · exact q2 trivial
            · exact q1 trivial
            · exact q1 trivial
          · obtain ⟨k1, k2⟩ := h2.calls.claim i _ ctx n hi rfl
            have hctl : l = .ctl := by
              simp only [touches, List.mem_singleton, Prod.mk.injEq] at hp; exact hp.1
            rcases h4 with ⟨_, _, _, _, e⟩ | ⟨_, _, e⟩ | ⟨_, _, rfl, _⟩
            · rw [hctl] at e; cases e
            · rw [hctl] at e; cases e
            · have := hs.one n j _ _ k2 (h2.calls.some j _ hj) trivial trivial
              subst this
              rw [k1] at hj; cases hj
      · cases h3
    rintro ⟨i, j, p, q, v, w, hij, hi, hj, hp, hw, hvw⟩
    rcases hvw with rfl | rfl
    · exact key i j p q w hij hi hj hp hw
    · exact key j i q p v (Ne.symm hij) hj hi hw hp
  cases l with
  | connected => exact g1
  | topics => exact g2
  | subs => exact g3
  | exit => exact session _ (.inl rfl)
  | ctl => exact session _ (.inr rfl)
  | active x =>
    rintro ⟨i, j, p, q, v, w, hij, hi, hj, hp, hw, hvw⟩
    have out : ∀ {p : Pos} {v : Bool}, (Loc.active x, v) ∈ touches p →
        ∃ pc, p = .out pc ∧ ⟨.active x, v, .read⟩ ∈ Broker.accesses pc := by
      intro p v hp
      cases p
      case out pc =>
        cases pc <;> simp only [touches, List.not_mem_nil, List.mem_singleton, Prod.mk.injEq, reduceCtorEq, false_and,
          Loc.active.injEq] at hp
        all_goals (obtain ⟨rfl, rfl⟩ := hp; exact ⟨_, rfl, List.mem_singleton.mpr rfl⟩)
      all_goals simp [touches] at hp
    obtain ⟨pc, rfl, a1⟩ := out hp
    obtain ⟨pc', rfl, a2⟩ := out hw
    exact Broker.no_race_active h1.toInv ha x ⟨i, j, pc, pc', _, _, hij, h2.calls.some i _ hi, h2.calls.some j _ hj, a1, a2,
      rfl, rfl, hvw, id⟩

/-! ## Examples -/

theorem Lock.reach_checked {cap : Int} {allowed : St → Act → Prop} {ok : St → Act → Bool}
    (hok : ∀ s a, Reach cap allowed s → ok s a = true → allowed s a) {acts : List Act}
    (h : (Lock.execIf ok (.init cap) acts).isSome = true) :
    Reach cap allowed ((Lock.execIf ok (.init cap) acts).getD (.init cap)) := by
  have key : ∀ (acts : List Act) (s s' : St), Reach cap allowed s → Lock.execIf ok s acts = some s' →
      Reach cap allowed s' := by
    intro acts
    induction acts with
    | nil => intro s s' hr he; cases he; exact hr
    | cons a acts ih =>
      intro s s' hr he
      rw [Lock.execIf] at he
      split at he
      · next hk =>
        split at he
        · cases he
        next s1 hs => exact ih s1 s' (.step s s1 a hr (hok s a hr hk) hs) he
      · cases he
  cases he : Lock.execIf ok (.init cap) acts with
  | none => rw [he] at h; cases h
  | some s => exact key acts _ s .init he

theorem Lock.live {cap : Int} {allowed : St → Act → Prop} {s : St} (h : Reach cap allowed s) {i : Nat}
    (hi : (s.calls i).isSome = true) : i ∈ List.range s.next := by
  rw [List.mem_range]
  rcases Nat.lt_or_ge i s.next with h1 | h1
  · exact h1
  · rw [h.inv.num.calls i h1] at hi; cases hi

/-- A check for `SoloOpen`: every goroutine is waiting for a message, or done. -/
def Lock.soloOpen (s : St) (a : Act) : Bool :=
  match a with
  | .call (.open _) => (List.range s.next).all fun j => match s.calls j with
    | none => true
    | some (.out (.done _)) => true
    | some (.out (.recvSel _ _)) => true
    | some (.out (.pubSel _ _ _ _)) => true
    | _ => false
  | _ => true

theorem Lock.soloOpen_ok {cap : Int} (s : St) (a : Act) (h : Reach cap Spec.BrokerLock.SoloOpen s)
    (hk : Lock.soloOpen s a = true) : Spec.BrokerLock.SoloOpen s a := by
  rintro ctx rfl j p hj hp
  have h1 := List.all_eq_true.mp hk j (Lock.live h (by rw [hj]; rfl))
  rw [hj] at h1
  cases p <;> first | (cases h1; done) | skip
  next pc => cases pc <;> first | (cases h1; done) | exact hp

/-- `Close` (call `i`) of a broker without subscriptions, after the first statement of which others go on. -/
def Lock.closes (i : Nat) (more : List Act) : List Act :=
  [.call .close, .lock i, .lock i, .stmt i ""] ++ more ++ [.stmt i "", .stmt i "", .stmt i "", .lock i, .ret i]

-- two sessions; the goroutine of the first one ends before the second one is opened
example : let s := (Lock.execIf Lock.soloOpen (.init 1) (Lock.opens 0 ++ [.step 1 .go, .step 1 .go] ++ Lock.closes 2 [] ++
      [.step 1 .exit, .lock 1, .lock 1, .stmt 1 "", .lock 1, .ret 1] ++ Lock.opens 3 ++ Lock.closes 5 [.step 4 .go])).getD (.init 1)
    Reach 1 SoloOpen s ∧ ∃ l1, s.log = l1 ++ Ev.opened 3 :: ([.ret 3 .nil, .call 5] ++ Ev.closed 5 :: [.ret 5 .nil]) :=
  ⟨Lock.reach_checked Lock.soloOpen_ok rfl, [.call 0, .opened 0, .ret 0 .nil, .call 2, .closed 2, .ret 2 .nil,
    .ret 1 .nil, .call 3], by decide⟩

-- the session's goroutine is left over when the broker is closed
example : let s := (Lock.execIf Lock.soloOpen (.init 1) (Lock.opens 0 ++ [.step 1 .go, .step 1 .go] ++
      Lock.closes 2 [])).getD (.init 1)
    Reach 1 SoloOpen s ∧ s.b.crashed = false ∧ isOpen s.log = false ∧ (s.mu.readers = 0 ∧ s.mu.wr = .free) ∧
      s.ops 1 = none ∧ s.calls 1 = some (.out (.runSel 0 (some 0) (some 0))) :=
  ⟨Lock.reach_checked Lock.soloOpen_ok rfl, rfl, by decide, ⟨rfl, rfl⟩, rfl, rfl⟩

/-- A check for `TidyClose`. -/
def Lock.tidyClose (s : St) (a : Act) : Bool :=
  match a with
  | .stmt i _ =>
    match s.calls i with
    | some (.close1 _) => ok
    | some (.close2 _) => ok
    | _ => true
  | _ => true
where ok : Bool := s.b.topics.keys.all (fun t => (s.b.subs.get? t).isSome) &&
  (List.range s.next).all fun j => match s.calls j with
    | some (.out (.pubGet _ _ _)) => false
    | some (.out (.subMake _ _)) => false
    | _ => true

theorem Lock.tidyClose_ok {cap : Int} (s : St) (a : Act) (h : Reach cap Spec.BrokerLock.TidyClose s)
    (hk : Lock.tidyClose s a = true) : Spec.BrokerLock.TidyClose s a := by
  rintro i key pc rfl hc _
  have hok : Lock.tidyClose.ok s = true := by
    unfold Lock.tidyClose at hk
    dsimp only at hk
    rcases hc with hc | hc <;> (rw [hc] at hk; exact hk)
  obtain ⟨h1, h2⟩ := Bool.and_eq_true_iff.mp hok
  refine ⟨?_, ?_, ?_⟩
  · intro t ht
    obtain ⟨q, hq⟩ := Option.isSome_iff_exists.mp ht
    exact List.all_eq_true.mp h1 t ((GoMap.mem_keys _ _).mpr ⟨q, hq⟩)
  · intro j ctx t m hj
    have := List.all_eq_true.mp h2 j (Lock.live h (by rw [hj]; rfl))
    simp [hj] at this
  · intro j t u hj
    have := List.all_eq_true.mp h2 j (Lock.live h (by rw [hj]; rfl))
    simp [hj] at this

/-- `Close` (call `i`) of a broker with one subscription. -/
def Lock.closesOne (i : Nat) (t u : String) : List Act :=
  [.call .close, .lock i, .lock i, .stmt i "", .stmt i "", .stmt i t, .stmt i u, .stmt i "", .stmt i "", .stmt i "", .stmt i "",
    .stmt i "", .lock i, .ret i]

-- a message is left over when the broker is closed; in the next session another one is received
example : let s := (Lock.execIf Lock.tidyClose (.init 1) (Lock.opens 0 ++ Lock.subscribes 2 "t" "u" ++
      Lock.publishes 3 "t" msgA ++ Lock.closesOne 4 "t" "u" ++ Lock.opens 5 ++ Lock.subscribes 7 "t" "v" ++
      Lock.publishes 8 "t" msgB ++ [.call (.receive 0 7), .step 9 .go, .step 9 .msg])).getD (.init 1)
    Reach 1 TidyClose s ∧ (∃ l1 l2, s.log = l1 ++ Ev.closed 4 :: l2 ∧ Ev.sent 3 2 ∈ l1 ∧ Ev.call 7 ∈ l2) ∧
      s.ops 9 = some (.receive 0 7) ∧ Ev.took 9 7 8 ∈ s.log :=
  ⟨Lock.reach_checked Lock.tidyClose_ok rfl, ⟨[.call 0, .opened 0, .ret 0 .nil, .call 2, .ret 2 .sub, .call 3, .sent 3 2,
    .ret 3 .nil, .call 4], [.ret 4 .nil, .call 5, .opened 5, .ret 5 .nil, .call 7, .ret 7 .sub, .call 8,
    .sent 8 7, .ret 8 .nil, .call 9, .took 9 7 8, .handle 9 msgB], by decide, by decide, by decide⟩, rfl, by decide⟩

-- `Receive` returns nil because the broker is closed, which then has no topics
example : let s := (Lock.execIf Lock.tidyClose (.init 1) (Lock.opens 0 ++ Lock.subscribes 2 "t" "u" ++ [.call (.receive 0 2),
      .step 3 .go] ++ Lock.closesOne 4 "t" "u" ++ [.step 3 .exit, .ret 3])).getD (.init 1)
    Reach 1 TidyClose s ∧ s.ops 3 = some (.receive 0 2) ∧ Ev.ret 3 .nil ∈ s.log ∧ handledBy 3 s.log = [] ∧
      isOpen s.log = false ∧ s.mu.wr = .free :=
  ⟨Lock.reach_checked Lock.tidyClose_ok rfl, rfl, by decide, by decide, by decide, rfl⟩

/-- A check for `QuietOpen` and `AloneUnsub`. -/
def Lock.careful (s : St) (a : Act) : Bool :=
  match a with
  | .call (.open _) => s.next == 0
  | .call (.unsubscribe x) => (List.range s.next).all fun i => !(s.calls i).isSome ||
      match s.ops i with
      | some (.unsubscribe y) => x != y
      | some (.receive _ y) => x != y
      | _ => true
  | .call (.receive _ x) => (List.range s.next).all fun i => !(s.calls i).isSome ||
      match s.ops i with
      | some (.unsubscribe y) => x != y
      | _ => true
  | _ => true

theorem Lock.careful_ok {cap : Int} (s : St) (a : Act)
    (h : Reach cap (fun s a => Spec.BrokerLock.QuietOpen s a ∧ Spec.BrokerLock.AloneUnsub s a) s)
    (hk : Lock.careful s a = true) : Spec.BrokerLock.QuietOpen s a ∧ Spec.BrokerLock.AloneUnsub s a := by
  constructor
  · rintro ctx rfl j p hj
    have h0 : s.next = 0 := by simpa [Lock.careful] using hk
    rw [h.inv.num.calls j (by omega)] at hj
    cases hj
  · intro x
    constructor
    · rintro rfl i hc
      have h1 := List.all_eq_true.mp hk i (Lock.live h hc)
      rw [hc] at h1
      constructor
      · intro ho; rw [ho] at h1; simp at h1
      · intro c ho; rw [ho] at h1; simp at h1
    · rintro ⟨c, rfl⟩ i hc ho
      have h1 := List.all_eq_true.mp hk i (Lock.live h hc)
      rw [hc, ho] at h1
      simp at h1

-- publishing, receiving, unsubscribing and closing at the same time, on two subscriptions
example : let s := (Lock.execIf Lock.careful (.init 1) (Lock.opens 0 ++ Lock.subscribes 2 "t" "u" ++ Lock.subscribes 3 "v" "w" ++
      [.call (.pub 0 "t" msgA)] ++ Lock.reads 4 ++ [.lock 4, .lock 4, .stmt 4 "", .lock 4, .call (.receive 0 2), .call (.receive 0 2),
        .call (.unsubscribe 3), .step 7 .go, .step 7 .go, .call .close, .lock 8, .lock 8, .stmt 8 ""])).getD (.init 1)
    Reach 1 (fun s a => QuietOpen s a ∧ AloneUnsub s a) s ∧ s.calls 1 = some (.out (.run 0)) ∧
      s.calls 4 = some (.out (.pubRead 0 ⟨2, some 0⟩ msgA)) ∧ s.calls 5 = some (.out (.recvChk 0 2)) ∧
      s.calls 6 = some (.out (.recvChk 0 2)) ∧ s.calls 7 = some (.out (.unsubSet 3)) ∧ s.calls 8 = some (.close2 .closing) :=
  ⟨Lock.reach_checked Lock.careful_ok rfl, rfl, rfl, rfl, rfl, rfl, rfl⟩

end Netscrape.Props
