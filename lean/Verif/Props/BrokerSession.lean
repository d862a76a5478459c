import Verif.Props.Broker
import Verif.Lemmas.BrokerFinish

/-!
# Sessions of the in-memory broker
-/

namespace Netscrape.Props
open Netscrape.Broker Netscrape.Spec Netscrape.Spec.Broker

/-! ## C57 -/

/-- Call `i` closes the broker. -/
def closing (i : Nat) : List Act := [.call .close, .step i .go, .ret i]
/-- Call `i` opens the broker. -/
def reopening (i : Nat) : List Act := [.call (.open 0), .step i .go, .step i .go, .ret i]

/-- C57: a subscription made after the broker was closed gets no message published before. -/
def FreshStatement : Prop := ∀ cap s, Reach cap Any s → ∀ l1 j l2 r ctx x ch p, s.log = l1 ++ Ev.closed j :: l2 →
  Ev.call x ∈ l2 → s.ops r = some (.receive ctx x) → Ev.took r ch p ∈ s.log → Ev.sent p ch ∉ l1

/-- C57 does not hold: `Close` only removes topics that have subscribers; messages published on other topics
show up in the next session. -/
theorem c57_fresh_violated : ¬ FreshStatement := by
  intro h
  let s := run 1 (opening ++ publish 2 "t" msgA ++ closing 3 ++ reopening 4 ++ subscribe 6 "t" "u" ++
    receive 7 6 none)
  refine h 1 s (reach_run rfl)
    [.call 0, .opened 0, .ret 0 .nil, .call 2, .sent 2 2, .ret 2 .nil, .call 3] 3
    [.ret 3 .nil, .call 4, .opened 4, .ret 4 .nil, .call 6, .ret 6 .sub, .call 7, .took 7 2 2,
      .handle 7 msgA, .handled 7 none, .ret 7 .nil] 7 0 6 2 2 (by decide) (by decide) rfl (by decide) (by decide)

/-- C57: `Receive` returns nil without a message only if its context was cancelled, somebody unsubscribed, or
the broker was closed after the subscription was made. -/
def LiveStatement : Prop := ∀ cap s, Reach cap Any s → ∀ r ctx x, s.ops r = some (.receive ctx x) →
  Ev.ret r .nil ∈ s.log → handledBy r s.log = [] →
  s.b.done ctx = true ∨ (∃ u, s.ops u = some (.unsubscribe x)) ∨ ClosedAfter x s.log

/-- C57 does not hold: a topic that survived `Close` keeps the exit channel of the old session, so
subscriptions to it are dead. -/
theorem c57_live_violated : ¬ LiveStatement := by
  intro h
  let s := run 1 (opening ++ publish 2 "t" msgA ++ closing 3 ++ reopening 4 ++ subscribe 6 "t" "u" ++
    [.call (.receive 0 6), .step 7 .go, .step 7 .exit, .ret 7])
  have hops : ∀ u x, s.ops u ≠ some (.unsubscribe x) := by
    intro u x
    rcases u with _ | _ | _ | _ | _ | _ | _ | _ | u <;> exact nofun
  rcases h 1 s (reach_run rfl) 7 0 6 rfl (by decide) (by decide) with h1 | ⟨u, h1⟩ | ⟨j, a, b, d, h1⟩
  · exact absurd h1 (by decide)
  · exact hops u 6 h1
  · have hlog : s.log = [.call 0, .opened 0, .ret 0 .nil, .call 2, .sent 2 2, .ret 2 .nil, .call 3, .closed 3,
        .ret 3 .nil, .call 4, .opened 4, .ret 4 .nil, .call 6, .ret 6 .sub, .call 7, .ret 7 .nil] := by decide
    have h2 : s.log.drop (a.length + 1) = b ++ .closed j :: d := by
      rw [h1, List.drop_append, List.drop_eq_nil_of_le (by omega)]
      simp
    have h3 : s.log[a.length]? = some (.call 6) := by rw [h1]; simp
    have hlen : a.length = 12 := by
      rw [hlog] at h3
      generalize a.length = n at h3
      rcases n with _ | _ | _ | _ | _ | _ | _ | _ | _ | _ | _ | _ | _ | _ | _ | _ | n <;>
        first | rfl | (exfalso; simp at h3)
    rw [hlen, hlog] at h2
    have : Ev.closed j ∈ b ++ .closed j :: d := by simp
    rw [← h2] at this
    simp at this

/-- C57: a session that is opened is closed only by a `Close` call that had not returned before, unless a
context was cancelled. -/
def StayStatement : Prop := ∀ cap s, Reach cap Any s → ∀ l1 i l2 j, s.log = l1 ++ Ev.opened i :: l2 →
  Ev.closed j ∈ l2 → (∃ c, s.ops c = some .close ∧ ∀ r, Ev.ret c r ∉ l1) ∨ ∃ ctx, s.b.done ctx = true

/-- C57 does not hold: the goroutine of the old session closes the broker when it ends, which may be in the
middle of the new session. -/
theorem c57_stays_open_violated : ¬ StayStatement := by
  intro h
  let s := run 1 (opening ++ [.step 1 .go, .step 1 .go] ++ closing 2 ++ [.step 1 .exit] ++ reopening 3 ++ [.step 1 .go])
  rcases h 1 s (reach_run rfl) [.call 0, .opened 0, .ret 0 .nil, .call 2, .closed 2, .ret 2 .nil, .call 3] 3
    [.ret 3 .nil, .closed 1] 1 (by decide) (by decide) with ⟨c, h1, h2⟩ | ⟨ctx, h1⟩
  · have : c = 2 := by
      rcases c with _ | _ | _ | _ | c
      · cases h1
      · cases h1
      · rfl
      · cases h1
      · cases h1
    subst this
    exact h2 .nil (by decide)
  · cases h1

/-- C57: what does hold. If, whenever the broker is closed, every topic has had a subscriber and no `Pub` or
`Sub` is about to look up its topic, then a closed broker has no topics, and subscriptions made after closing
see no message published before. -/
theorem c57_fresh_partial {cap : Int} {s : St} (h : Reach cap TidyClose s) :
    (isOpen s.log = false → ∀ t, s.b.topics.get? t = none) ∧
    (∀ l1 j l2 r ctx x ch p, s.log = l1 ++ Ev.closed j :: l2 → Ev.call x ∈ l2 →
      s.ops r = some (.receive ctx x) → Ev.took r ch p ∈ s.log → Ev.sent p ch ∉ l1) := by
  have hf := reach_fresh h
  constructor
  · intro ho; exact hf.empty (by rw [h.toCall.conn]; exact ho)
  · intro l1 j l2 r ctx x ch p hl hx hr ht hs
    obtain ⟨ctx', x', o, h1, h2, h3⟩ := h.took r ch p ht
    rw [hr] at h1
    cases h1
    exact (hf.old l1 j l2 p ch hl hs).2 x o h2 hx h3

/-- C57: under the same condition subscriptions are live until the broker is closed. -/
theorem c57_live_partial {cap : Int} {s : St} (h : Reach cap TidyClose s) {r ctx x : Nat}
    (hr : s.ops r = some (.receive ctx x)) (hn : Ev.ret r .nil ∈ s.log) (hh : handledBy r s.log = []) :
    s.b.done ctx = true ∨ (∃ u, s.ops u = some (.unsubscribe x)) ∨ ClosedAfter x s.log := by
  rcases h.toRecv.nil r ctx x hr (.inr hn) hh with h1 | h1 | ⟨o, h1, h2⟩
  · exact .inl h1
  · exact .inr (.inl h1)
  · rcases (reach_fresh h).subs x o h1 with ⟨e, c, h3, h4, _⟩ | h3
    · rw [h3] at h2
      rw [show s.b.isClosed (some e) = s.b.closed e from rfl, h4] at h2
      cases h2
    · exact .inr (.inr h3)

/-- C57: if `Open` is called only when no other `Open` and no goroutine of an earlier session is in progress,
a session is closed only by a `Close` call that had not returned before it was opened, because its own context
was cancelled, or by a `Pub` call whose context was cancelled. -/
theorem c57_stays_open_partial {cap : Int} {s : St} (h : Reach cap SoloOpen s) {l1 l2 l3 : List Ev} {i j : Nat}
    (hl : s.log = l1 ++ Ev.opened i :: (l2 ++ Ev.closed j :: l3)) (hn : ¬ Opens l2) :
    (s.ops j = some .close ∧ ∀ r, Ev.ret j r ∉ l1) ∨
    (∃ ctx, s.ops i = some (.open ctx) ∧ s.b.done ctx = true) ∨
    ∃ ctx t m, s.ops j = some (.pub ctx t m) ∧ s.b.done ctx = true := by
  rcases (reach_solo h).log l1 i l2 j l3 hl hn with h1 | h1 | h1
  · refine .inl ⟨h1, fun r hr => ?_⟩
    obtain ⟨a, b, rfl⟩ := List.append_of_mem hr
    exact h.closed_after (j := j) (r := r) ⟨a, b ++ Ev.opened i :: l2, l3, by rw [hl]; simp⟩
  · exact .inr (.inl h1)
  · exact .inr (.inr h1)

/-- A check for `TidyClose`. -/
def tidyClose (s : St) (a : Act) : Bool :=
  match a with
  | .step i .go =>
    match s.calls i with
    | some .closing => ok
    | some .pubClose => ok
    | some .runClose => ok
    | _ => true
  | _ => true
where ok : Bool := s.b.topics.keys.all (fun t => (s.b.subs.get? t).isSome) &&
  (List.range s.next).all fun j => match s.calls j with
    | some (.pubGet _ _ _) => false
    | some (.subMake _ _) => false
    | _ => true

theorem tidyClose_ok (cap : Int) (s : St) (a : Act) (h : Reach cap TidyClose s)
    (hk : tidyClose s a = true) : TidyClose s a := by
  rintro i pc rfl hc hp hco
  have key : tidyClose.ok s = true := by
    unfold tidyClose at hk
    dsimp only at hk
    rw [hc] at hk
    cases pc with
    | closing | pubClose | runClose => exact hk
    | _ => exact hp.elim
  obtain ⟨h1, h2⟩ := Bool.and_eq_true_iff.mp key
  have hlt : ∀ j pcj, s.calls j = some pcj → j < s.next := by
    intro j pcj hj
    rcases Nat.lt_or_ge j s.next with h3 | h3
    · exact h3
    · rw [h.toInv.calls j h3] at hj; cases hj
  refine ⟨?_, ?_, ?_⟩
  · intro t ht
    obtain ⟨q, hq⟩ := Option.isSome_iff_exists.mp ht
    exact List.all_eq_true.mp h1 t ((GoMap.mem_keys _ _).mpr ⟨q, hq⟩)
  · intro j ctx t m hj
    have := List.all_eq_true.mp h2 j (List.mem_range.mpr (hlt j _ hj))
    simp [hj] at this
  · intro j t u hj
    have := List.all_eq_true.mp h2 j (List.mem_range.mpr (hlt j _ hj))
    simp [hj] at this

-- a message is left over when the broker is closed; in the next session another one is received
example : let s := (execIf tidyClose (.init 1) (opening ++ subscribe 2 "t" "u" ++ publish 3 "t" msgA ++
      closing 4 ++ reopening 5 ++ subscribe 7 "t" "v" ++ publish 8 "t" msgB ++ receive 9 7 none)).getD (.init 1)
    Reach 1 TidyClose s ∧
    (∃ l1 l2, s.log = l1 ++ Ev.closed 4 :: l2 ∧ Ev.sent 3 2 ∈ l1 ∧ Ev.call 7 ∈ l2) ∧
    s.ops 9 = some (.receive 0 7) ∧ Ev.took 9 7 8 ∈ s.log :=
  ⟨reach_runIf (tidyClose_ok 1) rfl, ⟨[.call 0, .opened 0, .ret 0 .nil, .call 2, .ret 2 .sub, .call 3, .sent 3 2,
    .ret 3 .nil, .call 4], [.ret 4 .nil, .call 5, .opened 5, .ret 5 .nil, .call 7, .ret 7 .sub, .call 8,
    .sent 8 7, .ret 8 .nil, .call 9, .took 9 7 8, .handle 9 msgB, .handled 9 none, .ret 9 .nil],
    by decide, by decide, by decide⟩, rfl, by decide⟩

-- `Receive` returns nil because the broker is closed
example : let s := (execIf tidyClose (.init 1) (opening ++ subscribe 2 "t" "u" ++ [.call (.receive 0 2),
      .step 3 .go] ++ closing 4 ++ [.step 3 .exit, .ret 3])).getD (.init 1)
    Reach 1 TidyClose s ∧ s.ops 3 = some (.receive 0 2) ∧ Ev.ret 3 .nil ∈ s.log ∧ handledBy 3 s.log = [] :=
  ⟨reach_runIf (tidyClose_ok 1) rfl, rfl, by decide, by decide⟩

/-- A check for `SoloOpen`. -/
def soloOpen (s : St) (a : Act) : Bool :=
  match a with
  | .call (.open _) => (List.range s.next).all fun j => match s.calls j with
    | some (.openChk _) => false
    | some (.openSet _) => false
    | some (.run _) => false
    | some (.runCtl _ _) => false
    | some (.runSel _ _ _) => false
    | some (.runDel _ _ _) => false
    | some .runClose => false
    | _ => true
  | _ => true

theorem soloOpen_ok (cap : Int) (s : St) (a : Act) (h : Reach cap SoloOpen s)
    (hk : soloOpen s a = true) : SoloOpen s a := by
  rintro ctx rfl j pc hj hp
  have hlt : j < s.next := by
    rcases Nat.lt_or_ge j s.next with h3 | h3
    · exact h3
    · rw [h.toInv.calls j h3] at hj; cases hj
  have := List.all_eq_true.mp hk j (List.mem_range.mpr hlt)
  rw [hj] at this
  cases pc <;> first | exact hp | cases this

-- two sessions; the goroutine of the first one ends before the second one is opened
example : let s := (execIf soloOpen (.init 1) (opening ++ [.step 1 .go, .step 1 .go] ++ closing 2 ++ [.step 1 .exit, .step 1 .go,
      .ret 1] ++ reopening 3 ++ closing 5)).getD (.init 1)
    Reach 1 SoloOpen s ∧ ∃ l1, s.log = l1 ++ Ev.opened 3 :: ([.ret 3 .nil, .call 5] ++ Ev.closed 5 ::
      [.ret 5 .nil]) :=
  ⟨reach_runIf (soloOpen_ok 1) rfl, [.call 0, .opened 0, .ret 0 .nil, .call 2, .closed 2, .ret 2 .nil,
    .ret 1 .nil, .call 3], by decide⟩
example : ¬ Opens [Ev.ret 3 .nil, .call 5] := by rintro ⟨i, h⟩; simp at h

/-! ## C58 -/

/-- C58: the broker is closed only if somebody calls `Close` or the context of an `Open` call is
cancelled. -/
def CancelStatement : Prop := ∀ cap s, Reach cap Any s → (∃ j, Ev.closed j ∈ s.log) →
  (∃ i, s.ops i = some .close) ∨ ∃ i ctx, s.ops i = some (.open ctx) ∧ s.b.done ctx = true

/-- C58 does not hold: `Pub` closes the broker when its context is cancelled. -/
theorem c58_cancel_violated : ¬ CancelStatement := by
  intro h
  let s := run 1 (opening ++ [.call (.pub 7 "t" msgA), .step 2 .go, .step 2 .go, .step 2 .go,
    .cancel 7, .step 2 .ctx, .step 2 .go])
  rcases h 1 s (reach_run rfl) ⟨2, by decide⟩ with ⟨i, hi⟩ | ⟨i, ctx, hi, hd⟩
  · rcases i with _ | _ | _ | i <;> cases hi
  · rcases i with _ | _ | _ | i
    · cases hi; cases hd
    all_goals cases hi

/-- C58: what does hold. The broker is closed only if somebody calls `Close` or the context of an `Open` or
`Pub` call is cancelled; cancelling the context of a `Receive` call has no such effect. -/
theorem c58_cancel_partial {cap : Int} {s : St} (h : Reach cap Any s)
    (hp : ∀ i ctx t m, s.ops i = some (.pub ctx t m) → s.b.done ctx = false)
    (hc : ∃ j, Ev.closed j ∈ s.log) :
    (∃ i, s.ops i = some .close) ∨ ∃ i ctx, s.ops i = some (.open ctx) ∧ s.b.done ctx = true := by
  obtain ⟨j, hj⟩ := hc
  rcases h.toCause.log j hj with h1 | h1 | ⟨i, ctx, t, m, h1, h2⟩
  · exact .inl h1
  · exact .inr h1
  · rw [hp i ctx t m h1] at h2; cases h2

/-- C58: a `Pub` or `Receive` call whose context was cancelled can return on its own, wherever it is. -/
theorem c58_returns {cap : Int} {s : St} (h : Reach cap Any s) (hn : s.b.crashed = false) {i ctx : Nat}
    (ho : (∃ t m, s.ops i = some (.pub ctx t m)) ∨ ∃ x, s.ops i = some (.receive ctx x))
    (hd : s.b.done ctx = true) (hc : (s.calls i).isSome = true) : Finishes s i := by
  obtain ⟨pc, hpc⟩ := Option.isSome_iff_exists.mp hc
  rcases ho with ⟨t, m, ho⟩ | ⟨x, ho⟩
  · exact finish_pub h hn ho hd hpc
  · exact finish_recv h hn ho hd hpc

-- the context of a waiting `Receive` is cancelled, then somebody closes the broker
example : let s := run 1 (opening ++ subscribe 2 "t" "u" ++ [.call (.receive 7 2), .step 3 .go, .cancel 7,
      .step 3 .ctx, .ret 3] ++ closing 4)
    Reach 1 Any s ∧ s.b.done 7 = true ∧ Ev.closed 4 ∈ s.log ∧
      ∀ i ctx t m, s.ops i = some (.pub ctx t m) → s.b.done ctx = false :=
  ⟨reach_run rfl, rfl, by decide, by
    intro i ctx t m hi
    rcases i with _ | _ | _ | _ | _ | i <;> cases hi⟩
-- the queue is full, and the context of a waiting `Pub` is cancelled
example : let s := run 1 (opening ++ publish 2 "t" msgA ++ [.call (.pub 7 "t" msgB), .step 3 .go, .step 3 .go,
      .step 3 .go, .cancel 7])
    Reach 1 Any s ∧ s.b.crashed = false ∧ s.ops 3 = some (.pub 7 "t" msgB) ∧ s.b.done 7 = true ∧
      (s.calls 3).isSome = true :=
  ⟨reach_run rfl, rfl, rfl, rfl, rfl⟩

end Netscrape.Props
