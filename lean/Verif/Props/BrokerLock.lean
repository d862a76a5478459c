import Verif.Lemmas.BrokerProgress
import Verif.Lemmas.BrokerTouch
import Verif.Props.Broker
import Verif.Props.BrokerMore

/-!
# The in-memory broker, statement by statement

Here the mutex of the broker is explicit and every access to a field is a step of its own. `Reach cap Any s` are all
states a broker of capacity `cap` can get into.
-/

namespace Netscrape.Props.Lock
open Netscrape.BrokerLock Netscrape.Spec.BrokerLock
open Netscrape.Broker (Mem Msg Op Ret PC Ev Alt Queue Sub Loc)

/-! ## Runs used in examples -/

/-- The state after a concrete run. -/
def run (cap : Int) (acts : List Act) : St := (exec (.init cap) acts).getD (.init cap)

theorem reach_run {cap : Int} {acts : List Act} (h : (exec (.init cap) acts).isSome = true) :
    Reach cap Any (run cap acts) := by
  cases he : exec (.init cap) acts with
  | none => rw [he] at h; cases h
  | some s => rw [run, he]; exact Reach.init.exec he

/-- A check for `OneAtATime`. -/
def oneAtATime (s : St) (a : Act) : Bool :=
  match a with
  | .call (.unsubscribe x) => (List.range s.next).all fun i =>
      (s.calls i).isNone || s.ops i ≠ some (.unsubscribe x)
  | _ => true

/-- A sequence of steps each of which passes a check. -/
def execIf (ok : St → Act → Bool) (s : St) : List Act → Option St
  | [] => some s
  | a :: as =>
    if ok s a then
      match step s a with
      | none => none
      | some s' => execIf ok s' as
    else none

theorem reach_runIf {cap : Int} {acts : List Act} (h : (execIf oneAtATime (.init cap) acts).isSome = true) :
    Reach cap Spec.BrokerLock.OneAtATime ((execIf oneAtATime (.init cap) acts).getD (.init cap)) := by
  have key : ∀ (acts : List Act) (s s' : St), Reach cap Spec.BrokerLock.OneAtATime s → execIf oneAtATime s acts = some s' →
      Reach cap Spec.BrokerLock.OneAtATime s' := by
    intro acts
    induction acts with
    | nil => intro s s' hr he; cases he; exact hr
    | cons a acts ih =>
      intro s s' hr he
      rw [execIf] at he
      split at he
      · next hk =>
        split at he
        · cases he
        next s1 hs =>
        refine ih s1 s' (.step s s1 a hr ?_ hs) he
        rintro x rfl i hi
        have hlt : i < s.next := by
          rcases Nat.lt_or_ge i s.next with h1 | h1
          · exact h1
          · rw [hr.inv.num.calls i h1] at hi; cases hi
        have := List.all_eq_true.mp hk i (List.mem_range.mpr hlt)
        cases hc : s.calls i with
        | none => rw [hc] at hi; cases hi
        | some pc => simpa [hc] using this
      · cases he
  cases he : execIf oneAtATime (.init cap) acts with
  | none => rw [he] at h; cases h
  | some s => exact key acts _ s .init he

/-- Goroutine `i` reads under the read lock. -/
def reads (i : Nat) : List Act := [.lock i, .stmt i "", .lock i]
/-- `Open` (call `i`) up to where it returns. -/
def opens (i : Nat) : List Act :=
  [.call (.open 0)] ++ reads i ++ [.lock i, .lock i, .stmt i "", .stmt i "", .stmt i "", .stmt i "", .lock i, .ret i]
/-- `Sub` (call `i`) on a topic nobody has used. -/
def subscribes (i : Nat) (t u : String) : List Act :=
  [.call (.sub t u)] ++ reads i ++ [.lock i, .lock i, .stmt i "", .stmt i "", .stmt i "", .stmt i "", .stmt i "",
    .stmt i "", .stmt i "", .lock i, .ret i]
/-- `Pub` (call `i`) on a topic in use. -/
def publishes (i : Nat) (t : String) (m : Msg) : List Act :=
  [.call (.pub 0 t m)] ++ reads i ++ [.lock i, .lock i, .stmt i "", .lock i, .step i .go, .step i .msg, .ret i]

end Netscrape.Props.Lock

namespace Netscrape.Props
open Netscrape.BrokerLock Netscrape.Spec Netscrape.Spec.BrokerLock
open Netscrape.Broker (Mem Msg Op Ret PC Ev Alt Queue Sub Loc)
open Netscrape.Spec.Broker (tookFrom sentOn sentBy takers tookBy handledBy capacity isOpen Opens ClosedAfter)

/-! ## C96 -/

/-- C96: whatever happens when goroutines take turns statement by statement can happen when every critical section is
one step: the same calls, in the same order, with the same results, messages and handler calls. -/
theorem c96_atomic {cap : Int} {s : St} (h : Reach cap Any s) :
    ∃ c, Broker.Reach cap Broker.Any c ∧ c.log = s.log ∧ c.ops = s.ops ∧ c.b.done = s.b.done ∧
      c.b.crashed = s.b.crashed := by
  obtain ⟨c, h1, h2⟩ := sim_any h
  refine ⟨c, h1, h2.log, h2.ops, ?_, h2.crashed⟩
  rw [h2.b]; rfl

/-- C96: and if nobody is in a critical section the fields are the same, too. -/
theorem c96_between {cap : Int} {s : St} (h : Reach cap Any s) (hm : s.mu.readers = 0 ∧ s.mu.wr = .free) :
    ∃ c, Broker.Reach cap Broker.Any c ∧ c.log = s.log ∧ c.ops = s.ops ∧ SameRest s.b c.b ∧ ∀ l, Same s.b c.b l := by
  obtain ⟨c, h1, h2⟩ := sim_any h
  have he := idle_eq h2 (idle_of h.inv hm.1 hm.2)
  generalize s.b.ctlWas = w at he
  subst he
  exact ⟨c, h1, rfl, rfl, ⟨rfl, rfl, rfl, rfl, rfl, rfl, fun _ => rfl⟩, fun l => by cases l <;> rfl⟩

/-- C96: the other way round, whatever can happen when critical sections are steps can happen statement by statement,
if nobody reads a field in the middle of the critical section that writes it. -/
theorem c96_complete {cap : Int} {c : Broker.St} (h : Broker.Reach cap (fun _ a => ∀ i, a ≠ .step i .stale) c) :
    ∃ s, Reach cap Any s ∧ s.mu.readers = 0 ∧ s.mu.wr = .free ∧ s.log = c.log ∧ s.ops = c.ops ∧ SameRest s.b c.b ∧
      ∀ l, Same s.b c.b l :=
  ⟨_, complete h, rfl, rfl, rfl, rfl, ⟨rfl, rfl, rfl, rfl, rfl, rfl, fun _ => rfl⟩, fun l => by cases l <;> rfl⟩

/-- C96: so messages are delivered statement by statement as they are in C49, C50 and C55. -/
theorem c96_delivery {cap : Int} {s : St} (h : Reach cap Any s) :
    (∀ ch l, l <+: s.log → tookFrom ch l <+: sentOn ch l) ∧
    (∀ p, (sentBy p s.log).length ≤ 1 ∧ (takers p s.log).length ≤ 1) ∧
    (∀ r ch p, Ev.took r ch p ∈ s.log → Before (.sent p ch) (.took r ch p) s.log ∧
      ∃ ctx x t u ctx' m, s.ops r = some (.receive ctx x) ∧ s.ops x = some (.sub t u) ∧
        s.ops p = some (.pub ctx' t m)) ∧
    (∀ r m, Ev.handle r m ∈ s.log → ∃ p ch ctx t, Ev.took r ch p ∈ s.log ∧ s.ops p = some (.pub ctx t m)) ∧
    (∀ ch, ((sentOn ch s.log).length : Int) ≤ (tookFrom ch s.log).length + capacity cap ∧
      (cap = 0 → sentOn ch s.log = tookFrom ch s.log)) ∧
    (∀ u r x ctx res, s.ops u = some (.unsubscribe x) → s.ops r = some (.receive ctx x) →
      Before (.ret u res) (.call r) s.log →
      tookBy r s.log = [] ∧ handledBy r s.log = [] ∧ ∀ v, Ev.ret r v ∈ s.log → v = .inactive) := by
  obtain ⟨c, hr, hl, ho, _⟩ := c96_atomic h
  rw [← hl, ← ho]
  obtain ⟨h1, h2, h3, h4⟩ := c49_delivery hr
  exact ⟨h1, h2, h3, h4, fun ch => c50_capacity hr ch, fun u r x ctx res hu hr' hb => c55_unsubscribed hr hu hr' hb⟩

/-- C96: and `Pub` and `Sub` on a closed broker return `ErrNotConnected` and leave nothing behind, as in C52. -/
theorem c96_not_connected {cap : Int} {s : St} (h : Reach cap Any s) {i : Nat} {op : Op} {r : Ret} {l1 l2 l3 : List Ev}
    (ho : s.ops i = some op) (hop : (∃ ctx t m, op = .pub ctx t m) ∨ ∃ t u, op = .sub t u)
    (hl : s.log = l1 ++ Ev.call i :: (l2 ++ Ev.ret i r :: l3)) (h1 : isOpen l1 = false) (h2 : ¬ Opens l2) :
    r = .notConnected ∧ sentBy i s.log = [] ∧ takers i s.log = [] ∧ ∀ p, Ev.sent p i ∉ s.log := by
  obtain ⟨c, hr, hl', ho', _⟩ := c96_atomic h
  rw [← hl'] at hl ⊢
  rw [← ho'] at ho
  obtain ⟨h3, h4, h5, _, _, h6⟩ := c52_not_connected hr ho hop hl h1 h2
  exact ⟨h3, h4, h5, h6⟩

/-- C96: the process does not panic in the middle of a critical section either: as long as nobody unsubscribes, or
`Unsubscribe` calls on one subscription do not overlap, it does not panic at all, as in C53 and C54. -/
theorem c96_no_panic {cap : Int} {s : St} (h : Reach cap Spec.BrokerLock.NoUnsubscribe s ∨ Reach cap Spec.BrokerLock.OneAtATime s) :
    s.b.crashed = false := by
  rcases h with h | h
  · obtain ⟨c, h1, h2⟩ := refines (allowed' := Spec.Broker.NoUnsubscribe) (by
      intro f c a a' _ _ hal _ hf _ x e
      subst e
      cases a <;> first | exact hf.elim | skip
      exact hal x (congrArg Act.call (show Op.unsubscribe x = _ from hf).symm)) h
    rw [← h2.crashed]; exact c53_no_panic h1
  · obtain ⟨c, h1, h2⟩ := refines (allowed' := Spec.Broker.OneAtATime) (by
      intro f c a a' _ hsim hal _ hf hc x e i hi
      subst e
      cases a <;> first | exact hf.elim | skip
      rw [hsim.ops]
      intro hx
      obtain ⟨pc, hpc⟩ := Option.isSome_iff_exists.mp hi
      refine hal x (congrArg Act.call (show Op.unsubscribe x = _ from hf).symm) i ?_ hx
      cases hfi : f.calls i with
      | some p => rfl
      | none =>
        exfalso
        by_cases hcl : ∃ k p ctx, f.calls k = some p ∧ claimed p = some (ctx, i)
        · obtain ⟨k, p, ctx, hk, hp⟩ := hcl
          have h3 := (hsim.calls.claim k p ctx i hk hp).2
          have h4 : c.ops i = none := hc.toInv.fits i _ h3
          rw [hsim.ops, hx] at h4; cases h4
        · rw [hsim.calls.none i hfi fun k p ctx hk hp => hcl ⟨k, p, ctx, hk, hp⟩] at hpc; cases hpc) h
    rw [← h2.crashed]; exact c54_idempotent_partial h1

/-- C96: the mutex does not get stuck. Whatever state the system is in, once those in critical sections have left them,
any call in progress can return by its own steps alone; only `Unsubscribe` can panic instead. -/
theorem c96_progress {cap : Int} {s : St} {i : Nat} {op : Op} (h : Reach cap Any s) (hn : s.b.crashed = false)
    (ho : s.ops i = some op) : ∃ as bs s1 s2, (∀ a ∈ as, inside a = true) ∧ (∀ a ∈ bs, mine i a = true) ∧
      exec s as = some s1 ∧ exec s1 bs = some s2 ∧
      ((∃ r, Ev.ret i r ∈ s2.log) ∨ (s2.b.crashed = true ∧ ∃ x, op = .unsubscribe x)) :=
  can_return h hn ho

-- `Close` is in its loops, with one subscription gone and one left, while `Pub` waits and `Receive` goes on
example : let s := Lock.run 1 (Lock.opens 0 ++ Lock.subscribes 2 "t" "u" ++ Lock.subscribes 3 "v" "w" ++ Lock.publishes 4 "t" msgA ++
      [.call .close, .call (.pub 0 "t" msgB)] ++ Lock.reads 6 ++ [.lock 5, .lock 5, .stmt 5 "", .stmt 5 "", .stmt 5 "t", .stmt 5 "u",
        .call (.receive 0 2), .step 7 .go, .step 7 .msg])
    Reach 1 Any s ∧ s.b.crashed = false ∧ s.calls 5 = some (.close4 "t") ∧ s.calls 6 = some (.out (.pubGet 0 "t" msgB)) ∧
      Ev.took 7 2 4 ∈ s.log ∧ s.ops 6 = some (.pub 0 "t" msgB) ∧ step s (.lock 6) = none ∧
      (s.b.subs.get? "t").isSome = true ∧ s.b.connected = true :=
  ⟨Lock.reach_run rfl, rfl, rfl, rfl, by decide, rfl, rfl, rfl, rfl⟩

-- without `Unsubscribe`
example : ∃ s, Reach 1 Spec.BrokerLock.NoUnsubscribe s ∧ s.calls 0 = some (.wait (.openSet 0)) :=
  ⟨_, .step _ _ (.lock 0) (.step _ _ (.lock 0) (.step _ _ (.stmt 0 "") (.step _ _ (.lock 0)
    (.step _ _ (.call (.open 0)) .init nofun rfl) nofun rfl) nofun rfl) nofun rfl) nofun rfl, rfl⟩

-- one `Unsubscribe` after the other
example : let s := (Lock.execIf Lock.oneAtATime (.init 1) (Lock.opens 0 ++ Lock.subscribes 2 "t" "u" ++ [.call (.unsubscribe 2), .step 3 .go,
      .step 3 .go, .step 3 .go, .step 3 .go, .ret 3, .call (.unsubscribe 2), .step 5 .go])).getD (.init 1)
    Reach 1 Spec.BrokerLock.OneAtATime s ∧ s.calls 5 = some (.out (.done .nil)) :=
  ⟨Lock.reach_runIf rfl, rfl⟩

-- a goroutine of an old session takes the exit channel of the new one and the control channel of the old one
example : let s := Lock.run 1 (Lock.opens 0 ++ [.call .close, .lock 2, .lock 2, .stmt 2 "", .stmt 2 "", .stmt 2 "", .stmt 2 "",
      .lock 2, .ret 2, .call (.open 0)] ++ Lock.reads 3 ++ [.lock 3, .lock 3, .stmt 3 "", .stmt 3 "", .step 1 .go, .step 1 .go])
    Reach 1 Any s ∧ s.calls 3 = some (.open3 0 4) ∧ s.calls 1 = some (.out (.runSel 0 (some 3) (some 0))) :=
  ⟨Lock.reach_run rfl, rfl, rfl⟩

-- `Pub` and `Sub` on a closed broker
example : let s := Lock.run 1 ([.call (.pub 0 "t" msgA), .call (.sub "t" "u"), .lock 1, .lock 0, .stmt 0 "", .stmt 1 "", .lock 0, .lock 1,
      .ret 1, .ret 0])
    Reach 1 Any s ∧ s.ops 0 = some (.pub 0 "t" msgA) ∧ isOpen [] = false ∧
    s.log = [] ++ Ev.call 0 :: ([.call 1, .ret 1 .notConnected] ++ Ev.ret 0 .notConnected :: []) :=
  ⟨Lock.reach_run rfl, rfl, rfl, by decide⟩

/-! ## C68, statement by statement -/

theorem touch_locked {p : Pos} {l : Loc} {w : Bool} (hl : l = .connected ∨ l = .topics ∨ l = .subs) (h : (l, w) ∈ touches p) :
    (cls p = .reading ∧ w = false) ∨ cls p = .writing := by
  cases p
  case out pc =>
    exfalso
    cases pc <;> simp only [touches, List.not_mem_nil, List.mem_singleton, Prod.mk.injEq] at h <;>
      (obtain ⟨rfl, _⟩ := h; simp at hl)
  all_goals first
    | exact .inr rfl
    | (simp only [touches, List.not_mem_nil] at h; done)
    | (simp only [touches, List.mem_singleton, Prod.mk.injEq] at h; exact .inl ⟨rfl, h.2⟩)

/-- C68: statement by statement, too, there is never a race on whether the broker is open, its topics, and its table of
subscriptions. -/
theorem c68_stmt_guarded_partial {cap : Int} {s : St} (h : Reach cap Any s) :
    ¬ RaceOn s .connected ∧ ¬ RaceOn s .topics ∧ ¬ RaceOn s .subs := by
  have key : ∀ l, (l = .connected ∨ l = .topics ∨ l = .subs) → ¬ RaceOn s l := by
    rintro l hl ⟨i, j, p, q, v, w, hij, hi, hj, hp, hq, hvw⟩
    have lk := h.inv.lock
    have hci := clsAt_some hi
    have hcj := clsAt_some hj
    have excl : ∀ a b, clsAt s.calls a = .writing → clsAt s.calls b = .reading → False := by
      intro a b ha hb
      have hheld : s.mu.wr = .held := by
        cases hw : s.mu.wr with
        | free => exact ((lk.free hw a).2 ha).elim
        | announced => exact (lk.announced hw a ha).elim
        | held => rfl
      obtain ⟨R, _, hlen, hR⟩ := lk.readers
      have hb := (hR b).mpr hb
      rw [(lk.held hheld).1] at hlen
      rw [List.length_eq_zero_iff.mp hlen] at hb
      cases hb
    rcases touch_locked hl hp with ⟨h1, h2⟩ | h1 <;> rcases touch_locked hl hq with ⟨h3, h4⟩ | h3
    · rw [h2, h4] at hvw; simp at hvw
    · exact excl j i (hcj.trans h3) (hci.trans h1)
    · exact excl i j (hci.trans h1) (hcj.trans h3)
    · exact hij (lk.one i j (.inr (hci.trans h1)) (.inr (hcj.trans h3)))
  exact ⟨key _ (.inl rfl), key _ (.inr (.inl rfl)), key _ (.inr (.inr rfl))⟩

/-- C68: and these are all accesses there are. A step of a goroutine changes no field but those it is said to write, other
than of a subscription it is making; and what it does depends on no field but those it is said to access: if those are
the same it does the same. -/
theorem c68_accesses {s s' : St} {a : Act} {i : Nat} {p : Pos} (hp : s.calls i = some p) (ha : takesPart i a = true)
    (hs : step s a = some s') :
    (∀ l, (l, true) ∉ touches p → l ≠ .active i → Same s.b s'.b l) ∧
    ∀ b, SameRest s.b b → (∀ l w, (l, w) ∈ touches p → Same s.b b l) →
      ∃ b', step { s with b := b } a = some { s' with b := b' } ∧ SameRest s'.b b' ∧
        ∀ l w, (l, w) ∈ touches p → Same s'.b b' l := by
  have nil : ∀ {b : Mem} (l : Loc), Same b b l := by intro b l; cases l <;> rfl
  have hcr : s.b.crashed = false := by
    unfold step at hs; split at hs
    · cases hs
    · next h => simpa using h
  -- it is enough to treat both at once
  suffices H : ∀ b, SameRest s.b b → (∀ l w, (l, w) ∈ touches p → Same s.b b l) →
      ∃ b', step { s with b := b } a = some { s' with b := b' } ∧ SameRest s'.b b' ∧
        (∀ l w, (l, w) ∈ touches p → Same s'.b b' l) ∧ ∀ l, (l, true) ∉ touches p → l ≠ .active i → Same s.b s'.b l by
    refine ⟨?_, fun b h1 h2 => ?_⟩
    · obtain ⟨_, _, _, _, h⟩ := H s.b ⟨rfl, rfl, rfl, rfl, rfl, rfl, fun _ => rfl⟩ fun l _ _ => nil l
      exact h
    · obtain ⟨b', h3, h4, h5, _⟩ := H b h1 h2
      exact ⟨b', h3, h4, h5⟩
  intro b hr hsm
  have hcr2 : b.crashed = false := by rw [← hr.crashed]; exact hcr
  cases a with
  | call op => cases ha
  | cancel ctx => cases ha
  | step j alt =>
    have hj : i = j := by simpa [takesPart, mine] using ha
    subst hj
    simp only [step, hcr, hp, Bool.false_eq_true, if_false] at hs
    split at hs
    · next pc =>
      cases ‹some p = _›
      split at hs
      · next hcond =>
        split at hs
        · cases hs
        · next b' pc' evs hm =>
          cases hs
          obtain ⟨b2', h1, h2, h3, h4⟩ := micro_touch hm hcond.1 hcond.2 hr hsm
          exact ⟨b2', by simp [step, hcr2, hp, hcond, h1], h2, h3, fun l hl _ => (h4 l hl).1⟩
        · next b' pc' evs g hm =>
          cases hs
          obtain ⟨b2', h1, h2, h3, h4⟩ := micro_touch hm hcond.1 hcond.2 hr hsm
          exact ⟨b2', by simp [step, hcr2, hp, hcond, h1], h2, h3, fun l hl _ => (h4 l hl).1⟩
      · cases hs
    · cases hs
  | lock j =>
    have hj : i = j := by simpa [takesPart, mine] using ha
    subst hj
    simp only [step, hcr, hp, Bool.false_eq_true, if_false] at hs
    split at hs
    · cases hs
    · next mu' p' hl =>
      cases hs
      exact ⟨b, by simp [step, hcr2, hp, hl], hr, hsm, fun l _ _ => nil l⟩
  | stmt j key =>
    have hj : i = j := by simpa [takesPart, mine] using ha
    subst hj
    simp only [step, hcr, hp, Bool.false_eq_true, if_false] at hs
    split at hs
    · cases hs
    · next b' p' evs hm =>
      cases hs
      obtain ⟨b2', h1, h2, h3, h4⟩ := stmt_touch hm hr hsm
      exact ⟨b2', by simp [step, hcr2, hp, h1], h2, h3, fun l hl hli => (h4 l hl hli).1⟩
  | meet x y =>
    simp only [step, hcr, Bool.false_eq_true, if_false] at hs
    split at hs
    · next pc pc' hx hy =>
      split at hs
      · cases hs
      · next pc1 pc1' evs hm =>
        cases hs
        have hm2 : Broker.meet b x y pc pc' = some (pc1, pc1', evs) := by
          cases pc <;> try (simp [Broker.meet] at hm; done)
          cases pc' <;> try (simp [Broker.meet] at hm; done)
          all_goals
            simp only [Broker.meet] at hm ⊢
            split at hm
            · cases hm
            · next o ho =>
              obtain ⟨o2, h2, h3, h4, h5, h6⟩ := rest_some hr ho
              rw [h2]
              simp only [h5, ← hr.size]
              exact hm
        exact ⟨b, by simp [step, hcr2, hx, hy, hm2], hr, hsm, fun l _ _ => nil l⟩
    · cases hs
  | ret j =>
    have hj : i = j := by simpa [takesPart, mine] using ha
    subst hj
    simp only [step, hcr, hp, Bool.false_eq_true, if_false] at hs
    split at hs
    · next r => cases ‹some p = _›; cases hs; exact ⟨b, by simp [step, hcr2, hp], hr, hsm, fun l _ _ => nil l⟩
    · cases hs

/-- C68 does not hold statement by statement: there are races on the exit channel, the control channel, and whether a
subscription is active. -/
theorem c68_stmt_violated : (¬ ∀ cap s, Reach cap Any s → ¬ RaceOn s .exit) ∧ (¬ ∀ cap s, Reach cap Any s → ¬ RaceOn s .ctl) ∧
    ¬ ∀ cap s x, Reach cap Any s → ¬ RaceOn s (.active x) := by
  let again : List Act := Lock.opens 0 ++ [.call .close, .lock 2, .lock 2, .stmt 2 "", .stmt 2 "", .stmt 2 "", .stmt 2 "", .lock 2,
    .ret 2, .call (.open 0)] ++ Lock.reads 3 ++ [.lock 3, .lock 3, .stmt 3 ""]
  refine ⟨fun h => ?_, fun h => ?_, fun h => ?_⟩
  · exact h 1 (Lock.run 1 again) (Lock.reach_run rfl)
      ⟨3, 1, .open2 0, .out (.run 0), true, false, by decide, rfl, rfl, by decide, by decide, .inl rfl⟩
  · exact h 1 (Lock.run 1 (again ++ [.stmt 3 "", .step 1 .go])) (Lock.reach_run rfl)
      ⟨3, 1, .open3 0 4, .out (.runCtl 0 (some 3)), true, false, by decide, rfl, rfl, by decide, by decide, .inl rfl⟩
  · exact h 1 (Lock.run 1 (Lock.opens 0 ++ Lock.subscribes 2 "t" "u" ++ [.call (.unsubscribe 2), .step 3 .go, .step 3 .go,
        .call (.receive 0 2)])) 2 (Lock.reach_run rfl)
      ⟨3, 4, .out (.unsubSet 2), .out (.recvChk 0 2), true, false, by decide, rfl, rfl, by decide, by decide, .inl rfl⟩

-- the memories `Sub` meets differ in whether the broker is open and in another subscription; what it does is the same
example : let s := Lock.run 1 (Lock.opens 0 ++ [.call (.sub "t" "u")] ++ Lock.reads 2 ++ [.lock 2, .lock 2, .stmt 2 "", .stmt 2 ""])
    let b : Mem := { s.b with connected := false, subs := s.b.subs.set "v" GoMap.empty }
    s.calls 2 = some (.sub3 "t" "u" ⟨2, some 0⟩) ∧ takesPart 2 (.stmt 2 "") = true ∧ (step s (.stmt 2 "")).isSome = true ∧
    SameRest s.b b ∧ (∀ l w, (l, w) ∈ touches (.sub3 "t" "u" ⟨2, some 0⟩) → Same s.b b l) ∧ ¬ Same s.b b .connected := by
  refine ⟨rfl, rfl, rfl, ⟨rfl, rfl, rfl, rfl, rfl, rfl, fun _ => rfl⟩, ?_, ?_⟩
  · simp only [touches, List.mem_singleton, Prod.mk.injEq]; rintro l w ⟨rfl, _⟩; rfl
  · intro h; cases h

end Netscrape.Props
