import Verif.Lemmas.BrokerEnd
import Verif.Lemmas.BrokerReopen

/-!
# Goroutines of the broker end after `Close`
-/

namespace Netscrape.Broker
open Netscrape.Conc (upd upd_self upd_ne)
open Netscrape.Spec Netscrape.Spec.Broker

/-- The exit channel of a session, closed unless it is that of the current one. -/
def OkExit (b : Mem) (e : Option Nat) : Prop := ∃ j, e = some j ∧ (b.closed j = true ∨ b.exit = some j)

/-- Somewhere after the broker was found open. -/
def Opened : PC → Prop
  | .pubGet _ _ _ => True
  | .subMake _ _ => True
  | .run _ => True
  | .runDel _ _ _ => True
  | _ => False

/-- The exit channel that the goroutine of a session waits on, or is going to. -/
def Waits (e : Option Nat) : PC → Prop
  | .runCtl _ e' => e' = e
  | .runSel _ e' _ => e' = e
  | _ => False

structure LeakInv (s : St) : Prop where
  live : s.b.connected = true → ∃ e, s.b.exit = some e
  exit : s.b.connected = false → ∀ e, s.b.exit = some e → s.b.closed e = true
  opened : ∀ j pc, s.calls j = some pc → Opened pc → ∃ e, s.b.exit = some e
  set : ∀ j ctx, s.calls j = some (.openSet ctx) → s.b.connected = false
  topics : ∀ t q, s.b.topics.get? t = some q → OkExit s.b q.exit
  subs : ∀ x o, s.b.sub x = some o → OkExit s.b o.queue.exit
  runs : ∀ j pc e, s.calls j = some pc → Waits e pc → OkExit s.b e
  note : ∀ j x, s.calls j = some (.notify x) → (s.b.sub x).isSome = true

theorem opened_start (op : Op) : ¬ Opened (.start op) := by cases op <;> exact id

theorem reach_leak {cap : Int} {s : St} (h : Reach cap SoloOpen s) : LeakInv s := by
  refine h.inv (P := LeakInv) ⟨nofun, nofun, nofun, nofun, nofun, nofun, nofun, nofun⟩ ?_
  intro s s' a hr h _ _ ht
  have hi := hr.toInv
  refine tr_cases hi ht ?_ ?_ ?_ ?_ ?_
  · rintro op rfl _ rfl
    have old : ∀ {j pc}, upd s.calls s.next (some (.start op)) j = some pc → pc ≠ .start op →
        s.calls j = some pc := by
      intro j pc hj hne
      by_cases hn : j = s.next
      · subst hn; rw [upd_self] at hj; cases hj; exact (hne rfl).elim
      · rw [upd_ne _ _ hn] at hj; exact hj
    refine ⟨h.live, h.exit, ?_, ?_, h.topics, h.subs, ?_, ?_⟩
    · intro j pc hj ho
      exact h.opened j pc (old hj (by rintro rfl; exact opened_start op ho)) ho
    · intro j ctx hj; exact h.set j ctx (old hj (by cases op <;> exact nofun))
    · intro j pc e hj hw; exact h.runs j pc e (old hj (by rintro rfl; cases op <;> exact hw)) hw
    · intro j x hj; exact h.note j x (old hj (by cases op <;> exact nofun))
  · rintro c rfl rfl
    exact ⟨h.live, h.exit, h.opened, h.set, h.topics, h.subs, h.runs, h.note⟩
  · rintro i alt pc pc' evs g rfl ms
    have hmic := ms.mic
    have hf := hi.fits _ _ ms.here
    -- what becomes of exit channels
    have okk : ∀ {e}, OkExit s.b e → OkExit s'.b e := by
      rintro e ⟨j, rfl, hj⟩
      refine ⟨j, rfl, ?_⟩
      rcases hj with hj | hj
      · exact .inl (mic_closed_mono hmic hj)
      · rcases mic_exit hmic with h1 | ⟨ctx, rfl⟩
        · exact .inr (by rw [h1]; exact hj)
        · exact .inl (mic_closed_mono hmic (h.exit (h.set i ctx ms.here) j hj))
    have exk : (∃ e, s.b.exit = some e) → ∃ e, s'.b.exit = some e := by
      rintro ⟨e, he⟩
      rcases mic_exit hmic with h1 | ⟨ctx, rfl⟩
      · exact ⟨e, by rw [h1]; exact he⟩
      · generalize s'.b = b' at hmic
        cases hmic
        exact ⟨i, rfl⟩
    have oke : (∃ e, s.b.exit = some e) → OkExit s.b s.b.exit := fun ⟨e, he⟩ => ⟨e, he, .inr he⟩
    have hnew : ∀ {t}, Opened pc → OkExit s.b (s.b.queue i t).2.exit := by
      intro t ho
      rcases queue_or s.b i t with h1 | h1
      · exact h.topics _ _ h1
      · rw [h1]; exact oke (h.opened i pc ms.here ho)
    refine ⟨?_, ?_, ?_, ?_, ?_, ?_, ?_, ?_⟩
    · intro hc
      cases hb : s.b.connected with
      | true => exact exk (h.live hb)
      | false =>
        obtain ⟨ctx, rfl⟩ := mic_connect hmic hb hc
        generalize s'.b = b' at hmic
        cases hmic
        exact ⟨i, rfl⟩
    · intro hc e he
      cases hb : s.b.connected with
      | false =>
        rcases mic_exit hmic with h1 | ⟨ctx, rfl⟩
        · exact mic_closed_mono hmic (h.exit hb e (by rw [← h1]; exact he))
        · generalize s'.b = b' at hmic hc
          cases hmic
          cases hc
      | true =>
        generalize s'.b = b' at hmic hc he
        cases hmic with
        | closing | pubClose | runClose =>
          rcases hi.mem.close i with ⟨h1, _⟩ | ⟨_, e', h1, _, h2⟩
          · rw [hb] at h1; cases h1
          · rw [h2] at he ⊢
            dsimp only at he ⊢
            rw [h1] at he; cases he
            exact upd_self _ _ _
        | openSet ctx => cases hc
        | pubGet ctx t m => rw [(queue_eqs s.b i t).1, hb] at hc; cases hc
        | subMake t u => dsimp only at hc; rw [(queue_eqs s.b i t).1, hb] at hc; cases hc
        | _ => exact nomatch hc.symm.trans hb
    · intro j pcj hj ho
      by_cases hji : j = i
      · subst hji
        rw [ms.there] at hj; cases hj
        generalize s'.b = b' at hmic exk
        cases hmic with
        | pubYes _ _ _ hc => exact exk (h.live hc)
        | subYes _ _ hc => exact exk (h.live hc)
        | runMsg => obtain ⟨e, he, _⟩ := (reach_solo hr).pcs j _ ms.here |>.2; exact exk ⟨e, he⟩
        | runNoDel | runDel => exact exk (h.opened j _ ms.here trivial)
        | _ => exact ho.elim
      · rcases ms.other j _ hji hj with h1 | ⟨_, rfl⟩
        · exact exk (h.opened j pcj h1 ho)
        · generalize s'.b = b' at hmic
          cases hmic with
          | openSet => exact ⟨i, rfl⟩
          | unsubGo => exact ho.elim
    · intro j ctx hj
      by_cases hji : j = i
      · subst hji
        rw [ms.there] at hj; cases hj
        generalize s'.b = b' at hmic
        cases hmic with
        | openNo _ hc => exact hc
      · rcases ms.other j _ hji hj with h1 | ⟨_, rfl⟩
        · cases hc : s'.b.connected with
          | false => rfl
          | true =>
            obtain ⟨ctx', rfl⟩ := mic_connect hmic (h.set j ctx h1) hc
            exact (hji ((reach_solo hr).one j i _ _ h1 ms.here trivial trivial)).elim
        · rcases mic_spawn ms.mic with ⟨_, e⟩ | ⟨_, e⟩ <;> cases e
    · intro t q hq
      rcases mic_topics hmic hq with h1 | ⟨rfl, h1⟩
      · exact okk (h.topics t q h1)
      · refine okk (oke (h.opened i pc ms.here ?_))
        rcases h1 with ⟨_, _, _, rfl⟩ | ⟨_, _, rfl⟩ <;> trivial
    · intro x o hx
      rcases mic_sub hmic hx with ⟨o', h1, h2⟩ | ⟨t, u, rfl, rfl, rfl⟩
      · have := okk (h.subs x o' h1)
        rcases h2 with rfl | ⟨_, rfl⟩ <;> exact this
      · exact okk (hnew trivial)
    · intro j pcj e hj hw
      by_cases hji : j = i
      · subst hji
        rw [ms.there] at hj; cases hj
        have hhere := ms.here
        generalize s'.b = b' at hmic okk
        cases hmic with
        | run => cases hw; exact okk (oke (h.opened j _ hhere trivial))
        | runCtl | runWas => cases hw; exact okk (h.runs j _ _ hhere rfl)
        | _ => first | exact hw.elim | (split at hw <;> exact hw.elim)
      · rcases ms.other j _ hji hj with h1 | ⟨_, rfl⟩
        · exact okk (h.runs j pcj e h1 hw)
        · rcases mic_spawn ms.mic with ⟨_, rfl⟩ | ⟨_, rfl⟩ <;> exact hw.elim
    · intro j x hj
      refine mic_sub_some hmic ?_
      by_cases hji : j = i
      · subst hji
        rw [ms.there] at hj; cases hj
        generalize s'.b = b' at hmic
        cases hmic
      · rcases ms.other j _ hji hj with h1 | ⟨_, rfl⟩
        · exact h.note j x h1
        · generalize s'.b = b' at hmic
          cases hmic with
          | unsubGo => exact hr.toSub.isSome i _ x hf.1 rfl
  · rintro p r ctx q ex m x o pr pr' evs rfl ms
    have old : ∀ {j pc}, s'.calls j = some pc → (∀ r, pc ≠ .done r) → (∀ m, pc ≠ .handling m) →
        s.calls j = some pc := fun h1 h2 h3 => ms.before h1 h2 h3
    refine ⟨by rw [ms.b]; exact h.live, by rw [ms.b]; exact h.exit, ?_, ?_, by rw [ms.b]; exact h.topics,
      by rw [ms.b]; exact h.subs, ?_, ?_⟩
    · intro j pc hj ho
      rw [ms.b]
      exact h.opened j pc (old hj (by rintro _ rfl; exact ho) (by rintro _ rfl; exact ho)) ho
    · intro j c hj; rw [ms.b]; exact h.set j c (old hj (fun _ => nofun) (fun _ => nofun))
    · intro j pc e hj hw; rw [ms.b]; exact h.runs j pc e (old hj (by rintro _ rfl; exact hw) (by rintro _ rfl; exact hw)) hw
    · intro j y hj; rw [ms.b]; exact h.note j y (old hj (fun _ => nofun) (fun _ => nofun))
  · rintro i v rfl hcl rfl
    have old : ∀ {j pc}, upd s.calls i none j = some pc → s.calls j = some pc := by
      intro j pc hj
      by_cases hji : j = i
      · subst hji; rw [upd_self] at hj; cases hj
      · rw [upd_ne _ _ hji] at hj; exact hj
    exact ⟨h.live, h.exit, fun j pc hj => h.opened j pc (old hj), fun j c hj => h.set j c (old hj), h.topics,
      h.subs, fun j pc e hj => h.runs j pc e (old hj), fun j x hj => h.note j x (old hj)⟩

/-- Goroutine `j` can end without anybody else doing anything, and without reading a field while it is being written. -/
def CanEndNow (s : St) (j : Nat) : Prop := ∃ acts s',
  (∀ a ∈ acts, mine j a = true ∧ ∀ i, a ≠ .step i .stale) ∧ exec s acts = some s' ∧ s'.calls j = none

theorem CanEndNow.step {s s' : St} {j : Nat} {alt : Alt}
    (hs : Broker.step s (.step j alt) = some s') (h : CanEndNow s' j) (ha0 : alt ≠ .stale := by exact nofun) : CanEndNow s j := by
  obtain ⟨acts, s'', h1, h2, h3⟩ := h
  refine ⟨.step j alt :: acts, s'', ?_, ?_, h3⟩
  · intro a ha
    rcases List.mem_cons.mp ha with rfl | ha
    · exact ⟨by simp [mine], fun i e => by cases e; exact ha0 rfl⟩
    · exact h1 a ha
  · rw [exec, hs]; exact h2

theorem CanEndNow.done {s : St} {j : Nat} {r : Ret} (hn : s.b.crashed = false)
    (hc : s.calls j = some (.done r)) : CanEndNow s j := by
  refine ⟨[.ret j], { s with calls := upd s.calls j none, log := s.log ++ [.ret j r] }, ?_, ?_, upd_self _ _ _⟩
  · intro a ha; rw [List.mem_singleton.mp ha]; exact ⟨by simp [mine], nofun⟩
  · simp only [exec, Broker.step, hn, hc, Bool.false_eq_true, if_false]

theorem can_end_now {cap : Int} {s : St} (h : Reach cap SoloOpen s) (hn : s.b.crashed = false)
    (hd : s.b.connected = false) {j : Nat} {pc : PC} (ho : s.ops j = none) (hc : s.calls j = some pc) :
    CanEndNow s j := by
  have hl := reach_leak h
  have ok : ∀ {e}, OkExit s.b e → s.b.isClosed e = true := by
    rintro e ⟨k, rfl, h1 | h1⟩
    · exact h1
    · exact hl.exit hd k h1
  have close : ∀ {s : St}, s.b.crashed = false → s.b.connected = false → s.calls j = some .runClose →
      CanEndNow s j := by
    intro s hn hd hc
    obtain ⟨s', h1, h2, h3, _⟩ := advance (alt := .go) hn hc rfl
    refine .step h1 (.done ?_ h3)
    rw [h2, Mem.close, hd]; exact hn
  have sel : ∀ {s : St} {ctx e c}, s.b.crashed = false → s.b.connected = false → s.b.isClosed e = true →
      s.calls j = some (.runSel ctx e c) → CanEndNow s j := by
    intro s ctx e c hn hd he hc
    obtain ⟨s', h1, h2, h3, _⟩ := advance (alt := .exit) hn hc (by simp only [micro, he]; rfl)
    exact .step h1 (close (by rw [h2]; exact hn) (by rw [h2]; exact hd) h3)
  have ctl : ∀ {s : St} {ctx e}, s.b.crashed = false → s.b.connected = false → s.b.isClosed e = true →
      s.calls j = some (.runCtl ctx e) → CanEndNow s j := by
    intro s ctx e hn hd he hc
    obtain ⟨s', h1, h2, h3, _⟩ := advance (alt := .go) hn hc rfl
    exact .step h1 (sel (by rw [h2]; exact hn) (by rw [h2]; exact hd) (by rw [h2]; exact he) h3)
  have run : ∀ {s : St} {ctx}, s.b.crashed = false → s.b.connected = false → s.b.isClosed s.b.exit = true →
      s.calls j = some (.run ctx) → CanEndNow s j := by
    intro s ctx hn hd he hc
    obtain ⟨s', h1, h2, h3, _⟩ := advance (alt := .go) hn hc rfl
    exact .step h1 (ctl (by rw [h2]; exact hn) (by rw [h2]; exact hd) (by rw [h2]; exact he) h3)
  have hf := h.toInv.fits _ _ hc
  cases pc with
  | run ctx =>
    obtain ⟨e, he⟩ := hl.opened j _ hc trivial
    exact run hn hd (by rw [he]; exact hl.exit hd e he) hc
  | runCtl ctx e => exact ctl hn hd (ok (hl.runs j _ e hc rfl)) hc
  | runSel ctx e c => exact sel hn hd (ok (hl.runs j _ e hc rfl)) hc
  | runDel ctx t u =>
    obtain ⟨e, he⟩ := hl.opened j _ hc trivial
    cases hs : s.b.subs.get? t with
    | none =>
      obtain ⟨s', h1, h2, h3, _⟩ := advance (alt := .go) hn hc (by simp only [micro, hs]; rfl)
      exact .step h1 (run (by rw [h2]; exact hn) (by rw [h2]; exact hd)
        (by rw [h2, he]; exact hl.exit hd e he) h3)
    | some inner =>
      obtain ⟨s', h1, h2, h3, _⟩ := advance (alt := .go) hn hc (by simp only [micro, hs]; rfl)
      refine .step h1 (run (by rw [h2]; exact hn) (by rw [h2]; exact hd) ?_ h3)
      rw [h2]
      show s.b.isClosed s.b.exit = true
      rw [he]; exact hl.exit hd e he
  | runClose => exact close hn hd hc
  | notify x =>
    obtain ⟨o, hx⟩ := Option.isSome_iff_exists.mp (hl.note j x hc)
    obtain ⟨s', h1, h2, h3, _⟩ := advance (alt := .exit) hn hc
      (by simp only [micro, hx, ok (hl.subs x o hx)]; rfl)
    exact .step h1 (.done (by rw [h2]; exact hn) h3)
  | done r => exact .done hn hc
  | _ => simp [Fits, ho] at hf

theorem can_end {cap : Int} {s : St} (h : Reach cap SoloOpen s) (hn : s.b.crashed = false)
    (hd : s.b.connected = false) {j : Nat} {pc : PC} (ho : s.ops j = none) (hc : s.calls j = some pc) :
    CanEnd s j := by
  obtain ⟨acts, s', h1, h2⟩ := can_end_now h hn hd ho hc
  exact ⟨acts, s', fun a ha => (h1 a ha).1, h2⟩

end Netscrape.Broker
