import Verif.Lemmas.BrokerTime
import Verif.Lemmas.BrokerFinish
import Verif.Lemmas.BrokerEnd

/-!
# Calls return in time
-/

namespace Netscrape.Broker
open Netscrape.Conc (upd upd_self upd_ne)
open Netscrape.Spec Netscrape.Spec.Broker

/-- A timer never expires later than its duration from now. -/
theorem TReach.soon {opts : List Opt} {t : TSt} {os : Nat → List Opt} (h : TReach opts t os) :
    ∀ i e, t.timer i = some e → e ≤ t.now + t.timeout i := by
  induction h with
  | init => intro i e h; cases h
  | wait t os d t' _ hs ih =>
    cases hs
    intro i e h
    have := ih i e h
    show e ≤ t.now + d + t.timeout i
    omega
  | call t os op o t' ht hs ih =>
    obtain ⟨s', _, rfl⟩ := tstep_call hs
    intro i e h
    have h : t.timer i = some e := h
    show e ≤ t.now + upd t.timeout t.s.next (t.timeoutOf op o) i
    have hne : i ≠ t.s.next := by
      rintro rfl; rw [ht.inv.fresh _ (Nat.le_refl _)] at h; cases h
    rw [upd_ne _ _ hne]; exact ih i e h
  | act t os a t' _ hs ih =>
    obtain ⟨_, s', _, rfl⟩ := tstep_act hs
    intro i e h
    have h : t.timers a i = some e := h
    show e ≤ t.now + t.timeout i
    cases a with
    | step j al =>
      by_cases hj : i = j
      · subst hj
        cases hp : t.s.calls i with
        | none => rw [timers_none hp] at h; exact ih i e h
        | some pc =>
          rw [timers_at hp] at h
          split at h
          · cases h; exact Int.le_refl _
          · exact ih i e h
      · rw [timers_other hj] at h; exact ih i e h
    | _ => exact ih i e h

variable {opts : List Opt} {os : Nat → List Opt} {i : Nat} {τ : Int}

theorem _root_.Netscrape.Spec.Broker.ReturnsBy.step {t t' : TSt} {alt : Alt} (hs : tstep t (.act (.step i alt)) = some t')
    (h : ReturnsBy t' os i τ) : ReturnsBy t os i τ := by
  obtain ⟨as, y, h1, h2, h3⟩ := h
  refine ⟨.act (.step i alt) :: as, y, ?_, ?_, h3⟩
  · intro a ha
    rcases List.mem_cons.mp ha with rfl | ha
    · exact .inr (.inr ⟨alt, rfl⟩)
    · exact h1 a ha
  · simp only [texec, hs]; exact h2

theorem _root_.Netscrape.Spec.Broker.ReturnsBy.wait {t : TSt} (d : Nat) (h : ReturnsBy { t with now := t.now + d } os i τ) :
    ReturnsBy t os i τ := by
  obtain ⟨as, y, h1, h2, h3⟩ := h
  refine ⟨.wait d :: as, y, ?_, ?_, h3⟩
  · intro a ha
    rcases List.mem_cons.mp ha with rfl | ha
    · exact .inl ⟨d, rfl⟩
    · exact h1 a ha
  · simp only [texec, tstep]; exact h2

theorem _root_.Netscrape.Spec.Broker.ReturnsBy.done {t : TSt} {r : Ret} (hn : t.s.b.crashed = false) (hc : t.s.calls i = some (.done r))
    (hτ : t.now ≤ τ) : ReturnsBy t os i τ := by
  let s' : St := { t.s with calls := upd t.s.calls i none, log := t.s.log ++ [.ret i r] }
  have hs : Broker.step t.s (.ret i) = some s' := by
    simp only [Broker.step, hn, hc, Bool.false_eq_true, if_false]; rfl
  refine ⟨[.act (.ret i)], ({ t with s := s', log := t.log ++ t.stamp s' }, os), ?_, ?_, t.now, r, ?_, hτ⟩
  · intro a ha; exact .inr (.inl (List.mem_singleton.mp ha))
  · simp only [texec, tstep, TSt.can, if_true, hs]; rfl
  · have : t.stamp s' = [(t.now, Ev.ret i r)] := stamp_eq (evs := [.ret i r]) rfl
    show _ ∈ t.log ++ t.stamp s'
    rw [this]
    exact List.mem_append_right _ (List.mem_singleton.mpr rfl)

/-- One step that starts no goroutine. -/
theorem tadvance {t : TSt} {pc pc' : PC} {alt : Alt} {b' : Mem} {evs : List Ev}
    (ht : TReach opts t os) (hn : t.s.b.crashed = false) (hc : t.s.calls i = some pc)
    (hcan : t.can (.step i alt) = true) (hm : micro t.s.b i pc alt = some (b', pc', evs, none)) :
    ∃ t', tstep t (.act (.step i alt)) = some t' ∧ t'.s.b = b' ∧ t'.s.calls i = some pc' ∧ TReach opts t' os ∧
      t'.now = t.now ∧ t'.timeout = t.timeout := by
  obtain ⟨s', h1, h2, h3, h4⟩ := advance hn hc hm
  have hs : tstep t (.act (.step i alt)) =
      some { t with s := s', timer := t.timers (.step i alt), log := t.log ++ t.stamp s' } := by
    simp only [tstep, hcan, if_true, h1]
  exact ⟨_, hs, h2, h3, .act _ _ _ _ ht hs, rfl, rfl⟩

/-- Waiting for the timer. -/
theorem await {t : TSt} (ht : TReach opts t os) (htm : (t.timer i).isSome = true)
    (hτ : t.now + t.timeout i ≤ τ) (hτ' : t.now ≤ τ) :
    ∃ d : Nat, ({ t with now := t.now + d } : TSt).expired i = true ∧ t.now + d ≤ τ := by
  obtain ⟨e, he⟩ := Option.isSome_iff_exists.mp htm
  have := ht.soon i e he
  refine ⟨(e - t.now).toNat, ?_, by omega⟩
  simp only [TSt.expired, he]
  apply decide_eq_true
  show e ≤ t.now + ((e - t.now).toNat : Int)
  omega

theorem pub_in_time {t : TSt} {ctx : Nat} {tp : String} {m : Msg} {pc : PC} (ht : TReach opts t os)
    (hn : t.s.b.crashed = false) (ho : t.s.ops i = some (.pub ctx tp m)) (hc : t.s.calls i = some pc)
    (hτ : t.now + t.timeout i ≤ τ) (hτ' : t.now ≤ τ) : ReturnsBy t os i τ := by
  have sel : ∀ {t : TSt} {c q e m}, TReach opts t os → t.s.b.crashed = false → t.now + t.timeout i ≤ τ → t.now ≤ τ →
      t.s.calls i = some (.pubSel c q e m) → ReturnsBy t os i τ := by
    intro t c q e m ht hn hτ hτ' hc
    obtain ⟨d, h1, h2⟩ := await ht (ht.inv.pcs _ _ hc) hτ hτ'
    refine ReturnsBy.wait d ?_
    obtain ⟨t', g1, g2, g3, g4, g5, g6⟩ := tadvance (t := { t with now := t.now + d }) (alt := .timeout)
      (.wait _ _ d _ ht rfl) hn hc h1 rfl
    exact ReturnsBy.step g1 (.done (by rw [g2]; exact hn) g3 (by rw [g5]; exact h2))
  have read : ∀ {t : TSt} {c q m}, TReach opts t os → t.s.b.crashed = false → t.now + t.timeout i ≤ τ → t.now ≤ τ →
      t.s.calls i = some (.pubRead c q m) → ReturnsBy t os i τ := by
    intro t c q m ht hn hτ hτ' hc
    obtain ⟨t', g1, g2, g3, g4, g5, g6⟩ := tadvance (alt := .go) ht hn hc rfl rfl
    exact ReturnsBy.step g1 (sel g4 (by rw [g2]; exact hn) (by rw [g5, g6]; exact hτ) (by rw [g5]; exact hτ') g3)
  have get : ∀ {t : TSt} {c tp m}, TReach opts t os → t.s.b.crashed = false → t.now + t.timeout i ≤ τ → t.now ≤ τ →
      t.s.calls i = some (.pubGet c tp m) → ReturnsBy t os i τ := by
    intro t c tp m ht hn hτ hτ' hc
    obtain ⟨t', g1, g2, g3, g4, g5, g6⟩ := tadvance (alt := .go) ht hn hc rfl rfl
    have hq := (queue_eqs t.s.b i tp).2.2.2.2.2.2.2.2.2
    exact ReturnsBy.step g1 (read g4 (by rw [g2, hq.2]; exact hn) (by rw [g5, g6]; exact hτ) (by rw [g5]; exact hτ') g3)
  have hf := ht.inv.reach.toInv.fits i pc hc
  cases pc with
  | done r => exact .done hn hc hτ'
  | pubClose =>
    obtain ⟨t', g1, g2, g3, g4, g5, g6⟩ := tadvance (alt := .go) ht hn hc rfl rfl
    refine ReturnsBy.step g1 (.done ?_ g3 (by rw [g5]; exact hτ'))
    rw [g2]
    rcases ht.inv.reach.toInv.mem.close i with ⟨_, e⟩ | ⟨_, _, _, _, e⟩ <;> rw [e] <;> exact hn
  | pubSel c q e m' => exact sel ht hn hτ hτ' hc
  | pubRead c q m' => exact read ht hn hτ hτ' hc
  | pubGet c t' m' => exact get ht hn hτ hτ' hc
  | pubChk c t' m' =>
    obtain ⟨t', g1, g2, g3, g4, g5, g6⟩ := tadvance (alt := .go) ht hn hc rfl rfl
    refine ReturnsBy.step g1 ?_
    cases hco : t.s.b.connected with
    | true =>
      simp only [hco, if_true] at g3
      exact get g4 (by rw [g2]; exact hn) (by rw [g5, g6]; exact hτ) (by rw [g5]; exact hτ') g3
    | false =>
      simp only [hco, Bool.false_eq_true, if_false] at g3
      exact .done (by rw [g2]; exact hn) g3 (by rw [g5]; exact hτ')
  | openChk | openSet | recvChk | recvSel | unsubChk | unsubClose | unsubSet | unsubGo | notify =>
    rw [hf.1] at ho; cases ho
  | closing | subChk | subMake | run | runCtl | runSel | runDel | runClose =>
    rw [show t.s.ops i = _ from hf] at ho; cases ho
  | recvDrop => obtain ⟨⟨_, hf⟩, _⟩ := hf; rw [hf] at ho; cases ho
  | handling => obtain ⟨_, _, hf⟩ := hf; rw [hf] at ho; cases ho

theorem recv_in_time {t : TSt} {ctx x : Nat} {pc : PC} (ht : TReach opts t os)
    (hn : t.s.b.crashed = false) (ho : t.s.ops i = some (.receive ctx x)) (hc : t.s.calls i = some pc)
    (hτ : t.now + t.timeout i ≤ τ) (hτ' : t.now ≤ τ) : ReturnsBy t os i τ := by
  have hsome := ht.inv.reach.toSub.isSome i _ x ho rfl
  obtain ⟨o, hx⟩ := Option.isSome_iff_exists.mp hsome
  have drop : ∀ {t : TSt}, TReach opts t os → t.s.b.crashed = false → t.s.b.sub x = some o → t.now ≤ τ →
      t.s.calls i = some (.recvDrop x) → ReturnsBy t os i τ := by
    intro t ht hn hx hτ' hc
    cases hb : t.s.b.buf o.queue.msg with
    | nil =>
      obtain ⟨t', g1, g2, g3, g4, g5, g6⟩ := tadvance (alt := .go) ht hn hc rfl (by simp only [micro, hx, hb]; rfl)
      exact ReturnsBy.step g1 (.done (by rw [g2]; exact hn) g3 (by rw [g5]; exact hτ'))
    | cons pm r =>
      obtain ⟨t', g1, g2, g3, g4, g5, g6⟩ := tadvance (alt := .go) ht hn hc rfl (by simp only [micro, hx, hb]; rfl)
      exact ReturnsBy.step g1 (.done (by rw [g2]; exact hn) g3 (by rw [g5]; exact hτ'))
  have sel : ∀ {t : TSt} {c}, TReach opts t os → t.s.b.crashed = false → t.s.b.sub x = some o →
      t.now + t.timeout i ≤ τ → t.now ≤ τ → t.s.calls i = some (.recvSel c x) → ReturnsBy t os i τ := by
    intro t c ht hn hx hτ hτ' hc
    obtain ⟨d, h1, h2⟩ := await ht (ht.inv.pcs _ _ hc) hτ hτ'
    refine ReturnsBy.wait d ?_
    obtain ⟨t', g1, g2, g3, g4, g5, g6⟩ := tadvance (t := { t with now := t.now + d }) (alt := .timeout)
      (.wait _ _ d _ ht rfl) hn hc h1 rfl
    exact ReturnsBy.step g1 (drop g4 (by rw [g2]; exact hn) (by rw [g2]; exact hx) (by rw [g5]; exact h2) g3)
  have hf := ht.inv.reach.toInv.fits i pc hc
  cases pc with
  | done r => exact .done hn hc hτ'
  | recvSel c y =>
    have := hf.1
    rw [ho] at this; cases this
    exact sel ht hn hx hτ hτ' hc
  | recvChk c y =>
    have := hf.1
    rw [ho] at this; cases this
    obtain ⟨t', g1, g2, g3, g4, g5, g6⟩ := tadvance (alt := .go) ht hn hc rfl (by simp only [micro, hx]; rfl)
    refine ReturnsBy.step g1 ?_
    cases ha : o.active with
    | true =>
      simp only [ha, if_true] at g3
      exact sel g4 (by rw [g2]; exact hn) (by rw [g2]; exact hx) (by rw [g5, g6]; exact hτ) (by rw [g5]; exact hτ') g3
    | false =>
      simp only [ha, Bool.false_eq_true, if_false] at g3
      exact .done (by rw [g2]; exact hn) g3 (by rw [g5]; exact hτ')
  | recvDrop y =>
    obtain ⟨⟨_, hf⟩, _⟩ := hf
    rw [ho] at hf; cases hf
    exact drop ht hn hx hτ' hc
  | handling m =>
    obtain ⟨t', g1, g2, g3, g4, g5, g6⟩ := tadvance (alt := .result none) ht hn hc rfl rfl
    exact ReturnsBy.step g1 (.done (by rw [g2]; exact hn) g3 (by rw [g5]; exact hτ'))
  | openChk | openSet | unsubChk | unsubClose | unsubSet | unsubGo | notify =>
    rw [hf.1] at ho; cases ho
  | closing | subChk | subMake | run | runCtl | runSel | runDel | runClose | pubChk | pubGet =>
    rw [show t.s.ops i = _ from hf] at ho; cases ho
  | pubRead | pubSel => obtain ⟨_, hf, _⟩ := hf; rw [hf] at ho; cases ho
  | pubClose => obtain ⟨_, _, _, hf, _⟩ := hf; rw [hf] at ho; cases ho

end Netscrape.Broker
