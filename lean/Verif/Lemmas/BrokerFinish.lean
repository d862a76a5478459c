import Verif.Lemmas.BrokerFresh

/-!
# Calls whose context is cancelled can return
-/

namespace Netscrape.Broker
open Netscrape.Conc (upd upd_self upd_ne)
open Netscrape.Spec Netscrape.Spec.Broker

theorem _root_.Netscrape.Spec.Broker.Finishes.step {s s' : St} {i : Nat} {alt : Alt} (hs : Broker.step s (.step i alt) = some s')
    (h : Finishes s' i) : Finishes s i := by
  obtain ⟨acts, s'', h1, h2, h3⟩ := h
  refine ⟨.step i alt :: acts, s'', ?_, ?_, h3⟩
  · intro a ha
    rcases List.mem_cons.mp ha with rfl | ha
    · exact .inr ⟨alt, rfl⟩
    · exact h1 a ha
  · rw [exec, hs]; exact h2

theorem _root_.Netscrape.Spec.Broker.Finishes.done {s : St} {i : Nat} {r : Ret} (hn : s.b.crashed = false)
    (hc : s.calls i = some (.done r)) : Finishes s i := by
  refine ⟨[.ret i], { s with calls := upd s.calls i none, log := s.log ++ [.ret i r] }, ?_, ?_, r, ?_⟩
  · intro a ha; exact .inl (List.mem_singleton.mp ha)
  · simp only [exec, Broker.step, hn, hc, Bool.false_eq_true, if_false]
  · exact List.mem_append_right _ (List.mem_singleton.mpr rfl)

/-- One step that starts no goroutine. -/
theorem advance {s : St} {i : Nat} {pc pc' : PC} {alt : Alt} {b' : Mem} {evs : List Ev}
    (hn : s.b.crashed = false) (hc : s.calls i = some pc)
    (hm : micro s.b i pc alt = some (b', pc', evs, none)) :
    ∃ s', Broker.step s (.step i alt) = some s' ∧ s'.b = b' ∧ s'.calls i = some pc' ∧ s'.ops = s.ops := by
  refine ⟨{ s with b := b', calls := upd s.calls i (some pc'), log := s.log ++ evs }, ?_, rfl,
    upd_self _ _ _, rfl⟩
  simp only [Broker.step, hn, hc, hm, Bool.false_eq_true, if_false]

theorem finish_pub {cap : Int} {s : St} {i ctx : Nat} {t : String} {m : Msg} {pc : PC}
    (hr : Reach cap Any s) (hn : s.b.crashed = false) (ho : s.ops i = some (.pub ctx t m))
    (hd : s.b.done ctx = true) (hc : s.calls i = some pc) : Finishes s i := by
  -- closing
  have close : ∀ {s : St}, Reach cap Any s → s.b.crashed = false → s.calls i = some .pubClose →
      Finishes s i := by
    intro s hr hn hc
    obtain ⟨s', h1, h2, h3, _⟩ := advance (alt := .go) hn hc rfl
    refine Finishes.step h1 (.done ?_ h3)
    rw [h2]
    rcases hr.toInv.mem.close i with ⟨_, e⟩ | ⟨_, _, _, _, e⟩ <;> rw [e] <;> exact hn
  have sel : ∀ {s : St} {q e m}, Reach cap Any s → s.b.crashed = false → s.b.done ctx = true →
      s.calls i = some (.pubSel ctx q e m) → Finishes s i := by
    intro s q e m hr hn hd hc
    obtain ⟨s', h1, h2, h3, _⟩ := advance (alt := .ctx) hn hc (by simp only [micro, hd]; rfl)
    exact Finishes.step h1 (close (.step _ _ _ hr trivial h1) (by rw [h2]; exact hn) h3)
  have read : ∀ {s : St} {q m}, Reach cap Any s → s.b.crashed = false → s.b.done ctx = true →
      s.calls i = some (.pubRead ctx q m) → Finishes s i := by
    intro s q m hr hn hd hc
    obtain ⟨s', h1, h2, h3, _⟩ := advance (alt := .go) hn hc rfl
    exact Finishes.step h1 (sel (.step _ _ _ hr trivial h1) (by rw [h2]; exact hn) (by rw [h2]; exact hd) h3)
  have get : ∀ {s : St} {t m}, Reach cap Any s → s.b.crashed = false → s.b.done ctx = true →
      s.calls i = some (.pubGet ctx t m) → Finishes s i := by
    intro s t m hr hn hd hc
    obtain ⟨s', h1, h2, h3, _⟩ := advance (alt := .go) hn hc rfl
    have hq := (queue_eqs s.b i t).2.2.2.2.2.2.2.2.2
    exact Finishes.step h1 (read (.step _ _ _ hr trivial h1) (by rw [h2, hq.2]; exact hn)
      (by rw [h2, hq.1]; exact hd) h3)
  have hf := hr.toInv.fits i pc hc
  cases pc with
  | done r => exact .done hn hc
  | pubClose => exact close hr hn hc
  | pubSel c q e m' =>
    obtain ⟨_, hf, _⟩ := hf
    rw [ho] at hf; cases hf
    exact sel hr hn hd hc
  | pubRead c q m' =>
    obtain ⟨_, hf, _⟩ := hf
    rw [ho] at hf; cases hf
    exact read hr hn hd hc
  | pubGet c t' m' =>
    rw [show s.ops i = _ from hf] at ho; cases ho
    exact get hr hn hd hc
  | pubChk c t' m' =>
    rw [show s.ops i = _ from hf] at ho; cases ho
    obtain ⟨s', h1, h2, h3, _⟩ := advance (alt := .go) hn hc rfl
    refine Finishes.step h1 ?_
    cases hco : s.b.connected with
    | true =>
      simp only [hco, if_true] at h3
      exact get (.step _ _ _ hr trivial h1) (by rw [h2]; exact hn) (by rw [h2]; exact hd) h3
    | false =>
      simp only [hco, Bool.false_eq_true, if_false] at h3
      exact .done (by rw [h2]; exact hn) h3
  | openChk | openSet | recvChk | recvSel | unsubChk | unsubClose | unsubSet | unsubGo | notify =>
    rw [hf.1] at ho; cases ho
  | closing | subChk | subMake | run | runCtl | runSel | runDel | runClose =>
    rw [show s.ops i = _ from hf] at ho; cases ho
  | recvDrop => obtain ⟨⟨_, hf⟩, _⟩ := hf; rw [hf] at ho; cases ho
  | handling => obtain ⟨_, _, hf⟩ := hf; rw [hf] at ho; cases ho

theorem finish_recv {cap : Int} {s : St} {i ctx x : Nat} {pc : PC}
    (hr : Reach cap Any s) (hn : s.b.crashed = false) (ho : s.ops i = some (.receive ctx x))
    (hd : s.b.done ctx = true) (hc : s.calls i = some pc) : Finishes s i := by
  have hsome := hr.toSub.isSome i _ x ho rfl
  obtain ⟨o, hx⟩ := Option.isSome_iff_exists.mp hsome
  have sel : ∀ {s : St}, s.b.crashed = false → s.b.done ctx = true →
      s.calls i = some (.recvSel ctx x) → Finishes s i := by
    intro s hn hd hc
    obtain ⟨s', h1, h2, h3, _⟩ := advance (alt := .ctx) hn hc (by simp only [micro, hd]; rfl)
    exact Finishes.step h1 (.done (by rw [h2]; exact hn) h3)
  have hf := hr.toInv.fits i pc hc
  cases pc with
  | done r => exact .done hn hc
  | recvSel c y =>
    have := hf.1
    rw [ho] at this; cases this
    exact sel hn hd hc
  | recvChk c y =>
    have := hf.1
    rw [ho] at this; cases this
    obtain ⟨s', h1, h2, h3, _⟩ := advance (alt := .go) hn hc (by simp only [micro, hx]; rfl)
    refine Finishes.step h1 ?_
    cases ha : o.active with
    | true =>
      simp only [ha, if_true] at h3
      exact sel (by rw [h2]; exact hn) (by rw [h2]; exact hd) h3
    | false =>
      simp only [ha, Bool.false_eq_true, if_false] at h3
      exact .done (by rw [h2]; exact hn) h3
  | recvDrop y =>
    obtain ⟨⟨_, hf⟩, _⟩ := hf
    rw [ho] at hf; cases hf
    cases hb : s.b.buf o.queue.msg with
    | nil =>
      obtain ⟨s', h1, h2, h3, _⟩ := advance (alt := .go) hn hc (by simp only [micro, hx, hb]; rfl)
      exact Finishes.step h1 (.done (by rw [h2]; exact hn) h3)
    | cons pm r =>
      obtain ⟨s', h1, h2, h3, _⟩ := advance (alt := .go) hn hc (by simp only [micro, hx, hb]; rfl)
      exact Finishes.step h1 (.done (by rw [h2]; exact hn) h3)
  | handling m =>
    obtain ⟨s', h1, h2, h3, _⟩ := advance (alt := .result none) hn hc rfl
    exact Finishes.step h1 (.done (by rw [h2]; exact hn) h3)
  | openChk | openSet | unsubChk | unsubClose | unsubSet | unsubGo | notify =>
    rw [hf.1] at ho; cases ho
  | closing | subChk | subMake | run | runCtl | runSel | runDel | runClose | pubChk | pubGet =>
    rw [show s.ops i = _ from hf] at ho; cases ho
  | pubRead | pubSel => obtain ⟨_, hf, _⟩ := hf; rw [hf] at ho; cases ho
  | pubClose => obtain ⟨_, _, _, hf, _⟩ := hf; rw [hf] at ho; cases ho

end Netscrape.Broker
