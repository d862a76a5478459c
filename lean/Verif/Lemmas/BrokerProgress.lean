import Verif.Spec.BrokerLock
import Verif.Lemmas.BrokerDrain
import Verif.Lemmas.BrokerSession
import Verif.Lemmas.Digest

/-!
# Calls of the statement-level broker can return
-/

namespace Netscrape.BrokerLock
open Netscrape.Conc (upd upd_self upd_ne Mu)
open Netscrape.Broker (Mem Msg Op Ret PC Ev Alt Queue Sub Loc)

/-- With the mutex free the two systems are in the same state. -/
theorem idle_eq {f : St} {c : Broker.St} (h : Sim f c) (hi : Idle f) : f = ofC c f.b.ctlWas := by
  have hcls : ∀ i, clsAt f.calls i ≠ .writing := by
    intro i hw
    unfold clsAt at hw
    split at hw
    · cases hw
    · next p hp => obtain ⟨pc, rfl⟩ := hi.out i p hp; cases hw
  have he := h.eqg hcls
  have hb : f.b = { c.b with ctlWas := f.b.ctlWas } := by
    rw [h.b]
    cases he; cases hf : f.b; simp_all [put]
  have hcalls : f.calls = fun j => (c.calls j).map Pos.out := by
    funext j
    cases hj : f.calls j with
    | some p =>
      obtain ⟨pc, rfl⟩ := hi.out j p hj
      rw [h.calls.some j _ hj]; rfl
    | none =>
      rw [h.calls.none j hj]; · rfl
      intro i p ctx hp hcl
      obtain ⟨pc, rfl⟩ := hi.out i p hp
      cases hcl
  cases f
  simp only at hb hcalls
  simp only [ofC, ← hb, hcalls, h.ops, h.next, h.log, St.mk.injEq, true_and, and_true]
  exact hi.mu

theorem coarse_live {cap : Int} {allowed : Broker.St → Broker.Act → Prop} {c : Broker.St} (h : Broker.Reach cap allowed c) :
    (∀ j, c.next ≤ j → c.calls j = none) ∧
    (c.b.connected = true → ∃ e, c.b.exit = some e ∧ c.b.closed e = false) :=
  ⟨h.toInv.calls, h.toInv.mem.live⟩

/-- Not a read of a field in the middle of the critical section that writes it. -/
def Fresh (a : Broker.Act) : Prop := ∀ i, a ≠ .step i .stale

/-- Several coarse steps. -/
theorem expand_exec {cap : Int} (w : Option Nat) : ∀ {as : List Broker.Act} {c c' : Broker.St}, Broker.Reach cap Broker.Any c →
    (∀ a ∈ as, Fresh a) → Broker.exec c as = some c' →
    ∃ acts, (∀ x ∈ acts, ∃ a ∈ as, Part a x) ∧ exec (ofC c w) acts = some (ofC c' w)
  | [], c, c', _, _, h => by cases h; exact ⟨[], nofun, rfl⟩
  | a :: as, c, c', hr, ha, h => by
    unfold Broker.exec at h
    split at h
    · cases h
    next c1 hs =>
    obtain ⟨l1, l2⟩ := coarse_live hr
    obtain ⟨xs, h1, h2⟩ := expand w (ha a List.mem_cons_self) l1 l2 hs
    obtain ⟨ys, h3, h4⟩ := expand_exec w (.step _ _ _ hr trivial hs) (fun b hb => ha b (List.mem_cons_of_mem _ hb)) h
    refine ⟨xs ++ ys, ?_, exec_trans h2 h4⟩
    intro x hx
    rcases List.mem_append.mp hx with hx | hx
    · exact ⟨a, List.mem_cons_self, h1 x hx⟩
    · obtain ⟨b, hb, hp⟩ := h3 x hx
      exact ⟨b, List.mem_cons_of_mem _ hb, hp⟩

/-- Every coarse run that does not read a field in the middle of a critical section can be made statement by statement. -/
theorem complete {cap : Int} {c : Broker.St} (h : Broker.Reach cap (fun _ a => Fresh a) c) :
    Reach cap Any (ofC c none) := by
  induction h with
  | init => exact .init
  | step c c' a hr ha hs ih =>
    obtain ⟨l1, l2⟩ := coarse_live hr
    obtain ⟨xs, _, h2⟩ := expand none ha l1 l2 hs
    exact ih.exec h2

theorem micro_stale {b b' : Mem} {i : Nat} {pc pc' : PC} {evs : List Ev} {g : Option PC}
    (h : Broker.micro b i pc .stale = some (b', pc', evs, g)) : ∃ ctx e, pc = .runCtl ctx e := by
  cases pc <;> simp only [Broker.micro, reduceCtorEq] at h
  exact ⟨_, _, rfl⟩

theorem coarse_finish {cap : Int} {i : Nat} {op : Op} : ∀ (n : Nat) {c : Broker.St}, Broker.Reach cap Broker.Any c →
    c.b.crashed = false → c.ops i = some op → Broker.rest c i ≤ n → (∀ r, Ev.ret i r ∉ c.log) →
    ∃ acts c', (∀ a ∈ acts, Spec.Broker.mine i a = true ∧ Fresh a) ∧ Broker.exec c acts = some c' ∧
      ((∃ r, Ev.ret i r ∈ c'.log) ∨ (c'.b.crashed = true ∧ ∃ x, op = .unsubscribe x)) := by
  intro n
  induction n with
  | zero =>
    intro c hr hcr ho hn hret
    rcases hr.pending i op ho with hp | ⟨r, hp⟩
    · obtain ⟨pc, hpc⟩ := Option.isSome_iff_exists.mp hp
      obtain ⟨a, ha, hs⟩ := Broker.can_step hr hcr ho hpc
      obtain ⟨c1, hs⟩ := Option.isSome_iff_exists.mp hs
      have := (Broker.left_step hr ho hs).2 ha
      omega
    · exact (hret r hp).elim
  | succ n ih =>
    intro c hr hcr ho hn hret
    rcases hr.pending i op ho with hp | ⟨r, hp⟩
    · obtain ⟨pc, hpc⟩ := Option.isSome_iff_exists.mp hp
      obtain ⟨a, ha, hs⟩ := Broker.can_step hr hcr ho hpc
      obtain ⟨c1, hs⟩ := Option.isSome_iff_exists.mp hs
      have hlt := (Broker.left_step hr ho hs).2 ha
      have hi := hr.toInv
      have hfits := hi.fits i pc hpc
      have hfresh : Fresh a := by
        rintro j rfl
        have hj : i = j := by simpa [Spec.Broker.mine] using ha
        subst hj
        simp only [Broker.step, hcr, hpc, Bool.false_eq_true, if_false] at hs
        split at hs
        · cases hs
        all_goals
          next hm =>
          obtain ⟨ctx, e, rfl⟩ := micro_stale hm
          have : c.ops i = none := hfits
          rw [ho] at this; cases this
      have hr1 : Broker.Reach cap Broker.Any c1 := .step _ _ _ hr trivial hs
      have ho1 : c1.ops i = some op := by
        cases a with
        | call | cancel | meet => cases ha
        | ret j =>
          simp only [Broker.step, hcr, Bool.false_eq_true, if_false] at hs
          split at hs
          · cases hs; exact ho
          · cases hs
        | step j alt =>
          simp only [Broker.step, hcr, Bool.false_eq_true, if_false] at hs
          split at hs
          · cases hs
          · split at hs <;> cases hs <;> exact ho
      by_cases hret1 : ∃ r, Ev.ret i r ∈ c1.log
      · exact ⟨[a], c1, by simpa using ⟨ha, hfresh⟩, by simp [Broker.exec, hs], .inl hret1⟩
      · rcases Bool.eq_false_or_eq_true c1.b.crashed with hc1 | hc1
        · refine ⟨[a], c1, by simpa using ⟨ha, hfresh⟩, by simp [Broker.exec, hs], .inr ⟨hc1, ?_⟩⟩
          obtain ⟨_, ht⟩ := Broker.step_tr hs
          refine Broker.tr_cases hi ht ?_ ?_ ?_ ?_ ?_
          · rintro op' rfl; cases ha
          · rintro ctx rfl; cases ha
          · rintro j alt pc1 pc1' evs g rfl ms
            have hj : i = j := by simpa [Spec.Broker.mine] using ha
            subst hj
            obtain ⟨x, h1, _, _⟩ := Broker.mic_crash hi.mem ms.mic hcr hc1
            have hpc1 := ms.here
            rw [hpc] at hpc1; cases hpc1
            subst h1
            have := hfits.1
            rw [ho] at this
            exact ⟨x, by simpa using this⟩
          · rintro _ _ _ _ _ _ _ _ _ _ _ rfl; cases ha
          · rintro j r rfl _ h1
            rw [h1, show ({ c with calls := _, log := _ } : Broker.St).b.crashed = c.b.crashed from rfl, hcr] at hc1
            cases hc1
        · obtain ⟨acts, c2, h1, h2, h3⟩ := ih hr1 hc1 ho1 (by omega) (fun r hr => hret1 ⟨r, hr⟩)
          refine ⟨a :: acts, c2, ?_, by simp [Broker.exec, hs, h2], h3⟩
          intro b hb
          rcases List.mem_cons.mp hb with rfl | hb
          · exact ⟨ha, hfresh⟩
          · exact h1 b hb
    · exact (hret r hp).elim

theorem part_mine {i : Nat} {a : Broker.Act} {x : Act} (h : Part a x) (ha : Spec.Broker.mine i a = true) :
    Spec.BrokerLock.mine i x = true := by
  cases a with
  | call | cancel | meet => cases ha
  | ret j => cases h; exact ha
  | step j alt =>
    have hj : i = j := by simpa [Spec.Broker.mine] using ha
    subst hj
    rcases h with rfl | rfl | ⟨key, rfl⟩ <;> simp [Spec.BrokerLock.mine]

/-- Whatever state the system is in, a call can return once those in critical sections have left them. -/
theorem can_return {cap : Int} {f : St} {i : Nat} {op : Op} (h : Reach cap Any f) (hcr : f.b.crashed = false)
    (ho : f.ops i = some op) : ∃ as bs f1 f2, (∀ a ∈ as, Spec.BrokerLock.inside a = true) ∧
      (∀ a ∈ bs, Spec.BrokerLock.mine i a = true) ∧ exec f as = some f1 ∧ exec f1 bs = some f2 ∧
      ((∃ r, Ev.ret i r ∈ f2.log) ∨ (f2.b.crashed = true ∧ ∃ x, op = .unsubscribe x)) := by
  obtain ⟨f1, ⟨hcr1, as, has, he⟩, hidle⟩ := drain h hcr
  have hin : ∀ a ∈ as, Spec.BrokerLock.inside a = true := by
    intro a ha
    obtain ⟨j, rfl | ⟨key, rfl⟩⟩ := has a ha <;> rfl
  have hr1 := h.exec he
  obtain ⟨c, hrc, hsim⟩ := sim_any hr1
  have hops : ∀ {as : List Act} {f f1 : St}, (∀ a ∈ as, Spec.BrokerLock.inside a = true) → exec f as = some f1 →
      f1.ops = f.ops := by
    intro as
    induction as with
    | nil => intro f f1 _ he; cases he; rfl
    | cons a as ih =>
      intro f f1 ha he
      simp only [exec] at he
      split at he
      · cases he
      next g hg =>
      rw [ih (fun b hb => ha b (List.mem_cons_of_mem _ hb)) he]
      have h1 := ha a List.mem_cons_self
      cases a <;> first | cases h1 | skip
      all_goals
        simp only [step] at hg
        split at hg
        · cases hg
        · split at hg
          · cases hg
          · split at hg <;> cases hg; rfl
  have ho1 : c.ops i = some op := by rw [hsim.ops, hops hin he]; exact ho
  by_cases hret : ∃ r, Ev.ret i r ∈ c.log
  · exact ⟨as, [], f1, f1, hin, nofun, he, rfl, .inl (by rw [← hsim.log]; exact hret)⟩
  · obtain ⟨acts, c', h1, h2, h3⟩ := coarse_finish _ hrc (by rw [hsim.crashed]; exact hcr1) ho1 (Nat.le_refl _)
      (fun r hr => hret ⟨r, hr⟩)
    obtain ⟨bs, h4, h5⟩ := expand_exec f1.b.ctlWas hrc (fun a ha => (h1 a ha).2) h2
    rw [← idle_eq hsim hidle] at h5
    refine ⟨as, bs, f1, _, hin, ?_, he, h5, h3⟩
    intro x hx
    obtain ⟨a, ha, hp⟩ := h4 x hx
    exact part_mine hp (h1 a ha).1

end Netscrape.BrokerLock
