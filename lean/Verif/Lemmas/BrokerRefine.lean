import Verif.Lemmas.BrokerSimStep

/-!
# The statement-level broker refines the coarse broker
-/

namespace Netscrape.BrokerLock
open Netscrape.Conc (upd upd_self upd_ne Mu)
open Netscrape.Broker (Mem Msg Op Ret PC Ev Alt Queue Sub Loc)

theorem Sim.has {f : St} {c : Broker.St} (h : Sim f c) (op : Op) : c.b.has op = f.b.has op := by
  rw [h.b]; cases op <;> rfl

theorem meet_put (b c : Mem) (p r : Nat) (pc pc' : PC) : Broker.meet (put b c) p r pc pc' = Broker.meet b p r pc pc' := by
  unfold Broker.meet
  split <;> rfl

theorem sim_step {f f' : St} {c : Broker.St} {a : Act} (h : Sim f c) (hinv : LockInv f) (hwf : WfInv f)
    (hcr : f.b.crashed = false) (ht : Tr f a f') :
    Sim f' c ∨ ∃ a' c', Follows a a' ∧ Broker.step c a' = some c' ∧ Sim f' c' := by
  have hinv' := hinv.tr ht
  have hcc : c.b.crashed = false := by rw [h.crashed]; exact hcr
  cases ht with
  | call op hop =>
    refine .inr ⟨.call op, { c with
        calls := upd c.calls c.next (some (.start op)), ops := upd c.ops c.next (some op), next := c.next + 1,
        log := c.log ++ [.call c.next] }, rfl, ?_, ?_⟩
    · have := (h.has op).trans hop
      simp [Broker.step, hcc, this]
    · have hnone := hinv.num.calls f.next (Nat.le_refl _)
      refine h.quiet ⟨.refl _, rfl⟩ h.b ?_ ?_ ?_ ?_ ?_ ?_
      · intro j
        exact congrFun (clsAt_keep (p := .out (.start op)) (clsAt_none hnone)) j
      · exact fun j p hj hp => writing_upd hj hp
      · dsimp only; rw [h.next]
        exact h.calls.fresh hnone fun i p ctx hi hp => absurd (hinv.num.claim i p ctx _ hi hp).1 (Nat.lt_irrefl _)
      · dsimp only; rw [h.next, h.ops]
      · dsimp only; rw [h.next]
      · dsimp only; rw [h.next, h.log]
  | cancel ctx =>
    refine .inr ⟨.cancel ctx, { c with b := { c.b with done := upd c.b.done ctx true } }, rfl, ?_, ?_⟩
    · simp [Broker.step, hcc]
    · refine h.quiet ⟨⟨rfl, rfl, rfl, rfl⟩, rfl⟩ ?_ (fun _ => rfl) (fun _ _ hj _ => hj) h.calls h.ops h.next h.log
      dsimp only; rw [h.b]; rfl
  | step i alt pc pc' b' evs hc hs hst hm =>
    obtain ⟨hq, alt', hm'⟩ := micro_put c.b hs hst hm
    have hm' := hm' h.ctl
    rw [← h.b] at hm'
    refine .inr ⟨.step i alt', _, rfl, coarse_step hcc (h.calls.some i _ hc) hm', ?_⟩
    refine h.quiet hq rfl ?_ ?_ (h.calls.upd hc rfl) h.ops h.next (by dsimp only; rw [h.log])
    · intro j
      exact congrFun (clsAt_keep (p := .out pc') (clsAt_some hc :)) j
    · exact fun j p hj hp => writing_upd hj hp
  | spawn i alt pc pc' g b' evs hc hs hst hm =>
    obtain ⟨hq, alt', hm'⟩ := micro_put c.b hs hst hm
    have hm' := hm' h.ctl
    rw [← h.b] at hm'
    refine .inr ⟨.step i alt', _, rfl, coarse_spawn hcc (h.calls.some i _ hc) hm', ?_⟩
    have hnone : upd f.calls i (some (.out pc')) f.next = none := by
      rw [upd_ne _ _ (by intro e; rw [← e, hinv.num.calls _ (Nat.le_refl _)] at hc; cases hc)]
      exact hinv.num.calls _ (Nat.le_refl _)
    refine h.quiet hq rfl ?_ ?_ ?_ h.ops ?_ ?_
    · intro j
      dsimp only
      rw [clsAt_keep (p := .out g) (clsAt_none hnone)]
      exact congrFun (clsAt_keep (p := .out pc') (clsAt_some hc :)) j
    · exact fun j p hj hp => writing_upd (writing_upd hj hp) hp
    · dsimp only; rw [h.next]
      refine (h.calls.upd (p' := .out pc') hc rfl).fresh hnone fun j p ctx hj hp => ?_
      by_cases hji : j = i
      · subst hji; rw [upd_self] at hj; cases hj; cases hp
      · rw [upd_ne _ _ hji] at hj
        exact absurd (hinv.num.claim j p ctx _ hj hp).1 (Nat.lt_irrefl _)
    · dsimp only; rw [h.next]
    · dsimp only; rw [h.log]
  | lock i p mu' p' hc hl =>
    left
    have hcl := lock_claimed hl
    have habs : abs p' = abs p := by
      cases p <;> simp only [lock, reduceCtorEq] at hl
      case out => repeat' split at hl
                  all_goals cases hl <;> rfl
      case wait => split at hl
                   · cases hl; exact abs_enter _
                   · cases hl
      all_goals (cases hl; rfl)
    have hcalls := h.calls.same hc (by rw [hcl.1, hcl.2]) habs
    refine ⟨h.b, hcalls, h.ops, h.next, h.log, ?_, ?_⟩
    · intro j q hj hq
      dsimp only at hj ⊢
      by_cases hji : j = i
      · subst hji; rw [upd_self] at hj; cases hj
        -- only entering leads into a section
        cases p <;> simp only [lock, reduceCtorEq] at hl
        case out => repeat' split at hl
                    all_goals cases hl <;> cases hq
        case wait pc =>
          split at hl
          · cases hl
            have he : Eqg f.b c.b := h.eqg fun k hk => by
              have hik : k = j := hinv.lock.one k j (.inr hk) (.inl (clsAt_some hc :))
              subst hik
              rw [clsAt_some hc] at hk; cases hk
            cases pc <;> exact he
          · cases hl
        all_goals (cases hl; cases hq)
      · rw [upd_ne _ _ hji] at hj
        exact h.mid j q hj hq
    · intro hn
      dsimp only at hn ⊢
      by_cases hw : ∃ k, clsAt f.calls k = .writing
      · obtain ⟨k, hk⟩ := hw
        have hki : k = i := Classical.byContradiction fun hne => hn k (by
          rw [clsAt_upd, upd_ne _ _ hne]; exact hk)
        subst hki
        rw [clsAt_some hc] at hk
        have hm := h.mid k p hc hk
        cases p <;> simp only [lock, reduceCtorEq] at hl
        case wEnd => exact hm
        all_goals cases hk
      · exact h.eqg fun k hk => hw ⟨k, hk⟩
  | stmt i key p b' p' evs hc hm =>
    rcases sim_stmt h hinv hwf hcr hc hm _ rfl hinv' with h1 | ⟨c', h1, h2⟩
    · exact .inl h1
    · exact .inr ⟨.step i .go, c', ⟨rfl, rfl⟩, h1, h2⟩
  | meet p r pc pc' pc1 pc1' evs hp hr hm =>
    have hm' : Broker.meet c.b p r pc pc' = some (pc1, pc1', evs) := by rw [h.b, meet_put]; exact hm
    refine .inr ⟨.meet p r, { c with calls := upd (upd c.calls p (some pc1)) r (some pc1'), log := c.log ++ evs },
      ⟨rfl, rfl⟩, ?_, ?_⟩
    · have h1 := h.calls.some p _ hp
      have h2 := h.calls.some r _ hr
      simp only [abs] at h1 h2
      simp [Broker.step, hcc, h1, h2, hm']
    · have hr' : ∃ q, cls (.out q) = .out ∧ upd f.calls p (some (.out pc1)) r = some (.out q) := by
        by_cases hrp : r = p
        · subst hrp; exact ⟨pc1, rfl, upd_self _ _ _⟩
        · exact ⟨pc', rfl, by rw [upd_ne _ _ hrp]; exact hr⟩
      obtain ⟨q, _, hr'⟩ := hr'
      refine h.quiet ⟨.refl _, rfl⟩ h.b ?_ ?_ ?_ h.ops h.next (by dsimp only; rw [h.log])
      · intro j
        dsimp only
        rw [clsAt_keep (p := .out pc1') (clsAt_some hr' :), clsAt_keep (p := .out pc1) (clsAt_some hp :)]
      · exact fun j p hj hp => writing_upd (writing_upd hj hp) hp
      · exact (h.calls.upd (p' := .out pc1) hp rfl).upd (p' := .out pc1') hr' rfl
  | ret i r hc =>
    refine .inr ⟨.ret i, { c with calls := upd c.calls i none, log := c.log ++ [.ret i r] }, rfl, ?_, ?_⟩
    · have h1 := h.calls.some i _ hc
      simp only [abs] at h1
      simp [Broker.step, hcc, h1]
    · refine h.quiet ⟨.refl _, rfl⟩ h.b ?_ ?_ (h.calls.ret hc rfl) h.ops h.next (by dsimp only; rw [h.log])
      · intro j
        exact congrFun (clsAt_ret (clsAt_some hc :)) j
      · intro j p hj _
        dsimp only at hj
        by_cases hji : j = i
        · subst hji; rw [upd_self] at hj; cases hj
        · rw [upd_ne _ _ hji] at hj; exact hj

theorem Reach.wf {cap : Int} {allowed : St → Act → Prop} {s : St} (h : Reach cap allowed s) : WfInv s := by
  induction h with
  | init => exact nofun
  | step s s' a _ _ hs ih => exact ih.tr (step_tr hs).2

/-- Every run of the statement-level broker is one of the coarse broker. -/
theorem refines {cap : Int} {allowed : St → Act → Prop} {allowed' : Broker.St → Broker.Act → Prop}
    (ha : ∀ f c a a', Reach cap allowed f → Sim f c → allowed f a → (step f a).isSome = true → Follows a a' →
      Broker.Reach cap allowed' c → allowed' c a')
    {f : St} (h : Reach cap allowed f) : ∃ c, Broker.Reach cap allowed' c ∧ Sim f c := by
  induction h with
  | init => exact ⟨_, .init, .init cap⟩
  | step s s' a hr hal hs ih =>
    obtain ⟨c, hc, hsim⟩ := ih
    obtain ⟨hcr, ht⟩ := step_tr hs
    rcases sim_step hsim hr.inv hr.wf hcr ht with h1 | ⟨a', c', hf, h1, h2⟩
    · exact ⟨c, hc, h1⟩
    · exact ⟨c', .step c c' a' hc (ha s c a a' hr hsim hal (by rw [hs]; rfl) hf hc) h1, h2⟩

end Netscrape.BrokerLock
