import Verif.Spec.BrokerTime
import Verif.Lemmas.BrokerLog
import Verif.Lemmas.BrokerRun

/-!
# The broker with a clock
-/

namespace Netscrape.Broker
open Netscrape.Conc (upd upd_self upd_ne)
open Netscrape.Spec Netscrape.Spec.Broker

/-! ## Options -/

private theorem last_snoc {α β : Type} (f : α → Option β) (l : List α) (a : α) :
    ((l ++ [a]).filterMap f).getLast? = (f a).or (l.filterMap f).getLast? := by
  rw [List.filterMap_append]
  cases h : f a <;> simp [h]

private theorem snoc_induction {α : Type} {P : List α → Prop} (h0 : P []) (hs : ∀ l a, P l → P (l ++ [a])) (l : List α) :
    P l := by
  have : ∀ l : List α, P l.reverse := by
    intro l
    induction l with
    | nil => exact h0
    | cons a l ih => rw [List.reverse_cons]; exact hs _ _ ih
  simpa using this l.reverse

theorem opt_all_snoc (opts : List Opt) (o : Opt) : Opt.all (opts ++ [o]) = Opt.apply (Opt.all opts) o := by
  simp [Opt.all, List.foldl_append]

theorem all_cap (opts : List Opt) : (Opt.all opts).cap = (capOf opts).getD 0 := by
  induction opts using snoc_induction with
  | h0 => rfl
  | hs l o ih =>
    rw [opt_all_snoc, capOf, last_snoc]
    cases o <;> simp [Opt.apply, ih, capOf]

theorem all_pub (opts : List Opt) : (Opt.all opts).pubTimeout =
    ((opts.filterMap fun | .withPubTimeout d => some d | _ => none).getLast?).getD 0 := by
  induction opts using snoc_induction with
  | h0 => rfl
  | hs l o ih =>
    rw [opt_all_snoc, last_snoc]
    cases o <;> simp [Opt.apply, ih]

theorem all_recv (opts : List Opt) : (Opt.all opts).recvTimeout =
    ((opts.filterMap fun | .withSubTimeout d => some d | _ => none).getLast?).getD 0 := by
  induction opts using snoc_induction with
  | h0 => rfl
  | hs l o ih =>
    rw [opt_all_snoc, last_snoc]
    cases o <;> simp [Opt.apply, ih]

private theorem nonzero (x : Option Int) (d : Int) :
    (if x.getD 0 = 0 then d else x.getD 0) = (x.filter (· ≠ 0)).getD d := by
  cases x with
  | none => simp
  | some v => by_cases h : v = 0 <;> simp [h, Option.filter]

theorem all_pub_if (opts : List Opt) (d : Int) :
    (if (Opt.all opts).pubTimeout = 0 then d else (Opt.all opts).pubTimeout) = (pubTimeoutOf opts).getD d := by
  rw [all_pub]; exact nonzero _ d

theorem all_recv_if (opts : List Opt) (d : Int) :
    (if (Opt.all opts).recvTimeout = 0 then d else (Opt.all opts).recvTimeout) = (recvTimeoutOf opts).getD d := by
  rw [all_recv]; exact nonzero _ d

/-! ## Steps -/

theorem tr_log {s s' : St} {a : Act} (h : Tr s a s') : ∃ evs, s'.log = s.log ++ evs := by
  cases h with
  | cancel ctx => exact ⟨[], (List.append_nil _).symm⟩
  | _ => exact ⟨_, rfl⟩

/-- What a step that is not a call does to the timer-relevant parts. -/
theorem tstep_act {t t' : TSt} {a : Act} (h : tstep t (.act a) = some t') : t.can a = true ∧ ∃ s', step t.s a = some s' ∧
    t' = { t with s := s', timer := t.timers a, log := t.log ++ t.stamp s' } := by
  rw [tstep] at h
  split at h
  · next hc =>
    cases hs : step t.s a with
    | none => rw [hs] at h; cases h
    | some s' => rw [hs] at h; cases h; exact ⟨hc, s', rfl, rfl⟩
  · cases h

theorem tstep_call {t t' : TSt} {op : Op} {o : List Opt} (h : tstep t (.call op o) = some t') :
    ∃ s', step t.s (.call op) = some s' ∧
    t' = { t with s := s', timeout := upd t.timeout t.s.next (t.timeoutOf op o), log := t.log ++ t.stamp s' } := by
  rw [tstep] at h
  cases hs : step t.s (.call op) with
  | none => rw [hs] at h; cases h
  | some s' => rw [hs] at h; cases h; exact ⟨s', rfl, rfl⟩

theorem stamp_eq {t : TSt} {s' : St} {evs : List Ev} (h : s'.log = t.s.log ++ evs) :
    t.stamp s' = evs.map fun e => (t.now, e) := by
  simp [TSt.stamp, h]

/-! ## Invariant -/

/-- The timer of `i` expired, before time `τ`. -/
def Rang (t : TSt) (i : Nat) (τ : Int) : Prop := ∃ e, t.timer i = some e ∧ e ≤ τ

/-- What the position of `i` says about its timer. -/
def PcTime (t : TSt) (i : Nat) : PC → Prop
  | .pubSel _ _ _ _ => (t.timer i).isSome = true
  | .recvSel _ _ => (t.timer i).isSome = true
  | .recvDrop _ => Rang t i t.now
  | .done .timeout => Rang t i t.now
  | _ => True

structure TInv (opts : List Opt) (t : TSt) (os : Nat → List Opt) : Prop where
  reach : Reach ((capOf opts).getD 0) Any t.s
  erase : t.log.map Prod.snd = t.s.log
  past : ∀ x ∈ t.log, x.1 ≤ t.now
  pub : t.pubTimeout = (pubTimeoutOf opts).getD fiveSeconds
  timeout : ∀ i op, t.s.ops i = some op → t.timeout i = match op with
    | .pub _ _ _ => pubWait opts (os i)
    | .receive _ _ => recvWait (os i)
    | _ => 0
  fresh : ∀ i, t.s.next ≤ i → t.timer i = none
  timer : ∀ i e τ, t.timer i = some e → (τ, Ev.call i) ∈ t.log → τ + t.timeout i ≤ e
  pcs : ∀ i pc, t.s.calls i = some pc → PcTime t i pc
  rets : ∀ i τ, (τ, Ev.ret i .timeout) ∈ t.log → Rang t i τ

theorem PcTime.mono {t t' : TSt} {i : Nat} {pc : PC} (h : PcTime t i pc) (ht : t'.timer i = t.timer i)
    (hn : t.now ≤ t'.now) : PcTime t' i pc := by
  cases pc with
  | pubSel => simpa [PcTime, ht] using h
  | recvSel => simpa [PcTime, ht] using h
  | recvDrop x => obtain ⟨e, h1, h2⟩ := h; exact ⟨e, by rw [ht, h1], Int.le_trans h2 hn⟩
  | done r =>
    cases r with
    | timeout => obtain ⟨e, h1, h2⟩ := h; exact ⟨e, by rw [ht, h1], Int.le_trans h2 hn⟩
    | _ => trivial
  | _ => trivial

theorem TInv.init (opts : List Opt) : TInv opts (.new opts) (fun _ => []) where
  reach := by
    have : (TSt.new opts).s = St.init ((capOf opts).getD 0) := by rw [← all_cap]; rfl
    rw [this]; exact .init
  erase := rfl
  past := by intro x hx; cases hx
  pub := by
    show (if (Opt.all opts).pubTimeout = 0 then defaultTimeout else (Opt.all opts).pubTimeout) = _
    rw [all_pub_if]; rfl
  timeout := by intro i op h; cases h
  fresh := fun _ _ => rfl
  timer := by intro i e τ h; cases h
  pcs := by intro i pc h; cases h
  rets := by intro i τ h; cases h

theorem TInv.wait {opts : List Opt} {t : TSt} {os : Nat → List Opt} (h : TInv opts t os) (d : Nat) :
    TInv opts { t with now := t.now + d } os where
  reach := h.reach
  erase := h.erase
  past := fun x hx => Int.le_trans (h.past x hx) (by show t.now ≤ t.now + d; omega)
  pub := h.pub
  timeout := h.timeout
  fresh := h.fresh
  timer := h.timer
  pcs := fun i pc hp => (h.pcs i pc hp).mono rfl (by show t.now ≤ t.now + d; omega)
  rets := h.rets

theorem TInv.call {opts : List Opt} {t t' : TSt} {os : Nat → List Opt} {op : Op} {o : List Opt} (h : TInv opts t os)
    (hs : tstep t (.call op o) = some t') : TInv opts t' (upd os t.s.next o) := by
  obtain ⟨s', hst, rfl⟩ := tstep_call hs
  have hr' := Reach.step _ _ _ h.reach trivial hst
  have hi := h.reach.toInv
  obtain ⟨_, htr⟩ := step_tr hst
  cases htr with
  | call _ hh =>
  have hlog0 : ∀ s' : St, s'.log = t.s.log ++ [Ev.call t.s.next] → t.stamp s' = [(t.now, .call t.s.next)] :=
    fun s' e => stamp_eq e
  refine ⟨hr', ?_, ?_, h.pub, ?_, ?_, ?_, ?_, ?_⟩
  · dsimp only; rw [hlog0 _ rfl, List.map_append, h.erase]; rfl
  · dsimp only; rw [hlog0 _ rfl]
    intro x hx
    rcases List.mem_append.mp hx with hx | hx
    · exact h.past x hx
    · rw [List.mem_singleton.mp hx]; exact Int.le_refl _
  · dsimp only
    intro i op' ho
    by_cases hn : i = t.s.next
    · subst hn
      rw [upd_self] at ho ⊢
      rw [upd_self]
      cases ho
      cases op with
      | pub ctx tp m =>
        show (if _ then _ else _) = _
        rw [all_pub_if, h.pub]; rfl
      | receive ctx x =>
        show (if _ then _ else _) = _
        rw [all_recv_if]; rfl
      | _ => rfl
    · rw [upd_ne _ _ hn] at ho ⊢
      rw [upd_ne _ _ hn]
      exact h.timeout i op' ho
  · intro i hn; exact h.fresh i (by have : t.s.next + 1 ≤ i := hn; omega)
  · dsimp only; rw [hlog0 _ rfl]
    intro i e τ ht hx
    have hn : i ≠ t.s.next := by
      rintro rfl
      rw [h.fresh _ (Nat.le_refl _)] at ht; cases ht
    rw [upd_ne _ _ hn]
    rcases List.mem_append.mp hx with hx | hx
    · exact h.timer i e τ ht hx
    · have := List.mem_singleton.mp hx
      cases this
      exact absurd rfl hn
  · dsimp only
    intro i pc hp
    by_cases hn : i = t.s.next
    · subst hn
      rw [upd_self] at hp
      cases hp
      cases op <;> trivial
    · rw [upd_ne _ _ hn] at hp
      exact (h.pcs i pc hp).mono rfl (Int.le_refl _)
  · dsimp only; rw [hlog0 _ rfl]
    intro i τ hx
    rcases List.mem_append.mp hx with hx | hx
    · exact h.rets i τ hx
    · cases List.mem_singleton.mp hx

theorem timers_other {t : TSt} {i j : Nat} {a : Alt} (hj : j ≠ i) : t.timers (.step i a) j = t.timer j := by
  rw [TSt.timers]
  cases t.s.calls i with
  | none => rfl
  | some pc => dsimp only; split
               · exact upd_ne _ _ hj
               · rfl

theorem timers_none {t : TSt} {a : Act} {j : Nat} (hj : t.s.calls j = none) : t.timers a j = t.timer j := by
  cases a with
  | step i al =>
    by_cases h : j = i
    · subst h; rw [TSt.timers, hj]
    · exact timers_other h
  | _ => rfl

theorem timers_at {t : TSt} {i : Nat} {a : Alt} {pc : PC} (h : t.s.calls i = some pc) :
    t.timers (.step i a) i = if startsTimer pc then some (t.now + t.timeout i) else t.timer i := by
  rw [TSt.timers, h]
  dsimp only; split
  · exact upd_self _ _ _
  · rfl

/-- Positions of `i` after one of its own steps. -/
theorem pcTime_micro {t : TSt} {t' : TSt} {i : Nat} {a : Alt} {pc pc' : PC} {b' : Mem} {evs : List Ev} {g : Option PC}
    (hp : t.s.calls i = some pc) (hm : micro t.s.b i pc a = some (b', pc', evs, g)) (hpc : PcTime t i pc)
    (hc : t.can (.step i a) = true) (hn : t'.now = t.now) (ht : t'.timer i = t.timers (.step i a) i) :
    PcTime t' i pc' := by
  rw [timers_at hp] at ht
  have hm' := micro_mic hm
  cases hm' with
  | pubRead => simp only [startsTimer, if_true] at ht; simp [PcTime, ht]
  | recvYes => simp only [startsTimer, if_true] at ht; simp [PcTime, ht]
  | pubTimeout =>
    simp only [startsTimer] at ht
    simp only [TSt.can, TSt.expired] at hc
    cases he : t.timer i with
    | none => rw [he] at hc; cases hc
    | some e =>
      rw [he] at hc ht
      exact ⟨e, by simpa using ht, by rw [hn]; simpa using hc⟩
  | recvTimeout =>
    simp only [startsTimer] at ht
    simp only [TSt.can, TSt.expired] at hc
    cases he : t.timer i with
    | none => rw [he] at hc; cases hc
    | some e =>
      rw [he] at hc ht
      exact ⟨e, by simpa using ht, by rw [hn]; simpa using hc⟩
  | dropNone | dropOne =>
    obtain ⟨e, h1, h2⟩ := hpc
    simp only [startsTimer] at ht
    exact ⟨e, by rw [← h1]; simpa using ht, by rw [hn]; exact h2⟩
  | _ => trivial

theorem micro_no_call {b b' : Mem} {i : Nat} {pc pc' : PC} {a : Alt} {evs : List Ev} {g : Option PC}
    (h : micro b i pc a = some (b', pc', evs, g)) : (∀ j, Ev.call j ∉ evs) ∧ ∀ j r, Ev.ret j r ∉ evs := by
  obtain ⟨_, hq | ⟨ctx, q, e, m, _, _, _, _, rfl⟩ | ⟨ctx, x, o, p, m, r, _, _, _, _, _, rfl⟩ |
    ⟨x, o, p, m, r, _, _, _, _, _, rfl⟩ | ⟨m, e, _, _, rfl, _⟩⟩ := mic_kind (micro_mic h)
  · constructor
    · intro j hj; rcases hq.evs _ hj with e | e <;> cases e
    · intro j r hj; rcases hq.evs _ hj with e | e <;> cases e
  all_goals constructor <;> (intros; simp)

theorem TInv.act {opts : List Opt} {t t' : TSt} {os : Nat → List Opt} {a : Act} (h : TInv opts t os)
    (hs : tstep t (.act a) = some t') : TInv opts t' os := by
  obtain ⟨hc, s', hst, rfl⟩ := tstep_act hs
  have hr' := Reach.step _ _ _ h.reach trivial hst
  have hi := h.reach.toInv
  have hl := h.reach.toLog.1
  obtain ⟨_, htr⟩ := step_tr hst
  obtain ⟨evs, hevs⟩ := tr_log htr
  have hlog := stamp_eq hevs
  have hmem : ∀ x, x ∈ t.log ++ t.stamp s' → x ∈ t.log ∨ (x.1 = t.now ∧ x.2 ∈ evs) := by
    intro x hx
    rcases List.mem_append.mp hx with hx | hx
    · exact .inl hx
    · rw [hlog] at hx
      obtain ⟨e, he, rfl⟩ := List.mem_map.mp hx
      exact .inr ⟨rfl, he⟩
  -- facts about the step
  have hnext : t.s.next ≤ s'.next := by cases htr <;> simp
  have hops : s'.ops = t.s.ops := by
    cases htr with
    | call => cases hc
    | _ => rfl
  have hcalls : ∀ j, Ev.call j ∉ evs := by
    intro j hj
    cases htr with
    | call => cases hc
    | cancel ctx => have := List.append_cancel_left ((List.append_nil _).trans hevs); subst this; cases hj
    | step i a pc pc' b' evs' hp hm =>
      have := List.append_cancel_left hevs; subst this
      exact (micro_no_call hm).1 j hj
    | spawn i a pc pc' g b' evs' hp hm =>
      have := List.append_cancel_left hevs; subst this
      exact (micro_no_call hm).1 j hj
    | meet p r pc pr pc' pr' evs' hp hr hm =>
      have := List.append_cancel_left hevs; subst this
      unfold Broker.meet at hm
      repeat' split at hm
      all_goals cases hm
      all_goals simp at hj
    | ret i r hp => have := List.append_cancel_left hevs; subst this; simp at hj
  have htimer : ∀ j e, t.timers a j = some e → t.timer j = some e ∨
      (e = t.now + t.timeout j ∧ (t.s.calls j).isSome = true) := by
    intro j e he
    cases a with
    | step i al =>
      by_cases hj : j = i
      · subst hj
        cases hp : t.s.calls j with
        | none => rw [timers_none hp] at he; exact .inl he
        | some pc =>
          rw [timers_at hp] at he
          split at he
          · exact .inr ⟨(Option.some.inj he).symm, by rw [← hp, hp]; rfl⟩
          · exact .inl he
      · rw [timers_other hj] at he; exact .inl he
    | _ => exact .inl he
  refine ⟨hr', ?_, ?_, h.pub, ?_, ?_, ?_, ?_, ?_⟩
  · dsimp only; rw [hlog, List.map_append, h.erase, hevs, List.map_map]; exact congrArg _ (List.map_id _)
  · intro x hx
    rcases hmem x hx with hx | ⟨hx, _⟩
    · exact h.past x hx
    · exact Int.le_of_eq hx
  · dsimp only; rw [hops]; exact h.timeout
  · intro j hj
    have hj : t.s.next ≤ j := Nat.le_trans hnext hj
    have hnone : t.s.calls j = none := hi.calls j hj
    show t.timers a j = none
    rw [timers_none hnone]; exact h.fresh j hj
  · intro j e τ ht hx
    rcases hmem _ hx with hx | ⟨_, hx⟩
    · rcases htimer j e ht with ht | ⟨rfl, _⟩
      · exact h.timer j e τ ht hx
      · have := h.past _ hx
        show τ + t.timeout j ≤ t.now + t.timeout j
        dsimp only at this; omega
    · exact absurd hx (hcalls j)
  · dsimp only
    intro j pc hp
    cases htr <;> dsimp only at hp
    case call => cases hc
    case cancel ctx => exact (h.pcs j pc hp).mono rfl (Int.le_refl _)
    case step i al pc0 pc' b' evs' hp0 hm =>
      by_cases hj : j = i
      · subst hj
        rw [upd_self] at hp; cases hp
        exact pcTime_micro hp0 hm (h.pcs _ _ hp0) hc rfl rfl
      · rw [upd_ne _ _ hj] at hp
        exact (h.pcs j pc hp).mono (timers_other (a := al) hj) (Int.le_refl _)
    case spawn i al pc0 pc' g b' evs' hp0 hm =>
      by_cases hn : j = t.s.next
      · subst hn
        rw [upd_self] at hp; cases hp
        rcases mic_spawn (micro_mic hm) with ⟨ctx, rfl⟩ | ⟨x, rfl⟩ <;> trivial
      · rw [upd_ne _ _ hn] at hp
        by_cases hj : j = i
        · subst hj
          rw [upd_self] at hp; cases hp
          exact pcTime_micro hp0 hm (h.pcs _ _ hp0) hc rfl rfl
        · rw [upd_ne _ _ hj] at hp
          exact (h.pcs j pc hp).mono (timers_other (a := al) hj) (Int.le_refl _)
    case meet p r pc0 pr pc' pr' evs' hp0 hr0 hm =>
      have hpp := h.pcs _ _ hp0
      have hrr := h.pcs _ _ hr0
      unfold Broker.meet at hm
      repeat' split at hm
      all_goals cases hm
      all_goals
        by_cases hjr : j = r
        · subst hjr
          rw [upd_self] at hp; cases hp
          first | trivial | exact hrr.mono rfl (Int.le_refl _)
        · rw [upd_ne _ _ hjr] at hp
          by_cases hjp : j = p
          · subst hjp
            rw [upd_self] at hp; cases hp
            trivial
          · rw [upd_ne _ _ hjp] at hp
            exact (h.pcs j pc hp).mono rfl (Int.le_refl _)
    case ret i r hp0 =>
      by_cases hj : j = i
      · subst hj; rw [upd_self] at hp; cases hp
      · rw [upd_ne _ _ hj] at hp
        exact (h.pcs j pc hp).mono rfl (Int.le_refl _)
  · intro j τ hx
    rcases hmem _ hx with hx | ⟨hτ, hev⟩
    · obtain ⟨e, h1, h2⟩ := h.rets j τ hx
      have hnone : t.s.calls j = none := by
        have : Ev.ret j .timeout ∈ t.s.log := by rw [← h.erase]; exact List.mem_map.mpr ⟨_, hx, rfl⟩
        exact (hl.rets j _ this).1
      exact ⟨e, by show t.timers a j = _; rw [timers_none hnone, h1], h2⟩
    · dsimp only at hτ hev
      subst hτ
      cases htr with
      | call => cases hc
      | cancel ctx => have := List.append_cancel_left ((List.append_nil _).trans hevs); subst this; cases hev
      | step i a pc pc' b' evs' hp hm =>
        have := List.append_cancel_left hevs; subst this
        exact absurd hev ((micro_no_call hm).2 _ _)
      | spawn i a pc pc' g b' evs' hp hm =>
        have := List.append_cancel_left hevs; subst this
        exact absurd hev ((micro_no_call hm).2 _ _)
      | meet p r pc pr pc' pr' evs' hp hr hm =>
        have := List.append_cancel_left hevs; subst this
        unfold Broker.meet at hm
        repeat' split at hm
        all_goals cases hm
        all_goals simp at hev
      | ret i r hp =>
        have := List.append_cancel_left hevs; subst this
        have := List.mem_singleton.mp hev
        cases this
        exact h.pcs _ _ hp

theorem TReach.inv {opts : List Opt} {t : TSt} {os : Nat → List Opt} (h : TReach opts t os) : TInv opts t os := by
  induction h with
  | init => exact .init opts
  | wait t os d t' _ hs ih => cases hs; exact ih.wait d
  | call t os op o t' _ hs ih => exact ih.call hs
  | act t os a t' _ hs ih => exact ih.act hs

/-- Runs of concrete steps. -/
theorem treach_texec {opts : List Opt} {as : List TAct} {x y : TSt × (Nat → List Opt)} (h : TReach opts x.1 x.2)
    (he : texec x as = some y) : TReach opts y.1 y.2 := by
  induction as generalizing x with
  | nil => cases he; exact h
  | cons a as ih =>
    simp only [texec] at he
    cases hs : tstep x.1 a with
    | none => simp only [hs] at he; cases he
    | some t' =>
      simp only [hs] at he
      cases a with
      | wait d => exact ih (x := (t', x.2)) (.wait _ _ d _ h hs) he
      | call op o => exact ih (x := (t', upd x.2 x.1.s.next o)) (.call _ _ op o _ h hs) he
      | act a => exact ih (x := (t', x.2)) (.act _ _ a _ h hs) he

/-! ## Every run has a clock -/

theorem step_timeout {s s' : St} {i : Nat} (h : step s (.step i .timeout) = some s') :
    (∃ ctx q e m, s.calls i = some (.pubSel ctx q e m)) ∨ ∃ ctx x, s.calls i = some (.recvSel ctx x) := by
  obtain ⟨_, ht⟩ := step_tr h
  have : ∀ pc b' pc' evs g, micro s.b i pc .timeout = some (b', pc', evs, g) →
      (∃ ctx q e m, pc = .pubSel ctx q e m) ∨ ∃ ctx x, pc = .recvSel ctx x := by
    intro pc b' pc' evs g hm
    cases micro_mic hm with
    | pubTimeout ctx q e m => exact .inl ⟨ctx, q, e, m, rfl⟩
    | recvTimeout ctx x => exact .inr ⟨ctx, x, rfl⟩
  cases ht with
  | step _ _ pc pc' b' evs hp hm =>
    rcases this _ _ _ _ _ hm with ⟨ctx, q, e, m, rfl⟩ | ⟨ctx, x, rfl⟩
    · exact .inl ⟨ctx, q, e, m, hp⟩
    · exact .inr ⟨ctx, x, hp⟩
  | spawn _ _ pc pc' g b' evs hp hm =>
    rcases this _ _ _ _ _ hm with ⟨ctx, q, e, m, rfl⟩ | ⟨ctx, x, rfl⟩
    · exact .inl ⟨ctx, q, e, m, hp⟩
    · exact .inr ⟨ctx, x, hp⟩

theorem timed_of_reach {opts : List Opt} {s : St} (h : Reach ((capOf opts).getD 0) Any s) :
    ∃ t os, TReach opts t os ∧ t.s = s := by
  induction h with
  | init => exact ⟨_, _, .init, by rw [← all_cap]; rfl⟩
  | step s s' a hr _ hst ih =>
    obtain ⟨t, os, ht, rfl⟩ := ih
    by_cases hcall : ∃ op, a = .call op
    · obtain ⟨op, rfl⟩ := hcall
      refine ⟨_, _, .call t os op [] { t with s := s', timeout := upd t.timeout t.s.next (t.timeoutOf op []), log := t.log ++ t.stamp s' } ht ?_, rfl⟩
      simp only [tstep, hst]
    · by_cases hto : ∃ i, a = .step i .timeout
      · obtain ⟨i, rfl⟩ := hto
        have hti : (t.timer i).isSome = true := by
          rcases step_timeout hst with ⟨ctx, q, e, m, hp⟩ | ⟨ctx, x, hp⟩
          · exact ht.inv.pcs i _ hp
          · exact ht.inv.pcs i _ hp
        obtain ⟨e, he⟩ := Option.isSome_iff_exists.mp hti
        let t1 : TSt := { t with now := t.now + (e - t.now).toNat }
        have h1 : TReach opts t1 os := .wait t os (e - t.now).toNat t1 ht rfl
        refine ⟨_, _, .act t1 os (.step i .timeout) { t1 with s := s', timer := t1.timers (.step i .timeout), log := t1.log ++ t1.stamp s' } h1 ?_, rfl⟩
        have hex : t1.can (.step i .timeout) = true := by
          simp only [TSt.can, TSt.expired, t1, he, decide_eq_true_eq]
          have := Int.self_le_toNat (e - t.now)
          omega
        simp only [tstep, hex, if_true, show t1.s = t.s from rfl, hst]
      · refine ⟨_, _, .act t os a { t with s := s', timer := t.timers a, log := t.log ++ t.stamp s' } ht ?_, rfl⟩
        have hex : t.can a = true := by
          unfold TSt.can
          split
          · exact absurd ⟨_, rfl⟩ hcall
          · exact absurd ⟨_, rfl⟩ hto
          · rfl
        simp only [tstep, hex, if_true, hst]

end Netscrape.Broker
