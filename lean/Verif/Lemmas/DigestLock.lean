import Verif.Lemmas.BrokerStmt
import Verif.Lemmas.DigestStop
import Verif.Spec.DigestLock

/-!
# `Digest` on the statement-level broker is `Digest` on the coarse broker
-/

namespace Netscrape.BrokerLock
open Netscrape.Conc (upd upd_self upd_ne Mu)
open Netscrape.Broker (Mem Msg Op Ret PC Ev Alt Queue Sub Loc)

/-! ## `Receive` needs no lock -/

/-- A position in `Receive`. -/
def RecvPc : PC → Prop
  | .recvChk _ _ => True
  | .recvSel _ _ => True
  | .recvDrop _ => True
  | .handling _ => True
  | .done _ => True
  | _ => False

theorem RecvPc.sect {pc : PC} (h : RecvPc pc) : sect pc = none := by cases pc <;> first | rfl | exact h.elim

theorem RecvPc.micro {b b' : Mem} {i : Nat} {pc pc' : PC} {alt : Alt} {evs : List Ev} {g : Option PC} (h : RecvPc pc)
    (hm : Broker.micro b i pc alt = some (b', pc', evs, g)) : RecvPc pc' ∧ g = none := by
  cases pc <;> first | exact h.elim | skip
  all_goals
    cases alt <;> simp only [Broker.micro, reduceCtorEq] at hm
    all_goals
      repeat' split at hm
      all_goals first
        | (cases hm; done)
        | (cases hm; exact ⟨by first | trivial | (split <;> trivial), rfl⟩)

/-- What is known about calls of `Receive`. -/
structure RecvInv (s : St) : Prop where
  recv : ∀ r ctx x p, s.ops r = some (.receive ctx x) → s.calls r = some p → ∃ pc, p = .out pc ∧ RecvPc pc
  num : ∀ j, s.next ≤ j → s.ops j = none
  claim : ∀ i p ctx n, s.calls i = some p → claimed p = some (ctx, n) → s.ops n = none

theorem RecvInv.tr {s s' : St} {a : Act} (h : RecvInv s) (hl : LockInv s) (ht : Tr s a s') : RecvInv s' := by
  cases ht with
  | call op hop =>
    refine ⟨?_, ?_, ?_⟩
    · intro r ctx x p ho hc
      dsimp only at ho hc
      by_cases hr : r = s.next
      · subst hr
        rw [upd_self] at ho hc
        cases ho; cases hc
        exact ⟨_, rfl, trivial⟩
      · rw [upd_ne _ _ hr] at ho hc
        exact h.recv r ctx x p ho hc
    · intro j hj
      dsimp only at hj ⊢
      rw [upd_ne _ _ (by omega)]
      exact h.num j (by omega)
    · intro i p ctx n hi hp
      dsimp only at hi ⊢
      by_cases hin : i = s.next
      · subst hin; rw [upd_self] at hi; cases hi; cases hp
      · rw [upd_ne _ _ hin] at hi
        have := (hl.num.claim i p ctx n hi hp).1
        rw [upd_ne _ _ (by omega)]
        exact h.claim i p ctx n hi hp
  | cancel ctx => exact ⟨h.recv, h.num, h.claim⟩
  | step i alt pc pc' b' evs hc hs hst hm =>
    refine ⟨?_, h.num, ?_⟩
    · intro r ctx x p ho hr
      dsimp only at ho hr
      by_cases hri : r = i
      · subst hri
        rw [upd_self] at hr; cases hr
        obtain ⟨pc1, h1, h2⟩ := h.recv r ctx x _ ho hc
        cases h1
        exact ⟨_, rfl, (h2.micro hm).1⟩
      · rw [upd_ne _ _ hri] at hr
        exact h.recv r ctx x p ho hr
    · intro j p ctx n hj hp
      dsimp only at hj
      by_cases hji : j = i
      · subst hji; rw [upd_self] at hj; cases hj; cases hp
      · rw [upd_ne _ _ hji] at hj; exact h.claim j p ctx n hj hp
  | spawn i alt pc pc' g b' evs hc hs hst hm =>
    refine ⟨?_, fun j hj => h.num j (by dsimp only at hj; omega), ?_⟩
    · intro r ctx x p ho hr
      dsimp only at ho hr
      by_cases hrn : r = s.next
      · subst hrn; rw [h.num _ (Nat.le_refl _)] at ho; cases ho
      rw [upd_ne _ _ hrn] at hr
      by_cases hri : r = i
      · subst hri
        obtain ⟨pc1, h1, h2⟩ := h.recv r ctx x _ ho hc
        cases h1
        exact nomatch (h2.micro hm).2
      · rw [upd_ne _ _ hri] at hr
        exact h.recv r ctx x p ho hr
    · intro j p ctx n hj hp
      dsimp only at hj
      by_cases hjn : j = s.next
      · subst hjn; rw [upd_self] at hj; cases hj; cases hp
      rw [upd_ne _ _ hjn] at hj
      by_cases hji : j = i
      · subst hji; rw [upd_self] at hj; cases hj; cases hp
      · rw [upd_ne _ _ hji] at hj; exact h.claim j p ctx n hj hp
  | lock i p mu' p' hc hlk =>
    refine ⟨?_, h.num, ?_⟩
    · intro r ctx x q ho hr
      dsimp only at ho hr
      by_cases hri : r = i
      · subst hri
        obtain ⟨pc, rfl, h2⟩ := h.recv r ctx x _ ho hc
        simp only [lock, h2.sect, reduceCtorEq] at hlk
      · rw [upd_ne _ _ hri] at hr
        exact h.recv r ctx x q ho hr
    · intro j q ctx n hj hq
      dsimp only at hj
      by_cases hji : j = i
      · subst hji; rw [upd_self] at hj; cases hj
        rw [(lock_claimed hlk).2] at hq; cases hq
      · rw [upd_ne _ _ hji] at hj; exact h.claim j q ctx n hj hq
  | stmt i key p b' p' evs hc hm =>
    have hops : ∀ r ctx x, s.ops r = some (.receive ctx x) → r ≠ i := by
      rintro r ctx x ho rfl
      obtain ⟨pc, rfl, _⟩ := h.recv r ctx x _ ho hc
      exact nomatch hm
    have hst : ∀ r, (s.ops r).isSome = true → starts s.calls p r = s.calls r := by
      intro r hr
      cases p <;> try rfl
      next ctx n =>
        have := h.claim i _ ctx n hc rfl
        exact upd_ne _ _ (by rintro rfl; rw [this] at hr; cases hr)
    refine ⟨?_, fun j hj => h.num j (Nat.le_trans (Nat.le_add_right _ _) hj), ?_⟩
    · intro r ctx x q ho hr
      dsimp only at ho hr
      rw [upd_ne _ _ (hops r ctx x ho), hst r (by rw [ho]; rfl)] at hr
      exact h.recv r ctx x q ho hr
    · intro j q ctx n hj hq
      dsimp only at hj ⊢
      by_cases hji : j = i
      · subst hji; rw [upd_self] at hj; cases hj
        rcases stmt_claimed hm with ⟨ctx', rfl, rfl⟩ | ⟨ctx', n', rfl, hcl⟩ | ⟨_, _, hcl⟩
        · cases hq; exact h.num _ (Nat.le_refl _)
        · rw [hcl] at hq; cases hq
        · rw [hcl] at hq; exact h.claim j p ctx n hc hq
      · rw [upd_ne _ _ hji] at hj
        cases p <;> try exact h.claim j q ctx n hj hq
        next c' n' =>
          dsimp only [starts] at hj
          by_cases hjn : j = n'
          · subst hjn; rw [upd_self] at hj; cases hj; cases hq
          · rw [upd_ne _ _ hjn] at hj; exact h.claim j q ctx n hj hq
  | meet p r pc pc' pc1 pc1' evs hp hr hm =>
    have hpc1 : pc1 = .done .nil ∧ RecvPc pc1' := by
      unfold Broker.meet at hm
      repeat' split at hm
      all_goals first | (cases hm; done) | (cases hm; exact ⟨rfl, trivial⟩)
    refine ⟨?_, h.num, ?_⟩
    · intro j ctx x q ho hj
      dsimp only at ho hj
      by_cases hjr : j = r
      · subst hjr; rw [upd_self] at hj; cases hj; exact ⟨_, rfl, hpc1.2⟩
      rw [upd_ne _ _ hjr] at hj
      by_cases hjp : j = p
      · subst hjp; rw [upd_self] at hj; cases hj; exact ⟨_, rfl, by rw [hpc1.1]; trivial⟩
      · rw [upd_ne _ _ hjp] at hj; exact h.recv j ctx x q ho hj
    · intro j q ctx n hj hq
      dsimp only at hj
      by_cases hjr : j = r
      · subst hjr; rw [upd_self] at hj; cases hj; cases hq
      rw [upd_ne _ _ hjr] at hj
      by_cases hjp : j = p
      · subst hjp; rw [upd_self] at hj; cases hj; cases hq
      · rw [upd_ne _ _ hjp] at hj; exact h.claim j q ctx n hj hq
  | ret i r hc =>
    refine ⟨?_, h.num, ?_⟩
    · intro j ctx x q ho hj
      dsimp only at ho hj
      by_cases hji : j = i
      · subst hji; rw [upd_self] at hj; cases hj
      · rw [upd_ne _ _ hji] at hj; exact h.recv j ctx x q ho hj
    · intro j q ctx n hj hq
      dsimp only at hj
      by_cases hji : j = i
      · subst hji; rw [upd_self] at hj; cases hj
      · rw [upd_ne _ _ hji] at hj; exact h.claim j q ctx n hj hq

theorem Reach.recvInv {cap : Int} {allowed : St → Act → Prop} {s : St} (h : Reach cap allowed s) : RecvInv s := by
  induction h with
  | init => exact ⟨nofun, fun _ _ => rfl, nofun⟩
  | step s s' a hr _ hs ih => exact ih.tr hr.inv (step_tr hs).2

/-- The coarse broker can make a step of a `Receive` call; so can this one. -/
theorem recv_back {f : St} {c c' : Broker.St} (h : Sim f c) (hi : Broker.Inv c) (hr : RecvInv f) {r ctx x : Nat}
    (ho : f.ops r = some (.receive ctx x)) {alt : Alt} (hs : Broker.step c (.step r alt) = some c') :
    ∃ f', step f (.step r alt) = some f' := by
  obtain ⟨hn, ht⟩ := Broker.step_tr hs
  have hn' : f.b.crashed = false := by rw [← h.crashed]; exact hn
  have hc : ∃ pc, c.calls r = some pc ∧ (Broker.micro c.b r pc alt).isSome = true := by
    unfold Broker.step at hs
    rw [hn] at hs
    dsimp only at hs
    cases hpc : c.calls r with
    | none => simp [hpc] at hs
    | some pc =>
      refine ⟨pc, rfl, ?_⟩
      cases hm : Broker.micro c.b r pc alt with
      | none => simp [hpc, hm] at hs
      | some _ => rfl
  obtain ⟨pc, hpc, hm⟩ := hc
  obtain ⟨p, hp⟩ := Option.isSome_iff_exists.mp (h.caller hi (by rw [hpc]; rfl) (by rw [h.ops]; exact ho))
  obtain ⟨pc', rfl, hrp⟩ := hr.recv r ctx x p ho hp
  have he := h.calls.some r _ hp
  rw [hpc] at he; cases he
  simp only [abs] at hpc hm
  have hst : alt ≠ .stale := by
    rintro rfl
    cases pc' <;> first | exact hrp.elim | (simp only [Broker.micro] at hm; cases hm)
  have hm' : (Broker.micro f.b r pc' alt).isSome = true := by
    rw [h.b] at hm
    cases pc' <;> first | exact hrp.elim | skip
    all_goals
      cases alt <;> simp only [Broker.micro, put_isClosed] at hm ⊢
      all_goals first
        | exact hm
        | (simp only [show (put f.b c.b).sub = f.b.sub from rfl, show (put f.b c.b).buf = f.b.buf from rfl,
             show (put f.b c.b).done = f.b.done from rfl, show (put f.b c.b).closed = f.b.closed from rfl] at hm
           repeat' split at hm
           all_goals simp_all)
  obtain ⟨⟨b', pc1, evs, g⟩, hm'⟩ := Option.isSome_iff_exists.mp hm'
  have hg := (hrp.micro hm').2
  subst hg
  exact ⟨_, by simp [step, hn', hp, hrp.sect, hst, hm']; rfl⟩

/-- The coarse broker can return from a `Receive` call; so can this one. -/
theorem recv_ret_back {f : St} {c c' : Broker.St} (h : Sim f c) (hi : Broker.Inv c) (hr : RecvInv f) {r ctx x : Nat}
    (ho : f.ops r = some (.receive ctx x)) (hs : Broker.step c (.ret r) = some c') :
    ∃ f', step f (.ret r) = some f' := by
  obtain ⟨hn, ht⟩ := Broker.step_tr hs
  have hn' : f.b.crashed = false := by rw [← h.crashed]; exact hn
  have hc : ∃ v, c.calls r = some (.done v) := by
    cases ht with
    | ret _ v hc => exact ⟨v, hc⟩
  obtain ⟨v, hpc⟩ := hc
  obtain ⟨p, hp⟩ := Option.isSome_iff_exists.mp (h.caller hi (by rw [hpc]; rfl) (by rw [h.ops]; exact ho))
  obtain ⟨pc', rfl, hrp⟩ := hr.recv r ctx x p ho hp
  have he := h.calls.some r _ hp
  rw [hpc] at he
  simp only [abs, Option.some.injEq] at he
  subst he
  exact ⟨_, by simp [step, hn', hp]; rfl⟩

/-- The coarse broker can begin a call; so can this one. -/
theorem call_back {f : St} {c c' : Broker.St} (h : Sim f c) {op : Op} (hs : Broker.step c (.call op) = some c') :
    ∃ f', step f (.call op) = some f' := by
  obtain ⟨hn, ht⟩ := Broker.step_tr hs
  have hn' : f.b.crashed = false := by rw [← h.crashed]; exact hn
  have hh : c.b.has op = true := by
    cases ht with
    | call _ hop => exact hop
  rw [h.has] at hh
  exact ⟨_, by simp [step, hn', hh]; rfl⟩

end Netscrape.BrokerLock

namespace Netscrape.DigestLock
open Netscrape.BrokerLock hiding Pos
open Netscrape.Broker (Ev Ret Alt)
open Netscrape.Digest (Pos retOf)

/-! ## The relation -/

structure DSim (f : DSt) (c : Digest.DSt) : Prop where
  s : Sim f.s c.s
  pos : c.pos = f.pos
  recvs : c.recvs = f.recvs

theorem dstep_cases {ctx x : Nat} {d d' : DSt} {a : DAct} (h : dstep ctx x d a = some d') :
    (∃ b s', a = .sys b ∧ step d.s b = some s' ∧ d' = { d with s := s' }) ∨
    (∃ s', a = .receive ∧ d.pos = .start ∧ step d.s (.call (.receive ctx x)) = some s' ∧
      d' = ⟨s', .waiting d.s.next, d.recvs ++ [d.s.next]⟩) ∨
    (∃ r v, a = .resume ∧ d.pos = .waiting r ∧ retOf r d.s.log = some v ∧
      d' = { d with pos := if v = .nil then .start else .returned v }) := by
  unfold dstep at h
  split at h
  · next b =>
    split at h
    · cases h
    · next s' hs => cases h; exact .inl ⟨b, s', rfl, hs, rfl⟩
  · split at h
    · next hp =>
      split at h
      · cases h
      · next s' hs => cases h; exact .inr (.inl ⟨s', rfl, hp, hs, rfl⟩)
    · cases h
  · split at h
    · next r hp =>
      split at h
      · cases h
      · next hv => cases h; exact .inr (.inr ⟨r, .nil, rfl, hp, hv, rfl⟩)
      · next v hne hv => cases h; exact .inr (.inr ⟨r, v, rfl, hp, hv, by rw [if_neg hne]⟩)
    · cases h

theorem DReach.reach {cap : Int} {ctx x : Nat} {d : DSt} (h : DReach cap ctx x d) : Reach cap Any d.s := by
  induction h with
  | init s hr _ => exact hr
  | step d d' a _ hs ih =>
    rcases dstep_cases hs with ⟨b, s', _, h1, rfl⟩ | ⟨s', _, _, h1, rfl⟩ | ⟨r, v, _, _, _, rfl⟩
    · exact .step _ _ _ ih trivial h1
    · exact .step _ _ _ ih trivial h1
    · exact ih

/-- What `Digest` waits for is a call of `Receive`. -/
theorem waits {cap : Int} {ctx x : Nat} {f : DSt} {c : Digest.DSt} (h : DSim f c) (hc : Digest.DReach cap ctx x c) {r : Nat}
    (hp : f.pos = .waiting r) : f.s.ops r = some (.receive ctx x) := by
  have hi := hc.inv
  have hpos := hi.pos
  rw [h.pos, hp] at hpos
  obtain ⟨cs, h1, _⟩ := hpos
  rw [← h.s.ops]
  exact hi.ops r (by rw [h1]; simp)

/-- One step of `Digest` and the broker is none or one of the coarse ones, and one of `Digest` is one. -/
theorem dsim_step {cap : Int} {ctx x : Nat} {f f' : DSt} {c : Digest.DSt} {a : DAct} (h : DSim f c)
    (hf : DReach cap ctx x f) (hc : Digest.DReach cap ctx x c) (hs : dstep ctx x f a = some f') :
    (DSim f' c ∧ ¬ own f a) ∨
    ∃ a' c', Digest.dstep ctx x c a' = some c' ∧ DSim f' c' ∧ (own f a ↔ Digest.own c a') := by
  have hr := hf.reach
  rcases dstep_cases hs with ⟨b, s', rfl, h1, rfl⟩ | ⟨s', rfl, hp, h1, rfl⟩ | ⟨r, v, rfl, hp, hv, rfl⟩
  · obtain ⟨hcr, ht⟩ := step_tr h1
    have notOwn : ∀ i p, f.s.calls i = some p → (∀ pc, p ≠ .out pc ∨ sect pc ≠ none) → f.pos ≠ .waiting i := by
      intro i p hi hne hp
      obtain ⟨pc, rfl, hrp⟩ := hr.recvInv.recv i ctx x p (waits h hc hp) hi
      exact (hne pc).elim (fun h => h rfl) fun h => h hrp.sect
    rcases sim_step h.s hr.inv hr.wf hcr ht with h2 | ⟨a', c', hfo, h2, h3⟩
    · -- only in critical sections are there steps that the coarse broker does not make
      by_cases hown : own f (.sys b)
      · exfalso
        cases ht with
        | call => exact hown
        | cancel => exact hown
        | meet => exact hown
        | lock i p mu' p' hc' hl =>
          refine notOwn i p hc' (fun pc => ?_) hown
          by_cases hpo : p = .out pc
          · subst hpo
            refine .inr fun hsn => ?_
            simp only [lock, hsn, reduceCtorEq] at hl
          · exact .inl hpo
        | stmt i key p b' p' evs hc' hm =>
          refine notOwn i p hc' (fun pc => .inl ?_) hown
          rintro rfl
          exact nomatch hm
        | ret i v hc' =>
          have := congrArg List.length (h.s.log.symm.trans h2.log)
          simp at this
        | spawn i alt pc pc' g b' evs hc' hsn hst hm =>
          have := h.s.next.symm.trans h2.next
          simp at this
        | step i alt pc pc' b' evs hc' hsn hst hm =>
          obtain ⟨pc1, h4, hrp⟩ := hr.recvInv.recv i ctx x _ (waits h hc hown) hc'
          cases h4
          have h5 := h.s.calls.some i _ hc'
          have h6 := h2.calls.some i (.out pc') (Netscrape.Conc.upd_self _ _ _)
          rw [h5] at h6
          simp only [abs, Option.some.injEq] at h6
          subst h6
          cases pc <;> first | exact hrp.elim | skip
          all_goals
            cases alt <;> simp only [Broker.micro, reduceCtorEq] at hm
            all_goals
              repeat' split at hm
              all_goals first | (cases hm; done) | skip
      · exact .inl ⟨⟨h2, h.pos, h.recvs⟩, hown⟩
    · refine .inr ⟨.sys a', { c with s := c' }, by simp only [Digest.dstep, h2], ⟨h3, h.pos, h.recvs⟩, ?_⟩
      cases b <;> cases a' <;> first | exact hfo.elim | exact Iff.rfl | skip
      · obtain rfl : _ = _ := hfo
        simp only [own, Digest.own, h.pos]
      · obtain ⟨rfl, -⟩ : _ ∧ _ := hfo
        simp only [own, Digest.own, h.pos]
      · obtain rfl : _ = _ := hfo
        simp only [own, Digest.own, h.pos]
  · obtain ⟨hcr, ht⟩ := step_tr h1
    rcases sim_step h.s hr.inv hr.wf hcr ht with h2 | ⟨a', c', hfo, h2, h3⟩
    · exfalso
      cases ht with
      | call =>
        have := h.s.next.symm.trans h2.next
        simp at this
    · obtain rfl : a' = .call (.receive ctx x) := by
        cases a' <;> first | exact congrArg _ hfo | exact hfo.elim
      refine .inr ⟨.receive, ⟨c', .waiting c.s.next, c.recvs ++ [c.s.next]⟩, ?_, ?_, Iff.rfl⟩
      · simp only [Digest.dstep, h.pos, hp, h2]
      · exact ⟨h3, by rw [h.s.next], by rw [h.s.next, h.recvs]⟩
  · refine .inr ⟨.resume, { c with pos := if v = .nil then .start else .returned v }, ?_, ⟨h.s, rfl, h.recvs⟩, Iff.rfl⟩
    simp only [Digest.dstep, h.pos, hp, h.s.log, hv]
    cases v <;> rfl

theorem sub_eq {f : St} {c : Broker.St} (h : Sim f c) : c.b.sub = f.b.sub := by rw [h.b]; rfl

/-- Every state is one of `Digest` on the coarse broker. -/
theorem DReach.sim {cap : Int} {ctx x : Nat} {f : DSt} (h : DReach cap ctx x f) :
    ∃ c, Digest.DReach cap ctx x c ∧ DSim f c := by
  induction h with
  | init s hr hx =>
    obtain ⟨c, h1, h2⟩ := sim_any hr
    exact ⟨⟨c, .start, []⟩, .init c h1 (by rw [sub_eq h2]; exact hx), h2, rfl, rfl⟩
  | step d d' a hd hs ih =>
    obtain ⟨c, h1, h2⟩ := ih
    rcases dsim_step h2 hd h1 hs with h3 | ⟨a', c', h3, h4, _⟩
    · exact ⟨c, h1, h3.1⟩
    · exact ⟨c', .step _ _ _ h1 h3, h4⟩

/-- And every sequence of steps is one of the coarse ones, with as many of `Digest` itself. -/
theorem dexec_sim {cap : Int} {ctx x : Nat} {acts : List DAct} : ∀ {f f' : DSt} {c : Digest.DSt}, DSim f c →
    DReach cap ctx x f → Digest.DReach cap ctx x c → dexec ctx x f acts = some f' →
    ∃ acts' c', Digest.dexec ctx x c acts' = some c' ∧ DSim f' c' ∧ Digest.ownSteps ctx x c acts' = ownSteps ctx x f acts := by
  induction acts with
  | nil => intro f f' c h _ _ he; cases he; exact ⟨[], c, rfl, h, rfl⟩
  | cons a as ih =>
    intro f f' c h hf hc he
    unfold dexec at he
    cases hs : dstep ctx x f a with
    | none => rw [hs] at he; cases he
    | some f1 =>
      rw [hs] at he
      rcases dsim_step h hf hc hs with ⟨h1, h2⟩ | ⟨a', c1, h1, h2, h3⟩
      · obtain ⟨as', c', h4, h5, h6⟩ := ih h1 (.step _ _ _ hf hs) hc he
        refine ⟨as', c', h4, h5, ?_⟩
        rw [h6, ownSteps, hs]
        simp [h2]
      · obtain ⟨as', c', h4, h5, h6⟩ := ih h2 (.step _ _ _ hf hs) (.step _ _ _ hc h1) he
        refine ⟨a' :: as', c', by simp only [Digest.dexec, h1, h4], h5, ?_⟩
        rw [Digest.ownSteps, h1, ownSteps, hs]
        dsimp only
        rw [h6]
        by_cases ho : own f a
        · rw [if_pos ho, if_pos (h3.mp ho)]
        · rw [if_neg ho, if_neg fun h => ho (h3.mpr h)]

theorem dreach_exec {cap : Int} {ctx x : Nat} {acts : List DAct} : ∀ {d d' : DSt}, DReach cap ctx x d →
    dexec ctx x d acts = some d' → DReach cap ctx x d' := by
  induction acts with
  | nil => intro d d' hd h; cases h; exact hd
  | cons a as ih =>
    intro d d' hd h
    unfold dexec at h
    cases hs : dstep ctx x d a with
    | none => rw [hs] at h; cases h
    | some d1 => rw [hs] at h; exact ih (.step _ _ _ hd hs) h

/-- A step that `Digest` on the coarse broker can make is one it can make here. -/
theorem own_back {cap : Int} {ctx x : Nat} {f : DSt} {c c' : Digest.DSt} {a' : Digest.DAct} (h : DSim f c)
    (hf : DReach cap ctx x f) (hc : Digest.DReach cap ctx x c) (ho : Digest.own c a')
    (hs : Digest.dstep ctx x c a' = some c') :
    ∃ a f', own f a ∧ ((∃ r, a = .sys (.step r .timeout)) → ∃ r, a' = .sys (.step r .timeout)) ∧
      dstep ctx x f a = some f' := by
  have hr := hf.reach
  rcases Digest.dstep_cases hs with ⟨b, s', rfl, h1, rfl⟩ | ⟨s', rfl, hp, h1, rfl⟩ | ⟨r, v, rfl, hp, hv, rfl⟩
  · cases b with
    | step i alt =>
      have hw : f.pos = .waiting i := by rw [← h.pos]; exact ho
      obtain ⟨f', h2⟩ := recv_back h.s hc.reach.toInv hr.recvInv (waits h hc hw) h1
      exact ⟨.sys (.step i alt), _, hw, fun ⟨r, e⟩ => (by cases e; exact ⟨_, rfl⟩), by simp only [dstep, h2]; rfl⟩
    | ret i =>
      have hw : f.pos = .waiting i := by rw [← h.pos]; exact ho
      obtain ⟨f', h2⟩ := recv_ret_back h.s hc.reach.toInv hr.recvInv (waits h hc hw) h1
      exact ⟨.sys (.ret i), _, hw, nofun, by simp only [dstep, h2]; rfl⟩
    | _ => exact ho.elim
  · obtain ⟨f', h2⟩ := call_back h.s h1
    exact ⟨.receive, _, trivial, nofun, by simp only [dstep, ← h.pos, hp, h2]; rfl⟩
  · refine ⟨.resume, { f with pos := if v = .nil then .start else .returned v }, trivial, nofun, ?_⟩
    simp only [dstep, ← h.pos, hp, ← h.s.log, hv]
    cases v <;> rfl

/-! ## Executions without end -/

/-- The first `n` actions from `k` on. -/
def window (acts : Nat → DAct) (k : Nat) : Nat → List DAct
  | 0 => []
  | n + 1 => acts k :: window acts (k + 1) n

theorem window_exec {ctx x : Nat} {f : Nat → DSt} {acts : Nat → DAct}
    (hf : ∀ n, dstep ctx x (f n) (acts n) = some (f (n + 1))) (n : Nat) : ∀ k,
    dexec ctx x (f k) (window acts k n) = some (f (k + n)) := by
  induction n with
  | zero => exact fun _ => rfl
  | succ n ih =>
    intro k
    simp only [window, dexec, hf k]
    rw [ih (k + 1), show k + 1 + n = k + (n + 1) from by omega]

theorem window_own {ctx x : Nat} {f : Nat → DSt} {acts : Nat → DAct}
    (hf : ∀ n, dstep ctx x (f n) (acts n) = some (f (n + 1))) (n : Nat) : ∀ k,
    ownSteps ctx x (f k) (window acts k n) ≤ ownSteps ctx x (f k) (window acts k (n + 1)) ∧
    (own (f (k + n)) (acts (k + n)) →
      ownSteps ctx x (f k) (window acts k n) + 1 = ownSteps ctx x (f k) (window acts k (n + 1))) := by
  induction n with
  | zero =>
    intro k
    simp only [window, ownSteps, hf k]
    exact ⟨Nat.zero_le _, fun h => by rw [if_pos (by exact h)]⟩
  | succ n ih =>
    intro k
    obtain ⟨h1, h2⟩ := ih (k + 1)
    rw [window, window]
    simp only [ownSteps, hf k]
    refine ⟨by omega, fun h => ?_⟩
    have := h2 (by rw [show k + 1 + n = k + (n + 1) from by omega]; exact h)
    omega

theorem window_mono {ctx x : Nat} {f : Nat → DSt} {acts : Nat → DAct}
    (hf : ∀ n, dstep ctx x (f n) (acts n) = some (f (n + 1))) (k : Nat) {n m : Nat} (h : n ≤ m) :
    ownSteps ctx x (f k) (window acts k n) ≤ ownSteps ctx x (f k) (window acts k m) := by
  induction h with
  | refl => exact Nat.le_refl _
  | step _ ih => exact Nat.le_trans ih (window_own hf _ k).1

/-- `Digest` returns or makes as many steps as one likes. -/
theorem fair_own {ctx x : Nat} {f : Nat → DSt} {acts : Nat → DAct} (hf : Fair ctx x f acts) (k N : Nat) :
    (∃ n v, k ≤ n ∧ (f n).pos = .returned v) ∨ ∃ n, N ≤ ownSteps ctx x (f k) (window acts k n) := by
  induction N with
  | zero => exact .inr ⟨0, Nat.zero_le _⟩
  | succ N ih =>
    rcases ih with h | ⟨n, hn⟩
    · exact .inl h
    · rcases hf.fair (k + n) with ⟨v, hv⟩ | ⟨m, hm, ho⟩
      · exact .inl ⟨k + n, v, by omega, hv⟩
      · have h1 := window_mono hf.step k (show n ≤ m - k from by omega)
        have h2 := (window_own hf.step (m - k) k).2 (by rw [show k + (m - k) = m from by omega]; exact ho)
        exact .inr ⟨m - k + 1, by omega⟩

end Netscrape.DigestLock
