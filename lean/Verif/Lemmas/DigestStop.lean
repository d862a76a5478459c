import Verif.Lemmas.Digest
import Verif.Lemmas.BrokerFinish
import Verif.Spec.Digest

/-!
# When `Digest` stops
-/

namespace Netscrape.Broker
open Netscrape.Conc (upd upd_self upd_ne)
open Netscrape.Spec Netscrape.Spec.Broker

/-- The cases of a step, with the action. -/
theorem tr_cases {s s' : St} {a : Act} (hi : Inv s) (ht : Tr s a s') {C : Prop}
    (call : ∀ op, a = .call op → s.b.has op = true →
      s' = { s with calls := upd s.calls s.next (some (.start op)), ops := upd s.ops s.next (some op),
                    next := s.next + 1, log := s.log ++ [.call s.next] } → C)
    (cancel : ∀ ctx, a = .cancel ctx → s' = { s with b := { s.b with done := upd s.b.done ctx true } } → C)
    (mic : ∀ i alt pc pc' evs g, a = .step i alt → MicStep s s' i alt pc pc' evs g → C)
    (meet : ∀ p r ctx q ex m x o pr pr' evs, a = .meet p r → MeetStep s s' p r ctx q ex m x o pr pr' evs → C)
    (ret : ∀ i r, a = .ret i → s.calls i = some (.done r) →
      s' = { s with calls := upd s.calls i none, log := s.log ++ [.ret i r] } → C) : C := by
  cases ht with
  | call op h => exact call op rfl h rfl
  | cancel ctx => exact cancel ctx rfl rfl
  | step i a pc pc' b' evs hc hm =>
    refine mic i a pc pc' evs none rfl ⟨hc, micro_mic hm, rfl, rfl, upd_self _ _ _, ?_, ?_, Nat.le_refl _⟩
    · intro j pcj hj hh; dsimp only at hh; rw [upd_ne _ _ hj] at hh; exact .inl hh
    · intro j hj _; dsimp only; rw [upd_ne _ _ hj]
  | spawn i a pc pc' g b' evs hc hm =>
    refine mic i a pc pc' evs (some g) rfl ⟨hc, micro_mic hm, rfl, rfl, ?_, ?_, ?_, Nat.le_succ _⟩
    · dsimp only; rw [upd_ne _ _ (hi.next hc)]; exact upd_self _ _ _
    · intro j pcj hj hh
      dsimp only at hh
      by_cases hn : j = s.next
      · subst hn; rw [upd_self] at hh; cases hh; exact .inr ⟨rfl, rfl⟩
      · rw [upd_ne _ _ hn, upd_ne _ _ hj] at hh; exact .inl hh
    · intro j hj hn; dsimp only; rw [upd_ne _ _ hn, upd_ne _ _ hj]
  | meet p r pc pr pc' pr' evs hp hr hm =>
    obtain ⟨ctx, q, ex, m, x, o, rfl, ho, hq, hz, rfl, hh⟩ := meet_cases hm
    have hne : p ≠ r := by
      rintro rfl
      rw [hp] at hr
      rcases hh with ⟨c, rfl, _, _⟩ | ⟨rfl, _, _⟩ <;> cases hr
    refine meet p r ctx q ex m x o pr pr' evs rfl
      ⟨hne, hp, hr, ho, hq, rfl, rfl, rfl, ?_, upd_self _ _ _, ?_, rfl, hh⟩
    · dsimp only; rw [upd_ne _ _ hne]; exact upd_self _ _ _
    · intro j h1 h2; dsimp only; rw [upd_ne _ _ h2, upd_ne _ _ h1]
  | ret i r hc => exact ret i r rfl hc rfl

end Netscrape.Broker

namespace Netscrape.Digest
open Netscrape.Conc (upd upd_self upd_ne)
open Netscrape.Broker Netscrape.Spec Netscrape.Spec.Broker

/-! ## After the subscription has ended -/

/-- How many steps of its own a call of `Receive` is away from its end, and `Digest` from its own. -/
def rk : Option PC → Option Ret → Nat
  | some (.recvChk _ _), _ => 3
  | some (.recvSel _ _), _ => 8
  | some (.recvDrop _), _ => 7
  | some (.handling _), _ => 7
  | some (.done .nil), _ => 6
  | some (.done _), _ => 2
  | some _, _ => 0
  | none, some .nil => 5
  | none, _ => 1

def rank (d : DSt) : Nat :=
  match d.pos with
  | .start => 4
  | .waiting r => rk (d.s.calls r) (retOf r d.s.log)
  | .returned _ => 0

theorem rk_done_lt (v : Ret) : rk none (some v) < rk (some (.done v)) none := by
  cases v <;> (simp only [rk]; omega)

theorem rk_some (pc : PC) (u v : Option Ret) : rk (some pc) u = rk (some pc) v := by
  cases pc with
  | done w => cases w <;> rfl
  | _ => rfl

theorem rk_same {cap : Int} {s s' : St} {r : Nat} (hr : Reach cap Any s) (hr' : Reach cap Any s')
    (ho : (s.ops r).isSome = true) (hc : s'.calls r = s.calls r) (hl : ∀ e ∈ s.log, e ∈ s'.log) :
    rk (s'.calls r) (retOf r s'.log) = rk (s.calls r) (retOf r s.log) := by
  rw [hc]
  cases hp : s.calls r with
  | some pc => exact rk_some _ _ _
  | none =>
    obtain ⟨op, ho⟩ := Option.isSome_iff_exists.mp ho
    rcases hr.pending r op ho with h | ⟨v, h⟩
    · rw [hp] at h; cases h
    · rw [retOf_eq hr h, retOf_eq hr' (hl _ h)]

theorem rank_sys {cap : Int} {ctx x r : Nat} {s s' : St} {a : Act} (hr : Reach cap Any s)
    (ho : s.ops r = some (.receive ctx x)) (hoff : ∀ o, s.b.sub x = some o → o.active = false)
    (hs : step s a = some s') :
    rk (s'.calls r) (retOf r s'.log) ≤ rk (s.calls r) (retOf r s.log) ∧
    ((∃ alt, a = .step r alt) ∨ a = .ret r →
      rk (s'.calls r) (retOf r s'.log) < rk (s.calls r) (retOf r s.log)) := by
  have hi := hr.toInv
  have hr' : Reach cap Any s' := .step _ _ _ hr trivial hs
  obtain ⟨_, ht⟩ := step_tr hs
  have hne : r ≠ s.next := by rintro rfl; rw [hi.ops _ (Nat.le_refl _)] at ho; cases ho
  have same : s'.calls r = s.calls r → (∀ e ∈ s.log, e ∈ s'.log) →
      rk (s'.calls r) (retOf r s'.log) ≤ rk (s.calls r) (retOf r s.log) :=
    fun h1 h2 => Nat.le_of_eq (rk_same hr hr' (by rw [ho]; rfl) h1 h2)
  refine tr_cases hi ht ?_ ?_ ?_ ?_ ?_
  · rintro op rfl _ rfl
    exact ⟨same (upd_ne _ _ hne) (fun e he => List.mem_append_left _ he),
      by rintro (⟨_, h⟩ | h) <;> cases h⟩
  · rintro c rfl rfl
    exact ⟨Nat.le_refl _, by rintro (⟨_, h⟩ | h) <;> cases h⟩
  · rintro i alt pc pc' evs g rfl ms
    by_cases hji : r = i
    · subst hji
      have hf := hi.fits _ _ ms.here
      have hmic := ms.mic
      have key : rk (s'.calls r) (retOf r s'.log) < rk (s.calls r) (retOf r s.log) := by
        rw [ms.there, ms.here]
        generalize s'.b = b' at hmic
        cases hmic with
        | recvYes c y o h1 h2 =>
          have := hf.1; rw [ho] at this; cases this
          rw [hoff o h1] at h2; cases h2
        | recvNo | recvCtx | recvTimeout | recvExit | recvUnsub | recvMsg | dropNone | dropOne | handledNil
        | handledErr => simp only [rk]; omega
        | _ => simp [Fits, ho] at hf
      exact ⟨Nat.le_of_lt key, fun _ => key⟩
    · refine ⟨same (ms.keep r hji hne) (by rw [ms.log]; exact fun e he => List.mem_append_left _ he), ?_⟩
      rintro (⟨_, h⟩ | h)
      · cases h; exact (hji rfl).elim
      · cases h
  · rintro p r' ctx' q ex m x' o pr pr' evs rfl ms
    refine ⟨?_, by rintro (⟨_, h⟩ | h) <;> cases h⟩
    by_cases hp : r = p
    · subst hp
      obtain ⟨t, h1, _⟩ := hi.fits _ _ ms.pub
      rw [ho] at h1; cases h1
    · by_cases hrr : r = r'
      · subst hrr
        rw [ms.recv, ms.recv']
        rcases ms.kind with ⟨c, rfl, rfl, _⟩ | ⟨rfl, rfl, _⟩ <;> simp only [rk] <;> omega
      · exact same (ms.keep r hp hrr) (by rw [ms.log]; exact fun e he => List.mem_append_left _ he)
  · rintro i v rfl hc rfl
    by_cases hir : r = i
    · subst hir
      have h1 : retOf r (s.log ++ [.ret r v]) = some v :=
        retOf_eq hr' (List.mem_append_right _ (List.mem_singleton.mpr rfl))
      have h2 : rk (upd s.calls r none r) (retOf r (s.log ++ [.ret r v])) < rk (s.calls r) (retOf r s.log) := by
        rw [upd_self, h1, hc, rk_some _ _ none]; exact rk_done_lt v
      exact ⟨Nat.le_of_lt h2, fun _ => h2⟩
    · refine ⟨same (upd_ne _ _ hir) (fun e he => List.mem_append_left _ he), ?_⟩
      rintro (⟨_, h⟩ | h)
      · cases h
      · cases h; exact (hir rfl).elim

/-- What has been called and logged stays. -/
theorem step_grow {s s' : St} {a : Act} (hi : Inv s) (hs : Broker.step s a = some s') :
    (∀ i op, s.ops i = some op → s'.ops i = some op) ∧ ∀ e ∈ s.log, e ∈ s'.log := by
  obtain ⟨_, ht⟩ := step_tr hs
  refine tr_elim hi ht ?_ ?_ ?_ ?_ ?_
  · rintro op' _ _ rfl
    exact ⟨fun i op ho => ops_upd (hi.ops _ (Nat.le_refl _)) ho, fun e he => List.mem_append_left _ he⟩
  · rintro ctx rfl; exact ⟨fun _ _ h => h, fun _ h => h⟩
  · intro _ _ _ _ _ _ _ ms; rw [ms.ops, ms.log]
    exact ⟨fun _ _ h => h, fun e he => List.mem_append_left _ he⟩
  · intro _ _ _ _ _ _ _ _ _ _ _ ms; rw [ms.ops, ms.log]
    exact ⟨fun _ _ h => h, fun e he => List.mem_append_left _ he⟩
  · rintro _ _ _ rfl
    exact ⟨fun _ _ h => h, fun e he => List.mem_append_left _ he⟩

theorem dstep_grow {cap : Int} {ctx x : Nat} {d d' : DSt} {a : DAct} (hd : DReach cap ctx x d)
    (hs : dstep ctx x d a = some d') :
    (∀ i op, d.s.ops i = some op → d'.s.ops i = some op) ∧ ∀ e ∈ d.s.log, e ∈ d'.s.log := by
  rcases dstep_cases hs with ⟨b, s', _, h1, rfl⟩ | ⟨s', _, _, h1, rfl⟩ | ⟨r, v, _, _, _, rfl⟩
  · exact step_grow hd.reach.toInv h1
  · exact step_grow hd.reach.toInv h1
  · exact ⟨fun _ _ h => h, fun _ h => h⟩

theorem rank_step {cap : Int} {ctx x : Nat} {d d' : DSt} {a : DAct} (hd : DReach cap ctx x d)
    (he : Ended x d.s) (hs : dstep ctx x d a = some d') :
    rank d' ≤ rank d ∧ (own d a → rank d' < rank d) := by
  have hr := hd.reach
  have hin := hd.inv
  obtain ⟨u, v, hu, hv⟩ := he
  have hoff := hr.toSub.off u x hu (.inr ⟨v, hv⟩)
  rcases dstep_cases hs with ⟨b, s', rfl, h1, rfl⟩ | ⟨s', rfl, hp, h1, rfl⟩ | ⟨r, w, rfl, hp, hw, rfl⟩
  · cases hp : d.pos with
    | start =>
      refine ⟨by simp only [rank, hp]; exact Nat.le_refl _, ?_⟩
      cases b <;> simp [own, hp]
    | returned w =>
      refine ⟨by simp only [rank, hp]; exact Nat.le_refl _, ?_⟩
      cases b <;> simp [own, hp]
    | waiting r =>
      have h2 := hin.pos
      rw [hp] at h2
      obtain ⟨cs, h2, _⟩ := h2
      have ho := hin.ops r (by rw [h2]; simp)
      obtain ⟨h3, h4⟩ := rank_sys hr ho hoff h1
      refine ⟨by simp only [rank, hp]; exact h3, ?_⟩
      intro hown
      have : (∃ alt, b = .step r alt) ∨ b = .ret r := by
        cases b <;> simp only [own, hp, Pos.waiting.injEq] at hown
        · subst hown; exact .inl ⟨_, rfl⟩
        · subst hown; exact .inr rfl
      simp only [rank, hp]
      exact h4 this
  · obtain ⟨_, ht⟩ := step_tr h1
    cases ht with
    | call op hop =>
    have : rank ⟨{ d.s with calls := upd d.s.calls d.s.next (some (.start (.receive ctx x))), ops := upd d.s.ops d.s.next (some (.receive ctx x)), next := d.s.next + 1, log := d.s.log ++ [.call d.s.next] }, .waiting d.s.next, d.recvs ++ [d.s.next]⟩ < rank d := by
      simp only [rank, hp, upd_self, PC.start, rk]
      omega
    exact ⟨Nat.le_of_lt this, fun _ => this⟩
  · -- the call has ended
    have hc : d.s.calls r = none := (hr.toLog.1.rets r w (retOf_mem hw)).1
    have : rank { d with pos := if w = .nil then .start else .returned w } < rank d := by
      by_cases hwn : w = .nil
      · subst hwn; simp only [rank, hp, hw, hc, if_true, rk]; omega
      · simp only [rank, hp, hw, hc, if_neg hwn]
        cases w <;> simp only [rk] <;> omega
    exact ⟨Nat.le_of_lt this, fun _ => this⟩

theorem rank_le (d : DSt) : rank d ≤ 8 := by
  unfold rank
  cases d.pos with
  | start => dsimp only; omega
  | returned v => dsimp only; omega
  | waiting r =>
    dsimp only
    unfold rk
    split <;> omega

theorem own_le {cap : Int} {ctx x : Nat} {acts : List DAct} : ∀ {d d' : DSt}, DReach cap ctx x d →
    Ended x d.s → dexec ctx x d acts = some d' → ownSteps ctx x d acts + rank d' ≤ rank d := by
  induction acts with
  | nil => intro d d' _ _ h; cases h; simp [ownSteps]
  | cons a as ih =>
    intro d d' hd he h
    unfold dexec at h
    unfold ownSteps
    cases hs : dstep ctx x d a with
    | none => rw [hs] at h; cases h
    | some d1 =>
      rw [hs] at h
      dsimp only at h ⊢
      have hg := dstep_grow hd hs
      obtain ⟨u, v, hu, hv⟩ := he
      have h1 := ih (.step _ _ _ hd hs) ⟨u, v, hg.1 u _ hu, hg.2 _ hv⟩ h
      obtain ⟨h2, h3⟩ := rank_step hd ⟨u, v, hu, hv⟩ hs
      split
      · have := h3 ‹_›; omega
      · omega

theorem ended_step {cap : Int} {ctx x : Nat} {d d' : DSt} {a : DAct} (hd : DReach cap ctx x d) (he : Ended x d.s)
    (hs : dstep ctx x d a = some d') : Ended x d'.s := by
  have hg := dstep_grow hd hs
  obtain ⟨u, v, hu, hv⟩ := he
  exact ⟨u, v, hg.1 u _ hu, hg.2 _ hv⟩

theorem ended_exec {cap : Int} {ctx x : Nat} {acts : List DAct} : ∀ {d d' : DSt}, DReach cap ctx x d →
    Ended x d.s → dexec ctx x d acts = some d' → Ended x d'.s := by
  induction acts with
  | nil => intro d d' _ he h; cases h; exact he
  | cons a as ih =>
    intro d d' hd he h
    unfold dexec at h
    cases hs : dstep ctx x d a with
    | none => rw [hs] at h; cases h
    | some d1 => rw [hs] at h; exact ih (.step _ _ _ hd hs) (ended_step hd he hs) h

theorem fair_stops {cap : Int} {ctx x : Nat} (k : Nat) : ∀ {f : Nat → DSt}
    {acts : Nat → DAct}, DReach cap ctx x (f 0) → Ended x (f 0).s → Fair ctx x f acts → rank (f 0) ≤ k →
    ∃ n v, (f n).pos = .returned v := by
  induction k with
  | zero =>
    intro f acts hd he hf hk
    rcases hf.fair 0 with ⟨v, hv⟩ | ⟨m, _, ho⟩
    · exact ⟨0, v, hv⟩
    · have all : ∀ n, DReach cap ctx x (f n) ∧ Ended x (f n).s ∧ rank (f n) ≤ 0 := by
        intro n
        induction n with
        | zero => exact ⟨hd, he, hk⟩
        | succ n ih =>
          have := (rank_step ih.1 ih.2.1 (hf.step n)).1
          exact ⟨.step _ _ _ ih.1 (hf.step n), ended_step ih.1 ih.2.1 (hf.step n), by omega⟩
      have := (rank_step (all m).1 (all m).2.1 (hf.step m)).2 ho
      have := (all m).2.2
      omega
  | succ k ih =>
    intro f acts hd he hf hk
    rcases hf.fair 0 with ⟨v, hv⟩ | ⟨m, _, ho⟩
    · exact ⟨0, v, hv⟩
    · have all : ∀ n, DReach cap ctx x (f n) ∧ Ended x (f n).s ∧ rank (f n) ≤ k + 1 := by
        intro n
        induction n with
        | zero => exact ⟨hd, he, hk⟩
        | succ n ih =>
          have := (rank_step ih.1 ih.2.1 (hf.step n)).1
          exact ⟨.step _ _ _ ih.1 (hf.step n), ended_step ih.1 ih.2.1 (hf.step n), by omega⟩
      have h1 := (rank_step (all m).1 (all m).2.1 (hf.step m)).2 ho
      have h2 := (all m).2.2
      obtain ⟨n, v, h3⟩ := ih (f := fun n => f (m + 1 + n)) (acts := fun n => acts (m + 1 + n))
        (all (m + 1)).1 (all (m + 1)).2.1
        ⟨fun n => hf.step (m + 1 + n), fun n => by
          rcases hf.fair (m + 1 + n) with h4 | ⟨j, h4, h5⟩
          · exact .inl h4
          · refine .inr ⟨j - (m + 1), by omega, ?_⟩
            rw [show m + 1 + (j - (m + 1)) = j from by omega]; exact h5⟩
        (by show rank (f (m + 1)) ≤ k; omega)
      exact ⟨_, v, h3⟩

/-- Unless it has returned `Digest` can go on after its subscription was ended. -/
theorem can_go {cap : Int} {ctx x : Nat} {d : DSt} (hd : DReach cap ctx x d) (hn : d.s.b.crashed = false)
    (he : Ended x d.s) (hp : ∀ v, d.pos ≠ .returned v) : ∃ a d', own d a ∧ dstep ctx x d a = some d' := by
  have hr := hd.reach
  have hin := hd.inv
  obtain ⟨u, v, hu, hv⟩ := he
  obtain ⟨o, hx⟩ := Option.isSome_iff_exists.mp hin.sub
  have hoff := hr.toSub.off u x hu (.inr ⟨v, hv⟩) o hx
  have hcl := hr.offClosed.1 x o hx hoff
  have go : ∀ {r b s'}, d.pos = .waiting r → (own d (.sys b)) → step d.s b = some s' →
      ∃ a d', own d a ∧ dstep ctx x d a = some d' := by
    intro r b s' _ h1 h2
    exact ⟨.sys b, { d with s := s' }, h1, by simp only [dstep, h2]⟩
  cases hpos : d.pos with
  | returned v => exact (hp v hpos).elim
  | start =>
    exact ⟨.receive, ⟨{ d.s with calls := upd d.s.calls d.s.next (some (.recvChk ctx x)),
                                 ops := upd d.s.ops d.s.next (some (.receive ctx x)), next := d.s.next + 1,
                                 log := d.s.log ++ [.call d.s.next] }, .waiting d.s.next, d.recvs ++ [d.s.next]⟩,
      trivial, by simp only [dstep, hpos, step, hn, Mem.has, hx]; rfl⟩
  | waiting r =>
    have h2 := hin.pos
    rw [hpos] at h2
    obtain ⟨cs, h2, _⟩ := h2
    have ho := hin.ops r (by rw [h2]; simp)
    cases hc : d.s.calls r with
    | none =>
      rcases hr.pending r _ ho with h3 | ⟨w, h3⟩
      · rw [hc] at h3; cases h3
      · have h4 := retOf_eq hr h3
        refine ⟨.resume, { d with pos := if w = .nil then .start else .returned w }, trivial, ?_⟩
        simp only [dstep, hpos, h4]
        cases w <;> rfl
    | some pc =>
      have hf := hr.toInv.fits r pc hc
      cases pc with
      | done w =>
        exact go (s' := { d.s with calls := upd d.s.calls r none, log := d.s.log ++ [.ret r w] }) hpos
          (b := .ret r) hpos (by simp only [step, hn, hc]; rfl)
      | recvChk c y =>
        have := hf.1; rw [ho] at this; cases this
        obtain ⟨s', h1, _⟩ := advance (alt := .go) hn hc (by simp only [micro, hx]; rfl)
        exact go hpos (b := .step r .go) hpos h1
      | recvSel c y =>
        have := hf.1; rw [ho] at this; cases this
        obtain ⟨s', h1, _⟩ := advance (alt := .unsub) hn hc (by simp only [micro, hcl]; rfl)
        exact go hpos (b := .step r .unsub) hpos h1
      | recvDrop y =>
        obtain ⟨⟨_, hf⟩, _⟩ := hf
        rw [ho] at hf; cases hf
        cases hb : d.s.b.buf o.queue.msg with
        | nil =>
          obtain ⟨s', h1, _⟩ := advance (alt := .go) hn hc (by simp only [micro, hx, hb]; rfl)
          exact go hpos (b := .step r .go) hpos h1
        | cons pm l =>
          obtain ⟨s', h1, _⟩ := advance (alt := .go) hn hc (by simp only [micro, hx, hb]; rfl)
          exact go hpos (b := .step r .go) hpos h1
      | handling m =>
        obtain ⟨s', h1, _⟩ := advance (alt := .result none) hn hc rfl
        exact go hpos (b := .step r (.result none)) hpos h1
      | _ => simp [Fits, ho] at hf

/-! ## A loop that never ends -/

/-- One of the cases of the `select` in `Receive` that returns nil is ready, and nothing else happens. -/
structure Idle (b : Mem) (ctx x : Nat) (alt : Alt) : Prop where
  up : b.crashed = false
  active : ∃ o, b.sub x = some o ∧ o.active = true
  ready : ∀ i, micro b i (.recvSel ctx x) alt = some (b, .done .nil, [], none)

/-- What the loop does next. -/
def next (alt : Alt) (d : DSt) : DAct :=
  match d.pos with
  | .start => .receive
  | .returned _ => .resume
  | .waiting r =>
    match d.s.calls r with
    | some (.recvChk _ _) => .sys (.step r .go)
    | some (.done _) => .sys (.ret r)
    | some _ => .sys (.step r alt)
    | none => .resume

/-- The loop is where it can go on. -/
structure Spin (cap : Int) (ctx x : Nat) (alt : Alt) (d : DSt) : Prop where
  reach : DReach cap ctx x d
  idle : Idle d.s.b ctx x alt
  pos : d.pos = .start ∨ ∃ r, d.pos = .waiting r ∧ (d.s.calls r = some (.recvChk ctx x) ∨
    d.s.calls r = some (.recvSel ctx x) ∨ d.s.calls r = some (.done .nil) ∨
    (d.s.calls r = none ∧ retOf r d.s.log = some .nil))

theorem Spin.step {cap : Int} {ctx x : Nat} {alt : Alt} {d : DSt} (h : Spin cap ctx x alt d) :
    ∃ d', dstep ctx x d (next alt d) = some d' ∧ own d (next alt d) ∧ Spin cap ctx x alt d' := by
  obtain ⟨hr, hid, hpos⟩ := h
  obtain ⟨hn, ⟨o, hx, ha⟩, hready⟩ := hid
  have stepped : ∀ {r : Nat} {pc' : PC} {alt' : Alt} {pc : PC}, d.pos = .waiting r → d.s.calls r = some pc →
      next alt d = .sys (.step r alt') → micro d.s.b r pc alt' = some (d.s.b, pc', [], none) →
      (pc' = .recvSel ctx x ∨ pc' = .done .nil) →
      ∃ d', dstep ctx x d (next alt d) = some d' ∧ own d (next alt d) ∧ Spin cap ctx x alt d' := by
    intro r pc' alt' pc hp hc hnx hm hpc
    have hs : dstep ctx x d (.sys (.step r alt')) =
        some { d with s := { d.s with calls := upd d.s.calls r (some pc'), log := d.s.log ++ [] } } := by
      simp only [dstep, Broker.step, hn, hc, hm]; rfl
    rw [hnx]
    refine ⟨_, hs, hp, .step _ _ _ hr hs, ⟨hn, ⟨o, hx, ha⟩, hready⟩, .inr ⟨r, hp, ?_⟩⟩
    dsimp only
    rw [upd_self]
    rcases hpc with rfl | rfl
    · exact .inr (.inl rfl)
    · exact .inr (.inr (.inl rfl))
  rcases hpos with hp | ⟨r, hp, hc | hc | hc | ⟨hc, hv⟩⟩
  · have hnx : next alt d = .receive := by simp only [next, hp]
    have hs : dstep ctx x d .receive =
        some ⟨{ d.s with calls := upd d.s.calls d.s.next (some (.recvChk ctx x)),
                          ops := upd d.s.ops d.s.next (some (.receive ctx x)), next := d.s.next + 1,
                          log := d.s.log ++ [.call d.s.next] }, .waiting d.s.next, d.recvs ++ [d.s.next]⟩ := by
      simp only [dstep, hp, Broker.step, hn, Mem.has, hx]; rfl
    rw [hnx]
    refine ⟨_, hs, trivial, .step _ _ _ hr hs, ⟨hn, ⟨o, hx, ha⟩, hready⟩, .inr ⟨_, rfl, .inl ?_⟩⟩
    exact upd_self _ _ _
  · exact stepped (alt' := .go) hp hc (by simp only [next, hp, hc]) (by simp only [micro, hx, ha]; rfl) (.inl rfl)
  · exact stepped hp hc (by simp only [next, hp, hc]) (hready r) (.inr rfl)
  · have hnx : next alt d = .sys (.ret r) := by simp only [next, hp, hc]
    have hs : dstep ctx x d (.sys (.ret r)) =
        some { d with s := { d.s with calls := upd d.s.calls r none, log := d.s.log ++ [.ret r .nil] } } := by
      simp only [dstep, Broker.step, hn, hc]; rfl
    have hr' : DReach cap ctx x _ := .step _ _ _ hr hs
    rw [hnx]
    refine ⟨_, hs, hp, hr', ⟨hn, ⟨o, hx, ha⟩, hready⟩, .inr ⟨r, hp, .inr (.inr (.inr ⟨?_, ?_⟩))⟩⟩
    · exact upd_self _ _ _
    · exact retOf_eq hr'.reach (List.mem_append_right _ (List.mem_singleton.mpr rfl))
  · have hnx : next alt d = .resume := by simp only [next, hp, hc]
    have hs : dstep ctx x d .resume = some { d with pos := .start } := by
      simp only [dstep, hp, hv]
    rw [hnx]
    exact ⟨_, hs, trivial, .step _ _ _ hr hs, ⟨hn, ⟨o, hx, ha⟩, hready⟩, .inl rfl⟩

/-- The run of the loop. -/
def loop (ctx x : Nat) (alt : Alt) (d : DSt) : Nat → DSt
  | 0 => d
  | n + 1 => (dstep ctx x (loop ctx x alt d n) (next alt (loop ctx x alt d n))).getD (loop ctx x alt d n)

theorem Spin.loop {cap : Int} {ctx x : Nat} {alt : Alt} {d : DSt} (h : Spin cap ctx x alt d) :
    ∀ n, Spin cap ctx x alt (Digest.loop ctx x alt d n)
  | 0 => h
  | n + 1 => by
    obtain ⟨d', h1, _, h2⟩ := (h.loop n).step
    show Spin cap ctx x alt ((dstep ctx x _ _).getD _)
    rw [h1]; exact h2

theorem Spin.run {cap : Int} {ctx x : Nat} {alt : Alt} {d : DSt} (h : Spin cap ctx x alt d) :
    ∃ (f : Nat → DSt) (acts : Nat → DAct), f 0 = d ∧
      ∀ n, dstep ctx x (f n) (acts n) = some (f (n + 1)) ∧ own (f n) (acts n) ∧ ∀ v, (f n).pos ≠ .returned v := by
  refine ⟨Digest.loop ctx x alt d, fun n => Digest.next alt (Digest.loop ctx x alt d n), rfl, fun n => ?_⟩
  have hn := h.loop n
  obtain ⟨d', h1, h2, _⟩ := hn.step
  refine ⟨?_, h2, ?_⟩
  · show _ = some ((dstep ctx x _ _).getD _)
    rw [h1]; rfl
  · intro v hv
    rcases hn.pos with hp | ⟨r, hp, _⟩ <;> rw [hp] at hv <;> cases hv

end Netscrape.Digest
