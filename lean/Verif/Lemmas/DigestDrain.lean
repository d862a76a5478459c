import Verif.Lemmas.NetworkDigest

/-!
# How far a waiting message is from being handled
-/

namespace Netscrape.Digest
open Netscrape.Conc (upd upd_self upd_ne)
open Netscrape.Broker Netscrape.Network Netscrape.Spec Netscrape.Spec.Broker

/-- How many messages have to be taken before that of `p`. -/
def ahead (ch p : Nat) (l : List Ev) : Nat := (sentOn ch l).idxOf p - (tookFrom ch l).length

/-- How many steps of its own `Digest`, with its `Receive` at the given position, is away from taking the message
with `i` others ahead of it, or from its own end. -/
def dk (i : Nat) : Option PC → Option Ret → Nat
  | some (.recvChk _ _), _ => 6 * i + 5
  | some (.recvSel _ _), _ => 6 * i + 4
  | some (.recvDrop _), _ => 3
  | some (.handling _), _ => 6 * i + 9
  | some (.done .nil), _ => 6 * i + 8
  | some (.done _), _ => 2
  | some _, _ => 0
  | none, some .nil => 6 * i + 7
  | none, _ => 1

def dist (ch p : Nat) (d : DSt) : Nat :=
  match d.pos with
  | .start => 6 * ahead ch p d.s.log + 6
  | .waiting r => dk (ahead ch p d.s.log) (d.s.calls r) (retOf r d.s.log)
  | .returned _ => 0

theorem dk_mono {i j : Nat} (h : i ≤ j) (pc : Option PC) (v : Option Ret) : dk i pc v ≤ dk j pc v := by
  unfold dk
  split <;> omega

theorem dk_some (i : Nat) (pc : PC) (u v : Option Ret) : dk i (some pc) u = dk i (some pc) v := by
  cases pc with
  | done w => cases w <;> rfl
  | _ => rfl

theorem dk_done_lt (i : Nat) (v : Ret) : dk i none (some v) < dk i (some (.done v)) none := by
  cases v <;> (simp only [dk]; omega)

theorem dk_same {cap : Int} {s s' : St} {r i : Nat} (hr : Reach cap Any s) (hr' : Reach cap Any s')
    (ho : (s.ops r).isSome = true) (hc : s'.calls r = s.calls r) (hl : ∀ e ∈ s.log, e ∈ s'.log) :
    dk i (s'.calls r) (retOf r s'.log) = dk i (s.calls r) (retOf r s.log) := by
  rw [hc]
  cases hp : s.calls r with
  | some pc => exact dk_some _ _ _ _
  | none =>
    obtain ⟨op, ho⟩ := Option.isSome_iff_exists.mp ho
    rcases hr.pending r op ho with h | ⟨v, h⟩
    · rw [hp] at h; cases h
    · rw [retOf_eq hr h, retOf_eq hr' (hl _ h)]

theorem ahead_append {ch p : Nat} {l : List Ev} (l' : List Ev) (hp : p ∈ sentOn ch l) :
    ahead ch p (l ++ l') ≤ ahead ch p l := by
  unfold ahead
  rw [sentOn_append, tookFrom_append, List.idxOf_append, if_pos hp, List.length_append]
  omega

/-- Taking the next message, if it is not that of `p`. -/
theorem ahead_take {cap : Int} {s s' : St} {evs : List Ev} {ch p p' : Nat} (hr : Reach cap Any s)
    (hr' : Reach cap Any s') (hl : s'.log = s.log ++ evs) (ht : tookFrom ch evs = [p'])
    (hp : p ∈ sentOn ch s.log) (hn : p ∉ tookFrom ch s.log) :
    p = p' ∨ ahead ch p s'.log + 1 ≤ ahead ch p s.log := by
  have h1 := hr.toLog.1.chan ch
  have h2 := hr'.toLog.1.chan ch
  rw [hl, sentOn_append, tookFrom_append, ht] at h2
  have h3 : (tookFrom ch s.log).length ≤ (sentOn ch s.log).idxOf p := by
    rw [h1, List.idxOf_append]
    rw [if_neg hn]; omega
  have hlt := List.idxOf_lt_length_of_mem hp
  by_cases he : (sentOn ch s.log).idxOf p = (tookFrom ch s.log).length
  · left
    have h4 : (sentOn ch s.log ++ sentOn ch evs)[(sentOn ch s.log).idxOf p]? = some p := by
      rw [List.getElem?_append_left hlt, List.getElem?_eq_getElem hlt, List.getElem_idxOf]
    rw [h2, he, List.append_assoc, List.getElem?_append_right (Nat.le_refl _)] at h4
    simp at h4
    exact h4.symm
  · right
    unfold ahead
    rw [hl, sentOn_append, tookFrom_append, List.idxOf_append, if_pos hp, List.length_append, ht]
    simp only [List.length_singleton]
    omega

theorem takers_mem {p r ch : Nat} {l : List Ev} (h : Ev.took r ch p ∈ l) : r ∈ takers p l :=
  List.mem_filterMap.mpr ⟨_, h, by simp⟩

theorem handledBy_mem {r : Nat} {m : Msg} {l : List Ev} (h : Ev.handle r m ∈ l) : handledBy r l ≠ [] := by
  have : m ∈ handledBy r l := List.mem_filterMap.mpr ⟨_, h, by simp⟩
  intro e; rw [e] at this; cases this

theorem dk_sys {cap : Int} {ctx x r p : Nat} {s s' : St} {a : Act} {o : Sub} (hr : Reach cap Any s)
    (ho : s.ops r = some (.receive ctx x)) (hx : s.b.sub x = some o) (hq : ¬ RecvReason s ctx x)
    (hp : p ∈ sentOn o.queue.msg s.log)
    (hfree : s.calls r = some (.recvSel ctx x) → p ∉ tookFrom o.queue.msg s.log)
    (hs : step s a = some s') (hng : r ∈ takers p s'.log → handledBy r s'.log = []) :
    dk (ahead o.queue.msg p s'.log) (s'.calls r) (retOf r s'.log) ≤
      dk (ahead o.queue.msg p s.log) (s.calls r) (retOf r s.log) ∧
    ((∃ alt, a = .step r alt) ∨ a = .ret r →
      dk (ahead o.queue.msg p s'.log) (s'.calls r) (retOf r s'.log) <
        dk (ahead o.queue.msg p s.log) (s.calls r) (retOf r s.log)) := by
  have hi := hr.toInv
  have hr' : Reach cap Any s' := .step _ _ _ hr trivial hs
  obtain ⟨_, ht⟩ := step_tr hs
  have hne : r ≠ s.next := by rintro rfl; rw [hi.ops _ (Nat.le_refl _)] at ho; cases ho
  have same : ∀ evs, s'.calls r = s.calls r → s'.log = s.log ++ evs →
      dk (ahead o.queue.msg p s'.log) (s'.calls r) (retOf r s'.log) ≤
        dk (ahead o.queue.msg p s.log) (s.calls r) (retOf r s.log) := by
    intro evs h1 h2
    rw [dk_same hr hr' (by rw [ho]; rfl) h1 (by rw [h2]; exact fun e he => List.mem_append_left _ he), h2]
    exact dk_mono (ahead_append _ hp) _ _
  refine tr_cases hi ht ?_ ?_ ?_ ?_ ?_
  · rintro op rfl _ rfl
    exact ⟨same _ (upd_ne _ _ hne) rfl, by rintro (⟨_, h⟩ | h) <;> cases h⟩
  · rintro c rfl rfl
    exact ⟨Nat.le_refl _, by rintro (⟨_, h⟩ | h) <;> cases h⟩
  · rintro i alt pc pc' evs g rfl ms
    by_cases hji : r = i
    · subst hji
      have hf := hi.fits _ _ ms.here
      have hmic := ms.mic
      have hh := ms.here
      have hle : ahead o.queue.msg p s'.log ≤ ahead o.queue.msg p s.log := by
        rw [ms.log]; exact ahead_append _ hp
      have key : dk (ahead o.queue.msg p s'.log) (s'.calls r) (retOf r s'.log) <
          dk (ahead o.queue.msg p s.log) (s.calls r) (retOf r s.log) := by
        rw [ms.there, ms.here]
        have hlog := ms.log
        generalize s'.b = b' at hmic
        cases hmic with
        | recvCtx c y hd =>
          have := hf.1; rw [ho] at this; cases this
          exact (hq (.inl hd)).elim
        | recvExit c y o' h1 h2 =>
          have := hf.1; rw [ho] at this; cases this
          exact (hq (.inr (.inr ⟨o', h1, h2⟩))).elim
        | recvUnsub c y h1 =>
          have h2 := hf.1; rw [ho] at h2; cases h2
          exact (hq (.inr (.inl (hr.toRecv.unsub _ hf.2 h1)))).elim
        | recvMsg c y o' p' m l h1 h2 =>
          have h3 := hf.1; rw [ho] at h3; cases h3
          rw [hx] at h1; cases h1
          rcases ahead_take hr hr' hlog (p' := p') (by simp [tookFrom]) hp (hfree hh) with rfl | h4
          · exfalso
            refine handledBy_mem (m := m) ?_ (hng (takers_mem (ch := o.queue.msg) ?_)) <;> rw [hlog] <;> simp
          · simp only [dk]; omega
        | recvYes | recvNo | recvTimeout | dropNone | dropOne | handledNil | handledErr =>
          simp only [dk]; omega
        | _ => simp [Fits, ho] at hf
      exact ⟨Nat.le_of_lt key, fun _ => key⟩
    · refine ⟨same _ (ms.keep r hji hne) ms.log, ?_⟩
      rintro (⟨_, h⟩ | h)
      · cases h; exact (hji rfl).elim
      · cases h
  · rintro p' r' ctx' q ex m x' o' pr pr' evs rfl ms
    refine ⟨?_, by rintro (⟨_, h⟩ | h) <;> cases h⟩
    by_cases hpr : r = p'
    · subst hpr
      obtain ⟨t, h1, _⟩ := hi.fits _ _ ms.pub
      rw [ho] at h1; cases h1
    · by_cases hrr : r = r'
      · subst hrr
        have hf := hi.fits _ _ ms.recv
        have hh := ms.recv
        rw [ms.recv, ms.recv']
        rcases ms.kind with ⟨c, rfl, rfl, he⟩ | ⟨rfl, rfl, _⟩
        · have h3 := hf.1; rw [ho] at h3; cases h3
          have hsub := ms.sub
          rw [hx] at hsub; cases hsub
          rcases ahead_take hr hr' ms.log (ch := o.queue.msg) (p' := p')
            (by rw [he, ms.queue]; simp [tookFrom]) hp (hfree hh) with rfl | h4
          · exfalso
            refine handledBy_mem (m := m) ?_ (hng (takers_mem (ch := q.msg) ?_)) <;> rw [ms.log, he] <;> simp
          · simp only [dk]; omega
        · simp only [dk]; omega
      · exact same _ (ms.keep r hpr hrr) ms.log
  · rintro i v rfl hc rfl
    by_cases hir : r = i
    · subst hir
      have h1 : retOf r (s.log ++ [.ret r v]) = some v :=
        retOf_eq hr' (List.mem_append_right _ (List.mem_singleton.mpr rfl))
      have h2 : dk (ahead o.queue.msg p (s.log ++ [.ret r v])) (upd s.calls r none r)
          (retOf r (s.log ++ [.ret r v])) < dk (ahead o.queue.msg p s.log) (s.calls r) (retOf r s.log) := by
        rw [upd_self, h1, hc]
        refine Nat.lt_of_le_of_lt (dk_mono (ahead_append _ hp) _ _) ?_
        rw [dk_some _ _ (retOf r s.log) none]
        exact dk_done_lt _ v
      exact ⟨Nat.le_of_lt h2, fun _ => h2⟩
    · refine ⟨same _ (upd_ne _ _ hir) rfl, ?_⟩
      rintro (⟨_, h⟩ | h)
      · cases h
      · cases h; exact (hir rfl).elim

theorem reason_step {cap : Int} {ctx x : Nat} {s s' : St} {a : Act} (hr : Reach cap Any s)
    (hs : Broker.step s a = some s') (h : RecvReason s ctx x) : RecvReason s' ctx x := by
  have hi := hr.toInv
  obtain ⟨_, ht⟩ := step_tr hs
  refine tr_elim hi ht ?_ ?_ ?_ ?_ ?_
  · rintro op _ _ rfl
    rcases h with h | ⟨u, h⟩ | h
    · exact .inl h
    · exact .inr (.inl ⟨u, ops_upd (hi.ops _ (Nat.le_refl _)) h⟩)
    · exact .inr (.inr h)
  · rintro c rfl
    rcases h with h | h | h
    · left
      dsimp only
      by_cases hc : ctx = c
      · subst hc; exact upd_self _ _ _
      · rw [upd_ne _ _ hc]; exact h
    · exact .inr (.inl h)
    · exact .inr (.inr h)
  · intro i alt pc pc' evs g _ ms
    rcases h with h1 | h1 | ⟨o, h1, h2⟩
    · exact .inl (by rw [mic_done ms.mic]; exact h1)
    · exact .inr (.inl (by rw [ms.ops]; exact h1))
    · right; right
      have hs := mic_sub_some ms.mic (x := x) (by rw [h1]; rfl)
      cases ho : s'.b.sub x with
      | none => rw [ho] at hs; cases hs
      | some o' =>
        refine ⟨o', rfl, ?_⟩
        have hq : o'.queue = o.queue := by
          rcases mic_sub ms.mic ho with ⟨o'', ho'', hoo⟩ | ⟨t, u, rfl, rfl, _⟩
          · rw [h1] at ho''
            cases ho''
            rcases hoo with rfl | ⟨_, rfl⟩ <;> rfl
          · have := (hr.toUnused x (.inr (.inl ⟨_, ms.here, trivial⟩))).sub
            rw [h1] at this; cases this
        rw [hq]
        cases he : o.queue.exit with
        | none => rw [he] at h2; cases h2
        | some e => rw [he] at h2; exact mic_closed_mono ms.mic h2
  · intro p r c q ex m y o pr pr' evs ms
    unfold RecvReason
    rw [ms.ops, ms.b]; exact h
  · rintro i r hc rfl; exact h

/-- The queue of a subscription stays. -/
theorem queue_step {cap : Int} {x : Nat} {s s' : St} {a : Act} {o o' : Sub} (hr : Reach cap Any s)
    (hs : Broker.step s a = some s') (h : s.b.sub x = some o) (h' : s'.b.sub x = some o') :
    o'.queue = o.queue := by
  have hi := hr.toInv
  obtain ⟨_, ht⟩ := step_tr hs
  revert h'
  refine tr_elim hi ht ?_ ?_ ?_ ?_ ?_
  · rintro op _ _ rfl h'; rw [h] at h'; cases h'; rfl
  · rintro c rfl h'; rw [h] at h'; cases h'; rfl
  · intro i alt pc pc' evs g _ ms h'
    rcases mic_sub ms.mic h' with ⟨o'', ho'', hoo⟩ | ⟨t, u, rfl, rfl, _⟩
    · rw [h] at ho''
      cases ho''
      rcases hoo with rfl | ⟨_, rfl⟩ <;> rfl
    · have := (hr.toUnused x (.inr (.inl ⟨_, ms.here, trivial⟩))).sub
      rw [h] at this; cases this
  · intro p r c q ex m y o pr pr' evs ms h'
    rw [ms.b, h] at h'; cases h'; rfl
  · rintro i r hc rfl h'; rw [h] at h'; cases h'; rfl

theorem undisturbed_iff {ctx x : Nat} {s : St} : Undisturbed ctx x s ↔ ¬ RecvReason s ctx x := by
  unfold Undisturbed RecvReason
  constructor
  · rintro ⟨h1, h2, h3⟩ (h | ⟨u, h⟩ | ⟨o, h, h'⟩)
    · rw [h1] at h; cases h
    · exact h2 u h
    · rw [h3 o h] at h'; cases h'
  · intro h
    refine ⟨?_, fun u hu => h (.inr (.inl ⟨u, hu⟩)), fun o ho => ?_⟩
    · cases hd : s.b.done ctx with
      | false => rfl
      | true => exact (h (.inl hd)).elim
    · cases hd : s.b.isClosed o.queue.exit with
      | false => rfl
      | true => exact (h (.inr (.inr ⟨o, ho, hd⟩))).elim

theorem log_step {s s' : St} {a : Act} (hi : Inv s) (hs : Broker.step s a = some s') :
    ∃ evs, s'.log = s.log ++ evs := by
  obtain ⟨_, ht⟩ := step_tr hs
  refine tr_elim hi ht ?_ ?_ ?_ ?_ ?_
  · rintro op _ _ rfl; exact ⟨_, rfl⟩
  · rintro c rfl; exact ⟨[], (List.append_nil _).symm⟩
  · intro _ _ _ _ _ _ _ ms; exact ⟨_, ms.log⟩
  · intro _ _ _ _ _ _ _ _ _ _ _ ms; exact ⟨_, ms.log⟩
  · rintro _ _ _ rfl; exact ⟨_, rfl⟩

/-- Everything the argument needs to know about one step. -/
theorem dstep_keeps {cap : Int} {ctx x : Nat} {d d' : DSt} {a : DAct} (hd : DReach cap ctx x d)
    (hs : dstep ctx x d a = some d') :
    (∃ evs, d'.s.log = d.s.log ++ evs) ∧ (RecvReason d.s ctx x → RecvReason d'.s ctx x) ∧
    (∀ o o', d.s.b.sub x = some o → d'.s.b.sub x = some o' → o'.queue = o.queue) ∧
    (∀ v, d.pos = .returned v → d'.pos = .returned v) ∧ ∀ p, Delivered p d → Delivered p d' := by
  have hr := hd.reach
  have deliver : ∀ p evs, d'.s.log = d.s.log ++ evs → (∀ r ∈ d'.recvs, r ∈ d.recvs ∨ r = d.s.next) →
      Delivered p d → Delivered p d' := by
    rintro p evs h1 h2 ⟨r, h3, h4⟩
    refine ⟨r, by rw [h1, takers_append]; exact List.mem_append_left _ h3, ?_⟩
    rcases h4 with h4 | h4
    · left
      rw [h1, handledBy_append]
      exact fun e => h4 (List.append_eq_nil_iff.mp e).1
    · right
      intro h5
      rcases h2 r h5 with h6 | rfl
      · exact h4 h6
      · obtain ⟨e, he, h6⟩ := List.mem_filterMap.mp h3
        cases e with
        | took r ch q =>
          simp only at h6
          split at h6
          · cases h6
            have := hr.toLog.1.ids _ he _ rfl
            omega
          · cases h6
        | _ => cases h6
  rcases dstep_cases hs with ⟨b, s', _, h1, rfl⟩ | ⟨s', _, hp, h1, rfl⟩ | ⟨r, v, _, hp, _, rfl⟩
  · obtain ⟨evs, h2⟩ := log_step hr.toInv h1
    exact ⟨⟨evs, h2⟩, reason_step hr h1, fun o o' => queue_step hr h1, fun v h => h,
      fun p => deliver p evs h2 fun r h => .inl h⟩
  · obtain ⟨evs, h2⟩ := log_step hr.toInv h1
    refine ⟨⟨evs, h2⟩, reason_step hr h1, fun o o' => queue_step hr h1, fun v h => (by rw [hp] at h; cases h),
      fun p => deliver p evs h2 ?_⟩
    intro r h
    rcases List.mem_append.mp h with h | h
    · exact .inl h
    · exact .inr (List.mem_singleton.mp h)
  · refine ⟨⟨[], (List.append_nil _).symm⟩, id, ?_, fun v h => (by rw [hp] at h; cases h),
      fun p => deliver p [] (List.append_nil _).symm fun r h => .inl h⟩
    intro o o' h h'
    rw [h] at h'; cases h'; rfl

/-- While `Digest` is about to take a message, everything taken from its channel has been delivered. -/
theorem untaken {cap : Int} {ctx x r p : Nat} {d : DSt} {o : Sub} (hd : DReach cap ctx x d)
    (hp : d.pos = .waiting r) (hc : d.s.calls r = some (.recvSel ctx x)) (hn : ¬ Delivered p d) :
    p ∉ tookFrom o.queue.msg d.s.log := by
  intro h
  have hr := hd.reach
  have hin := hd.inv
  have h2 := hin.pos
  rw [hp] at h2
  obtain ⟨cs, h2, h3⟩ := h2
  obtain ⟨e, he, h4⟩ := List.mem_filterMap.mp h
  cases e with
  | took r' ch q =>
    simp only at h4
    split at h4
    · cases h4
      have ht := takers_mem he
      have htb : p ∈ tookBy r' d.s.log := List.mem_filterMap.mpr ⟨_, he, by simp⟩
      apply hn
      by_cases hm : r' ∈ d.recvs
      · refine ⟨r', ht, .inl fun hh => ?_⟩
        rw [h2] at hm
        rcases List.mem_append.mp hm with hm | hm
        · have ho := hin.ops r' (by rw [h2]; exact List.mem_append_left _ hm)
          rcases recv_cases hr ho with ⟨g1, _⟩ | ⟨_, _, _, g2⟩ | ⟨_, _, _, g3⟩
          · rw [g1] at htb; cases htb
          · rw [g2] at hh; cases hh
          · cases g3 _ (h3 r' hm)
        · cases List.mem_singleton.mp hm
          have := (hr.toLog.1.calls r _ hc).2.1
          rw [this] at htb; cases htb
      · exact ⟨r', ht, .inr hm⟩
    · cases h4
  | _ => cases h4

theorem dist_step {cap : Int} {ctx x p : Nat} {d d' : DSt} {a : DAct} {o : Sub} (hd : DReach cap ctx x d)
    (hx : d.s.b.sub x = some o) (hq : ¬ RecvReason d'.s ctx x) (hp : p ∈ sentOn o.queue.msg d.s.log)
    (hs : dstep ctx x d a = some d') (hn : ¬ Delivered p d') (hv : ∀ v, d'.pos ≠ .returned v) :
    dist o.queue.msg p d' ≤ dist o.queue.msg p d ∧ (own d a → dist o.queue.msg p d' < dist o.queue.msg p d) := by
  have hr := hd.reach
  have hin := hd.inv
  obtain ⟨⟨evs, hlog⟩, hk1, _, hk2, hk3⟩ := dstep_keeps hd hs
  have hq0 := mt hk1 hq
  have hn0 := mt (hk3 p) hn
  have hle : ahead o.queue.msg p d'.s.log ≤ ahead o.queue.msg p d.s.log := by
    rw [hlog]; exact ahead_append _ hp
  rcases dstep_cases hs with ⟨b, s', rfl, h1, rfl⟩ | ⟨s', rfl, hpos, h1, rfl⟩ | ⟨r, w, rfl, hpos, hw, rfl⟩
  · cases hpos : d.pos with
    | start =>
      refine ⟨by simp only [dist, hpos]; dsimp only at hle; omega, ?_⟩
      cases b <;> simp [own, hpos]
    | returned w => exact (hv w hpos).elim
    | waiting r =>
      have h2 := hin.pos
      rw [hpos] at h2
      obtain ⟨cs, h2, _⟩ := h2
      have hrm : r ∈ d.recvs := by rw [h2]; simp
      have ho := hin.ops r hrm
      obtain ⟨h3, h4⟩ := dk_sys hr ho hx hq0 hp (fun hc => untaken hd hpos hc hn0) h1
        (fun ht => by
          cases hh : handledBy r s'.log with
          | nil => rfl
          | cons m l => exact (hn ⟨r, ht, .inl (by dsimp only; rw [hh]; exact nofun)⟩).elim)
      refine ⟨by simp only [dist, hpos]; exact h3, ?_⟩
      intro hown
      have : (∃ alt, b = .step r alt) ∨ b = .ret r := by
        cases b <;> simp only [own, hpos, Pos.waiting.injEq] at hown
        · subst hown; exact .inl ⟨_, rfl⟩
        · subst hown; exact .inr rfl
      simp only [dist, hpos]
      exact h4 this
  · obtain ⟨_, ht⟩ := step_tr h1
    cases ht with
    | call op hop =>
    have : dist o.queue.msg p ⟨{ d.s with calls := upd d.s.calls d.s.next (some (.start (.receive ctx x))), ops := upd d.s.ops d.s.next (some (.receive ctx x)), next := d.s.next + 1, log := d.s.log ++ [.call d.s.next] }, .waiting d.s.next, d.recvs ++ [d.s.next]⟩ < dist o.queue.msg p d := by
      simp only [dist, hpos, upd_self, PC.start, dk]
      dsimp only at hle
      omega
    exact ⟨Nat.le_of_lt this, fun _ => this⟩
  · have hc : d.s.calls r = none := (hr.toLog.1.rets r w (retOf_mem hw)).1
    by_cases hwn : w = .nil
    · subst hwn
      have : dist o.queue.msg p { d with pos := if Ret.nil = Ret.nil then .start else .returned .nil } <
          dist o.queue.msg p d := by
        simp only [dist, hpos, hw, hc, if_true, dk]; omega
      exact ⟨Nat.le_of_lt this, fun _ => this⟩
    · exact (hv w (by simp [hwn])).elim

theorem dist_le (ch p : Nat) (d : DSt) : dist ch p d ≤ 6 * ahead ch p d.s.log + 9 := by
  unfold dist
  cases d.pos with
  | start => dsimp only; omega
  | returned v => dsimp only; omega
  | waiting r =>
    dsimp only
    unfold dk
    split <;> omega

theorem dexec_keeps {cap : Int} {ctx x : Nat} {acts : List DAct} : ∀ {d d' : DSt}, DReach cap ctx x d →
    dexec ctx x d acts = some d' →
    DReach cap ctx x d' ∧ (∃ evs, d'.s.log = d.s.log ++ evs) ∧ (RecvReason d.s ctx x → RecvReason d'.s ctx x) ∧
    (∀ o o', d.s.b.sub x = some o → d'.s.b.sub x = some o' → o'.queue = o.queue) ∧
    (∀ v, d.pos = .returned v → d'.pos = .returned v) ∧ ∀ p, Delivered p d → Delivered p d' := by
  induction acts with
  | nil =>
    intro d d' hd h; cases h
    exact ⟨hd, ⟨[], (List.append_nil _).symm⟩, id, fun o o' h h' => (by rw [h] at h'; cases h'; rfl),
      fun v h => h, fun p h => h⟩
  | cons a as ih =>
    intro d d' hd h
    unfold dexec at h
    cases hs : dstep ctx x d a with
    | none => rw [hs] at h; cases h
    | some d1 =>
      rw [hs] at h
      have hd1 : DReach cap ctx x d1 := .step _ _ _ hd hs
      obtain ⟨⟨e1, g1⟩, g2, g3, g4, g5⟩ := dstep_keeps hd hs
      obtain ⟨k0, ⟨e2, k1⟩, k2, k3, k4, k5⟩ := ih hd1 h
      refine ⟨k0, ⟨e1 ++ e2, by rw [k1, g1, List.append_assoc]⟩, fun h => k2 (g2 h), ?_,
        fun v h => k4 v (g4 v h), fun p h => k5 p (g5 p h)⟩
      intro o o' h1 h2
      obtain ⟨o1, h3⟩ := Option.isSome_iff_exists.mp hd1.inv.sub
      rw [k3 o1 o' h3 h2, g3 o o1 h1 h3]

theorem dist_exec {cap : Int} {ctx x p : Nat} {acts : List DAct} : ∀ {d d' : DSt} {o : Sub},
    DReach cap ctx x d → d.s.b.sub x = some o → p ∈ sentOn o.queue.msg d.s.log →
    dexec ctx x d acts = some d' → ¬ RecvReason d'.s ctx x → ¬ Delivered p d' → (∀ v, d'.pos ≠ .returned v) →
    ownSteps ctx x d acts + dist o.queue.msg p d' ≤ dist o.queue.msg p d := by
  induction acts with
  | nil => intro d d' o _ _ _ h _ _ _; cases h; simp [ownSteps]
  | cons a as ih =>
    intro d d' o hd hx hp h hq hn hv
    unfold dexec at h
    unfold ownSteps
    cases hs : dstep ctx x d a with
    | none => rw [hs] at h; cases h
    | some d1 =>
      rw [hs] at h
      dsimp only at h ⊢
      have hd1 : DReach cap ctx x d1 := .step _ _ _ hd hs
      obtain ⟨⟨e1, g1⟩, g2, g3, g4, g5⟩ := dstep_keeps hd hs
      obtain ⟨k0, ⟨e2, k1⟩, k2, k3, k4, k5⟩ := dexec_keeps hd1 h
      obtain ⟨o1, h3⟩ := Option.isSome_iff_exists.mp hd1.inv.sub
      have hqe := g3 o o1 hx h3
      have h1 := ih hd1 h3 (by rw [hqe, g1, sentOn_append]; exact List.mem_append_left _ hp) h hq hn hv
      rw [hqe] at h1
      obtain ⟨h4, h5⟩ := dist_step hd hx (mt k2 hq) hp hs (mt (k5 p) hn) (fun v hv' => hv v (k4 v hv'))
      split
      · have := h5 ‹_›; omega
      · omega

theorem ahead_le {ch p : Nat} {l : List Ev} {pre post : List Nat} (h : waiting ch l = pre ++ p :: post) :
    p ∈ sentOn ch l ∧ ahead ch p l ≤ pre.length := by
  unfold waiting at h
  have h1 : (sentOn ch l)[(tookFrom ch l).length + pre.length]? = some p := by
    rw [← List.getElem?_drop, h]
    simp
  refine ⟨List.mem_of_getElem? h1, ?_⟩
  unfold ahead
  have : (sentOn ch l).idxOf p ≤ (tookFrom ch l).length + pre.length := by
    obtain ⟨hlt, h2⟩ := List.getElem?_eq_some_iff.mp h1
    rw [← Nat.not_lt]
    intro hlt'
    unfold List.idxOf at hlt'
    have := List.not_of_lt_findIdx hlt'
    simp [h2] at this
  omega

/-- Unless it has returned, or the message was delivered, `Digest` can go on without a timeout. -/
theorem can_drain {cap : Int} {ctx x p : Nat} {d : DSt} {o : Sub} (hd : DReach cap ctx x d)
    (hn : d.s.b.crashed = false) (hx : d.s.b.sub x = some o) (hs : p ∈ sentOn o.queue.msg d.s.log)
    (hnd : ¬ Delivered p d) (hp : ∀ v, d.pos ≠ .returned v) :
    ∃ a d', own d a ∧ (∀ r, a ≠ .sys (.step r .timeout)) ∧ dstep ctx x d a = some d' := by
  have hr := hd.reach
  have hin := hd.inv
  have go : ∀ {r b s'}, d.pos = .waiting r → own d (.sys b) → (∀ r, b ≠ .step r .timeout) →
      step d.s b = some s' →
      ∃ a d', own d a ∧ (∀ r, a ≠ .sys (.step r .timeout)) ∧ dstep ctx x d a = some d' := by
    intro r b s' _ h1 h2 h3
    exact ⟨.sys b, { d with s := s' }, h1, fun r hr => by cases hr; exact h2 r rfl, by simp only [dstep, h3]⟩
  cases hpos : d.pos with
  | returned v => exact (hp v hpos).elim
  | start =>
    exact ⟨.receive, ⟨{ d.s with calls := upd d.s.calls d.s.next (some (.recvChk ctx x)),
                                 ops := upd d.s.ops d.s.next (some (.receive ctx x)), next := d.s.next + 1,
                                 log := d.s.log ++ [.call d.s.next] }, .waiting d.s.next, d.recvs ++ [d.s.next]⟩,
      trivial, nofun, by simp only [dstep, hpos, step, hn, Mem.has, hx]; rfl⟩
  | waiting r =>
    have h2 := hin.pos
    rw [hpos] at h2
    obtain ⟨cs, h2, _⟩ := h2
    have ho := hin.ops r (by rw [h2]; simp)
    cases hc : d.s.calls r with
    | none =>
      rcases hr.pending r _ ho with h3 | ⟨w, h3⟩
      · rw [hc] at h3; cases h3
      · have h4 := retOf_eq hr h3
        refine ⟨.resume, { d with pos := if w = .nil then .start else .returned w }, trivial, nofun, ?_⟩
        simp only [dstep, hpos, h4]
        cases w <;> rfl
    | some pc =>
      have hf := hr.toInv.fits r pc hc
      cases pc with
      | done w =>
        exact go (s' := { d.s with calls := upd d.s.calls r none, log := d.s.log ++ [.ret r w] }) hpos
          (b := .ret r) hpos nofun (by simp only [step, hn, hc]; rfl)
      | recvChk c y =>
        have := hf.1; rw [ho] at this; cases this
        obtain ⟨s', h1, _⟩ := advance (alt := .go) hn hc (by simp only [micro, hx]; rfl)
        exact go hpos (b := .step r .go) hpos nofun h1
      | recvSel c y =>
        have := hf.1; rw [ho] at this; cases this
        have hu := untaken (o := o) hd hpos hc hnd
        rw [hr.toLog.1.chan, List.mem_append] at hs
        obtain ⟨y, hy, _⟩ := List.mem_map.mp (hs.resolve_left hu)
        cases hb : d.s.b.buf o.queue.msg with
        | nil => rw [hb] at hy; cases hy
        | cons pm l =>
          obtain ⟨s', h1, _⟩ := advance (alt := .msg) hn hc (by simp only [micro, hx, hb]; rfl)
          exact go hpos (b := .step r .msg) hpos nofun h1
      | recvDrop y =>
        obtain ⟨⟨_, hf⟩, _⟩ := hf
        rw [ho] at hf; cases hf
        cases hb : d.s.b.buf o.queue.msg with
        | nil =>
          obtain ⟨s', h1, _⟩ := advance (alt := .go) hn hc (by simp only [micro, hx, hb]; rfl)
          exact go hpos (b := .step r .go) hpos nofun h1
        | cons pm l =>
          obtain ⟨s', h1, _⟩ := advance (alt := .go) hn hc (by simp only [micro, hx, hb]; rfl)
          exact go hpos (b := .step r .go) hpos nofun h1
      | handling m =>
        obtain ⟨s', h1, _⟩ := advance (alt := .result none) hn hc rfl
        exact go hpos (b := .step r (.result none)) hpos nofun h1
      | _ => simp [Fits, ho] at hf

theorem fair_keeps {cap : Int} {ctx x : Nat} {f : Nat → DSt} {acts : Nat → DAct} (hd : DReach cap ctx x (f 0))
    (hf : ∀ n, dstep ctx x (f n) (acts n) = some (f (n + 1))) (k : Nat) : ∀ n, DReach cap ctx x (f n) ∧
      (∃ evs, (f (n + k)).s.log = (f n).s.log ++ evs) ∧
      (RecvReason (f n).s ctx x → RecvReason (f (n + k)).s ctx x) ∧
      (∀ o o', (f n).s.b.sub x = some o → (f (n + k)).s.b.sub x = some o' → o'.queue = o.queue) := by
  have hall : ∀ n, DReach cap ctx x (f n) := by
    intro n
    induction n with
    | zero => exact hd
    | succ n ih => exact .step _ _ _ ih (hf n)
  induction k with
  | zero =>
    intro n
    exact ⟨hall n, ⟨[], (List.append_nil _).symm⟩, id, fun o o' h h' => by rw [Nat.add_zero, h] at h'; cases h'; rfl⟩
  | succ k ih =>
    intro n
    obtain ⟨_, ⟨e1, g1⟩, g2, g3⟩ := ih n
    obtain ⟨⟨e2, k1⟩, k2, k3, _⟩ := dstep_keeps (hall (n + k)) (hf (n + k))
    refine ⟨hall n, ⟨e1 ++ e2, by rw [← Nat.add_assoc, k1, g1, List.append_assoc]⟩, fun h => k2 (g2 h), ?_⟩
    intro o o' h1 h2
    obtain ⟨o1, h3⟩ := Option.isSome_iff_exists.mp (hall (n + k)).inv.sub
    rw [k3 o1 o' h3 h2, g3 o o1 h1 h3]

/-- In a fair execution every message put on the channel is delivered, unless `Digest` returns. -/
theorem fair_drains {cap : Int} {ctx x p : Nat} {f : Nat → DSt} {acts : Nat → DAct} {o : Sub}
    (hd : DReach cap ctx x (f 0)) (hf : Fair ctx x f acts) (hq : ∀ n, ¬ RecvReason (f n).s ctx x) {n : Nat}
    (hx : (f n).s.b.sub x = some o) (hp : p ∈ sentOn o.queue.msg (f n).s.log) :
    ∃ N, n ≤ N ∧ (Delivered p (f N) ∨ ∃ v, (f N).pos = .returned v) := by
  apply Classical.byContradiction
  intro hno
  have hno : ∀ N, n ≤ N → ¬ Delivered p (f N) ∧ ∀ v, (f N).pos ≠ .returned v := fun N hN =>
    ⟨fun h => hno ⟨N, hN, .inl h⟩, fun v h => hno ⟨N, hN, .inr ⟨v, h⟩⟩⟩
  have one : ∀ j, dist o.queue.msg p (f (n + j + 1)) ≤ dist o.queue.msg p (f (n + j)) ∧
      (own (f (n + j)) (acts (n + j)) →
        dist o.queue.msg p (f (n + j + 1)) < dist o.queue.msg p (f (n + j))) := by
    intro j
    obtain ⟨h1, ⟨evs, h2⟩, _, h3⟩ := fair_keeps hd hf.step j n
    have hdj := (fair_keeps hd hf.step 0 (n + j)).1
    obtain ⟨o', h4⟩ := Option.isSome_iff_exists.mp hdj.inv.sub
    have hqe := h3 o o' hx h4
    have := dist_step hdj h4 (hq _) (p := p) (by rw [hqe, h2, sentOn_append]; exact List.mem_append_left _ hp)
      (hf.step _) (hno _ (by omega)).1 (hno _ (by omega)).2
    rwa [hqe] at this
  have mono : ∀ i j, dist o.queue.msg p (f (n + i + j)) ≤ dist o.queue.msg p (f (n + i)) := by
    intro i j
    induction j with
    | zero => exact Nat.le_refl _
    | succ j ih =>
      have := (one (i + j)).1
      rw [← Nat.add_assoc] at this
      exact Nat.le_trans this ih
  have down : ∀ k, ∃ i, dist o.queue.msg p (f (n + i)) + k ≤ dist o.queue.msg p (f n) := by
    intro k
    induction k with
    | zero => exact ⟨0, Nat.le_refl _⟩
    | succ k ih =>
      obtain ⟨i, h1⟩ := ih
      rcases hf.fair (n + i) with ⟨v, hv⟩ | ⟨m, hm, ho⟩
      · exact ((hno _ (by omega)).2 v hv).elim
      · obtain ⟨j, rfl⟩ : ∃ j, m = n + i + j := ⟨m - (n + i), by omega⟩
        have h2 := mono i j
        have h3 := (one (i + j)).2 (by rw [← Nat.add_assoc]; exact ho)
        rw [← Nat.add_assoc] at h3
        refine ⟨i + j + 1, ?_⟩
        rw [show n + (i + j + 1) = n + i + j + 1 from by omega]
        omega
  obtain ⟨i, h⟩ := down (dist o.queue.msg p (f n) + 1)
  omega

/-- `d` came before `e`. -/
def Early (d e : DSt) : Prop := (∀ i op, d.s.ops i = some op → e.s.ops i = some op) ∧ d.s.next ≤ e.s.next ∧
  ∀ r ∈ e.recvs, r ∈ d.recvs ∨ d.s.next ≤ r

theorem Early.trans {d e g : DSt} (h : Early d e) (h' : Early e g) : Early d g := by
  refine ⟨fun i op ho => h'.1 i op (h.1 i op ho), Nat.le_trans h.2.1 h'.2.1, fun r hr => ?_⟩
  rcases h'.2.2 r hr with h1 | h1
  · exact h.2.2 r h1
  · exact .inr (Nat.le_trans h.2.1 h1)

theorem next_step {s s' : St} {a : Act} (hi : Inv s) (hs : Broker.step s a = some s') : s.next ≤ s'.next := by
  obtain ⟨_, ht⟩ := step_tr hs
  refine tr_elim hi ht ?_ ?_ ?_ ?_ ?_
  · rintro op _ _ rfl; exact Nat.le_succ _
  · rintro c rfl; exact Nat.le_refl _
  · intro _ _ _ _ _ _ _ ms; exact ms.num
  · intro _ _ _ _ _ _ _ _ _ _ _ ms; exact Nat.le_of_eq ms.num.symm
  · rintro _ _ _ rfl; exact Nat.le_refl _

theorem early_step {cap : Int} {ctx x : Nat} {d d' : DSt} {a : DAct} (hd : DReach cap ctx x d)
    (hs : dstep ctx x d a = some d') : Early d d' := by
  refine ⟨(dstep_grow hd hs).1, ?_⟩
  have hi := hd.reach.toInv
  rcases dstep_cases hs with ⟨b, s', _, h1, rfl⟩ | ⟨s', _, hp, h1, rfl⟩ | ⟨r, v, _, hp, _, rfl⟩
  · exact ⟨next_step hi h1, fun r h => .inl h⟩
  · refine ⟨next_step hi h1, fun r h => ?_⟩
    rcases List.mem_append.mp h with h | h
    · exact .inl h
    · exact .inr (Nat.le_of_eq (List.mem_singleton.mp h).symm)
  · exact ⟨Nat.le_refl _, fun r h => .inl h⟩

/-- A run in which `Digest` returns is the beginning of a fair execution. -/
theorem fair_run {cap : Int} {ctx x c : Nat} (hc : ctx ≠ c) : ∀ {l : List DAct} {d e : DSt},
    DReach cap ctx x d → dexec ctx x d l = some e → (∃ v, e.pos = .returned v) → e.s.b.crashed = false →
    ¬ RecvReason e.s ctx x → ∃ f acts, f 0 = d ∧ Fair ctx x f acts ∧
      (∀ n, ¬ RecvReason (f n).s ctx x ∧ Early (f n) e) ∧ ∃ n, f n = e := by
  intro l
  induction l with
  | nil =>
    rintro d e hd h ⟨v, hv⟩ hn hq
    cases h
    let f : Nat → DSt := fun n => Nat.rec d (fun _ d => { d with s := { d.s with b := { d.s.b with done := upd d.s.b.done c true } } }) n
    have hf : ∀ n, (f n).pos = .returned v ∧ (f n).s.b.crashed = false ∧ ¬ RecvReason (f n).s ctx x ∧
        Early (f n) d := by
      intro n
      induction n with
      | zero => exact ⟨hv, hn, hq, fun _ _ h => h, Nat.le_refl _, fun _ h => .inl h⟩
      | succ n ih =>
        refine ⟨ih.1, ih.2.1, ?_, ih.2.2.2⟩
        rintro (h | h | h)
        · have : upd (f n).s.b.done c true ctx = true := h
          rw [upd_ne _ _ hc] at this
          exact ih.2.2.1 (.inl this)
        · exact ih.2.2.1 (.inr (.inl h))
        · exact ih.2.2.1 (.inr (.inr h))
    refine ⟨f, fun _ => .sys (.cancel c), rfl, ⟨fun n => ?_, fun n => .inl ⟨v, (hf n).1⟩⟩, fun n => (hf n).2.2,
      0, rfl⟩
    have : Broker.step (f n).s (.cancel c) =
        some { (f n).s with b := { (f n).s.b with done := upd (f n).s.b.done c true } } := by
      unfold Broker.step
      rw [(hf n).2.1]; rfl
    simp only [dstep, this]
    rfl
  | cons a l ih =>
    intro d e hd h hv hn hq
    unfold dexec at h
    cases hs : dstep ctx x d a with
    | none => rw [hs] at h; cases h
    | some d1 =>
      rw [hs] at h
      obtain ⟨f, acts, h0, hf, hq1, N, hN⟩ := ih (.step _ _ _ hd hs) h hv hn hq
      refine ⟨fun | 0 => d | n + 1 => f n, fun | 0 => a | n + 1 => acts n, rfl, ⟨?_, ?_⟩, ?_, N + 1, hN⟩
      · intro n
        cases n with
        | zero => dsimp only; rw [h0]; exact hs
        | succ n => exact hf.step n
      · intro n
        cases n with
        | zero =>
          rcases hf.fair 0 with ⟨v, h1⟩ | ⟨m, _, h1⟩
          · rw [h0] at h1
            rcases dstep_cases hs with ⟨b, s', _, _, rfl⟩ | ⟨s', rfl, _, _, rfl⟩ | ⟨r, w, rfl, _, _, rfl⟩
            · exact .inl ⟨v, h1⟩
            · exact .inr ⟨0, Nat.le_refl _, trivial⟩
            · exact .inr ⟨0, Nat.le_refl _, trivial⟩
          · exact .inr ⟨m + 1, Nat.zero_le _, h1⟩
        | succ n =>
          rcases hf.fair n with h1 | ⟨m, h2, h1⟩
          · exact .inl h1
          · exact .inr ⟨m + 1, by omega, h1⟩
      · intro n
        cases n with
        | zero =>
          have := hq1 0
          rw [h0] at this
          exact ⟨mt (dstep_keeps hd hs).2.1 this.1, (early_step hd hs).trans this.2⟩
        | succ n => exact hq1 n

end Netscrape.Digest
