import Verif.Lemmas.BrokerSteps

/-!
# The history of a broker
-/

namespace Netscrape.Broker
open Netscrape.Conc (upd upd_self upd_ne)
open Netscrape.Spec Netscrape.Spec.Broker

/-- What a finished call has done to messages. -/
structure DoneLog (log : List Ev) (i : Nat) (r : Ret) : Prop where
  sent : r ≠ .nil → sentBy i log = []
  took : (tookBy i log = [] ∧ handledBy i log = [] ∧ ∀ e, r ≠ .fail e) ∨
    (∃ p m, tookBy i log = [p] ∧ handledBy i log = [m] ∧
      ((Ev.handled i none ∈ log ∧ r = .nil) ∨ ∃ e, Ev.handled i (some e) ∈ log ∧ r = .fail e)) ∨
    (∃ p, tookBy i log = [p] ∧ handledBy i log = [] ∧ r = .timeout)

/-- What a call has done to messages so far. -/
def PcLog (log : List Ev) (i : Nat) : PC → Prop
  | .handling m => sentBy i log = [] ∧ ∃ p, tookBy i log = [p] ∧ handledBy i log = [m]
  | .done r => DoneLog log i r
  | _ => sentBy i log = [] ∧ tookBy i log = [] ∧ handledBy i log = []

structure LogInv (s : St) : Prop where
  ids : ∀ e ∈ s.log, ∀ j, subj e = some j → j < s.next
  chan : ∀ ch, sentOn ch s.log = tookFrom ch s.log ++ (s.b.buf ch).map Prod.fst
  calls : ∀ i pc, s.calls i = some pc → PcLog s.log i pc
  rets : ∀ i r, Ev.ret i r ∈ s.log → s.calls i = none ∧ DoneLog s.log i r
  rets1 : ∀ i r r', Ev.ret i r ∈ s.log → Ev.ret i r' ∈ s.log → r = r'
  once : ∀ p, (sentBy p s.log).length ≤ 1
  buf1 : ∀ ch p m, (p, m) ∈ s.b.buf ch → sentBy p s.log = [ch] ∧ takers p s.log = []
  buf2 : ∀ ch, ((s.b.buf ch).map Prod.fst).Nodup
  takers : ∀ p, (takers p s.log).length ≤ 1 ∧ (sentBy p s.log = [] → takers p s.log = [])
  sent : ∀ p ch, Ev.sent p ch ∈ s.log → ∃ ctx t m, s.ops p = some (.pub ctx t m) ∧ OnTopic s.ops ch t
  took : ∀ r ch p, Ev.took r ch p ∈ s.log → ∃ ctx x t u ctx' m, s.ops r = some (.receive ctx x) ∧
    s.ops x = some (.sub t u) ∧ s.ops p = some (.pub ctx' t m) ∧ OnTopic s.ops ch t
  handle : ∀ r m, Ev.handle r m ∈ s.log → ∃ p ch ctx t, Ev.took r ch p ∈ s.log ∧
    s.ops p = some (.pub ctx t m)

/-! ## Appending events -/

theorem sentOn_append (ch : Nat) (l l' : List Ev) : sentOn ch (l ++ l') = sentOn ch l ++ sentOn ch l' :=
  List.filterMap_append
theorem tookFrom_append (ch : Nat) (l l' : List Ev) :
    tookFrom ch (l ++ l') = tookFrom ch l ++ tookFrom ch l' := List.filterMap_append
theorem sentBy_append (p : Nat) (l l' : List Ev) : sentBy p (l ++ l') = sentBy p l ++ sentBy p l' :=
  List.filterMap_append
theorem takers_append (p : Nat) (l l' : List Ev) : takers p (l ++ l') = takers p l ++ takers p l' :=
  List.filterMap_append
theorem tookBy_append (r : Nat) (l l' : List Ev) : tookBy r (l ++ l') = tookBy r l ++ tookBy r l' :=
  List.filterMap_append
theorem handledBy_append (r : Nat) (l l' : List Ev) :
    handledBy r (l ++ l') = handledBy r l ++ handledBy r l' := List.filterMap_append

theorem none_of {i : Nat} {l : List Ev} (h : ∀ e ∈ l, subj e ≠ some i) :
    sentBy i l = [] ∧ tookBy i l = [] ∧ handledBy i l = [] := by
  refine ⟨List.filterMap_eq_nil_iff.mpr ?_, List.filterMap_eq_nil_iff.mpr ?_,
    List.filterMap_eq_nil_iff.mpr ?_⟩ <;>
  · intro e he
    have := h e he
    cases e <;> simp only [subj, ne_eq, Option.some.injEq, reduceCtorEq, not_false_eq_true] at this ⊢
    try rw [if_neg this]

theorem DoneLog.frame {log evs : List Ev} {i : Nat} {r : Ret} (h : DoneLog log i r)
    (hf : ∀ e ∈ evs, subj e ≠ some i ∨ ∃ r, e = .ret i r) : DoneLog (log ++ evs) i r := by
  have h1 : sentBy i evs = [] := by
    refine List.filterMap_eq_nil_iff.mpr fun e he => ?_
    rcases hf e he with h | ⟨r, rfl⟩
    · cases e <;> simp only [subj, ne_eq, Option.some.injEq, reduceCtorEq, not_false_eq_true] at h ⊢
      try rw [if_neg h]
    · rfl
  have h2 : tookBy i evs = [] := by
    refine List.filterMap_eq_nil_iff.mpr fun e he => ?_
    rcases hf e he with h | ⟨r, rfl⟩
    · cases e <;> simp only [subj, ne_eq, Option.some.injEq, reduceCtorEq, not_false_eq_true] at h ⊢
      try rw [if_neg h]
    · rfl
  have h3 : handledBy i evs = [] := by
    refine List.filterMap_eq_nil_iff.mpr fun e he => ?_
    rcases hf e he with h | ⟨r, rfl⟩
    · cases e <;> simp only [subj, ne_eq, Option.some.injEq, reduceCtorEq, not_false_eq_true] at h ⊢
      try rw [if_neg h]
    · rfl
  constructor
  · rw [sentBy_append, h1, List.append_nil]; exact h.sent
  · rw [tookBy_append, handledBy_append, h2, h3, List.append_nil, List.append_nil]
    rcases h.took with h | ⟨p, m, ha, hb, hc⟩ | h
    · exact .inl h
    · refine .inr (.inl ⟨p, m, ha, hb, ?_⟩)
      rcases hc with ⟨hc, e⟩ | ⟨e, hc, he⟩
      · exact .inl ⟨List.mem_append_left _ hc, e⟩
      · exact .inr ⟨e, List.mem_append_left _ hc, he⟩
    · exact .inr (.inr h)

theorem PcLog.frame {log evs : List Ev} {i : Nat} {pc : PC} (h : PcLog log i pc)
    (hf : ∀ e ∈ evs, subj e ≠ some i) : PcLog (log ++ evs) i pc := by
  obtain ⟨h1, h2, h3⟩ := none_of hf
  cases pc with
  | done r => exact DoneLog.frame h fun e he => .inl (hf e he)
  | _ =>
    simp only [PcLog, sentBy_append, tookBy_append, handledBy_append, h1, h2, h3, List.append_nil]
    exact h

theorem logInv_init (cap : Int) : LogInv (.init cap) where
  ids := by intro e h; cases h
  chan _ := rfl
  calls := by intro i pc h; cases h
  rets := by intro i r h; cases h
  rets1 := by intro i r r' h; cases h
  once _ := Nat.zero_le _
  buf1 := by intro ch p m h; cases h
  buf2 _ := List.nodup_nil
  takers _ := ⟨Nat.zero_le _, fun _ => rfl⟩
  sent := by intro _ _ h; cases h
  took := by intro _ _ _ h; cases h
  handle := by intro _ _ h; cases h

theorem quiet_nil {evs : List Ev} {i : Nat} (h : ∀ e ∈ evs, e = .opened i ∨ e = .closed i) :
    (∀ ch, sentOn ch evs = []) ∧ (∀ ch, tookFrom ch evs = []) ∧ (∀ p, sentBy p evs = []) ∧
    (∀ p, takers p evs = []) ∧ (∀ r, tookBy r evs = []) ∧ ∀ r, handledBy r evs = [] := by
  refine ⟨?_, ?_, ?_, ?_, ?_, ?_⟩ <;> intro x <;> refine List.filterMap_eq_nil_iff.mpr fun e he => ?_ <;>
    rcases h e he with rfl | rfl <;> rfl

theorem PcLog.quiet {log : List Ev} {i : Nat} {pc pc' : PC} (h : PcLog log i pc)
    (h1 : ∀ r, pc ≠ .done r) (h2 : ∀ m, pc ≠ .handling m) (h3 : ∀ m, pc' ≠ .handling m)
    (h4 : ∀ e, pc' ≠ .done (.fail e)) : PcLog log i pc' := by
  have h' : sentBy i log = [] ∧ tookBy i log = [] ∧ handledBy i log = [] := by
    cases pc with
    | done r => exact (h1 r rfl).elim
    | handling m => exact (h2 m rfl).elim
    | _ => exact h
  cases pc' with
  | done r =>
    exact ⟨fun _ => h'.1, .inl ⟨h'.2.1, h'.2.2, fun e he => h4 e (by rw [he])⟩⟩
  | handling m => exact (h3 m rfl).elim
  | _ => exact h'

theorem pcLog_start {s : St} (h : LogInv s) {pc : PC} (h1 : ∀ r, pc ≠ .done r) (h2 : ∀ m, pc ≠ .handling m)
    {j : Nat} (hj : s.next ≤ j) : PcLog s.log j pc := by
  have hn := none_of (i := j) (l := s.log) fun e he hs => by
    have := h.ids e he j hs; omega
  cases pc with
  | done r => exact (h1 r rfl).elim
  | handling m => exact (h2 m rfl).elim
  | _ => exact hn

/-- A step of one goroutine. -/
theorem logInv_micro {s s' : St} {i : Nat} {pc pc' : PC} {a : Alt} {evs : List Ev} {g : Option PC}
    (h : LogInv s) (hi : Inv s) (hc : s.calls i = some pc) (hm : Mic s.b i pc a s'.b pc' evs g)
    (hlog : s'.log = s.log ++ evs) (hops : s'.ops = s.ops) (hnext : s.next ≤ s'.next)
    (hci : s'.calls i = some pc')
    (hcj : ∀ j pcj, j ≠ i → s'.calls j = some pcj → s.calls j = some pcj ∨
      (s.next ≤ j ∧ ((∃ ctx, pcj = .run ctx) ∨ ∃ x, pcj = .notify x)))
    (hcn : ∀ j, j < s.next → j ≠ i → s.calls j = none → s'.calls j = none) : LogInv s' := by
  have hin : i < s.next := by
    rcases Nat.lt_or_ge i s.next with h1 | h1
    · exact h1
    · rw [hi.calls i h1] at hc; cases hc
  have hpc := h.calls i pc hc
  have hfit := hi.fits i pc hc
  have hnr : ∀ r, Ev.ret i r ∉ s.log := fun r hr => by rw [(h.rets i r hr).1] at hc; cases hc
  -- every step: events are about `i`, or about nobody; no event is a return
  have hsub : ∀ e ∈ evs, ∀ j, subj e = some j → j = i := by
    intro e he j hj
    rcases (mic_kind hm).2 with hq | ⟨_, _, _, _, _, _, _, _, rfl⟩ | ⟨_, _, _, _, _, _, _, _, _, _, _, rfl⟩ |
      ⟨_, _, _, _, _, _, _, _, _, _, rfl⟩ | ⟨_, _, _, _, rfl, _⟩
    · rcases hq.evs e he with rfl | rfl <;> cases hj
    all_goals
      simp only [List.mem_cons, List.not_mem_nil, or_false] at he
      try rcases he with rfl | rfl
      all_goals
        try subst he
        cases hj
        rfl
  have hret : ∀ j r, Ev.ret j r ∉ evs := by
    intro j r he
    rcases (mic_kind hm).2 with hq | ⟨_, _, _, _, _, _, _, _, rfl⟩ | ⟨_, _, _, _, _, _, _, _, _, _, _, rfl⟩ |
      ⟨_, _, _, _, _, _, _, _, _, _, rfl⟩ | ⟨_, _, _, _, rfl, _⟩
    · rcases hq.evs _ he with e | e <;> cases e
    all_goals simp at he
  have hfr : ∀ j, j ≠ i → ∀ e ∈ evs, subj e ≠ some j := fun j hj e he hs => hj (hsub e he j hs)
  have hids : ∀ e ∈ s'.log, ∀ j, subj e = some j → j < s'.next := by
    intro e he j hj
    rw [hlog] at he
    rcases List.mem_append.mp he with he | he
    · have := h.ids e he j hj; omega
    · rw [hsub e he j hj]; omega
  have hcalls : PcLog s'.log i pc' → ∀ j pcj, s'.calls j = some pcj → PcLog s'.log j pcj := by
    intro hp j pcj hj
    by_cases hji : j = i
    · subst hji; rw [hci] at hj; cases hj; exact hp
    · rw [hlog]
      refine PcLog.frame ?_ (hfr j hji)
      rcases hcj j pcj hji hj with h1 | ⟨h1, h2⟩
      · exact h.calls j pcj h1
      · refine pcLog_start h ?_ ?_ h1
        · rintro r rfl; rcases h2 with ⟨_, h2⟩ | ⟨_, h2⟩ <;> cases h2
        · rintro r rfl; rcases h2 with ⟨_, h2⟩ | ⟨_, h2⟩ <;> cases h2
  have hrets : ∀ j r, Ev.ret j r ∈ s'.log → s'.calls j = none ∧ DoneLog s'.log j r := by
    intro j r hj
    rw [hlog] at hj
    have hj : Ev.ret j r ∈ s.log := by
      rcases List.mem_append.mp hj with hj | hj
      · exact hj
      · exact (hret j r hj).elim
    have hji : j ≠ i := by rintro rfl; exact hnr r hj
    obtain ⟨h1, h2⟩ := h.rets j r hj
    refine ⟨hcn j (h.ids _ hj j rfl) hji h1, ?_⟩
    rw [hlog]
    exact h2.frame fun e he => .inl (hfr j hji e he)
  have hrets1 : ∀ j r r', Ev.ret j r ∈ s'.log → Ev.ret j r' ∈ s'.log → r = r' := by
    intro j r r' h1 h2
    rw [hlog] at h1 h2
    rcases List.mem_append.mp h1 with h1 | h1
    · rcases List.mem_append.mp h2 with h2 | h2
      · exact h.rets1 j r r' h1 h2
      · exact (hret j r' h2).elim
    · exact (hret j r h1).elim
  rcases (mic_kind hm).2 with hq | ⟨ctx, q, ex, m, rfl, hlen, rfl, hb, rfl⟩ |
      ⟨ctx, x, o, p, m, r, rfl, ho, hbuf, rfl, hb, rfl⟩ | ⟨x, o, p, m, r, rfl, ho, hbuf, rfl, hb, rfl⟩ |
      ⟨m, er, rfl, hb, rfl, rfl⟩
  · -- nothing moves
    obtain ⟨q1, q2, q3, q4, q5, q6⟩ := quiet_nil hq.evs
    have hin' : ∀ e, e ∈ s'.log → (∀ j, e ≠ .opened j ∧ e ≠ .closed j) → e ∈ s.log := by
      intro e he hne
      rw [hlog] at he
      rcases List.mem_append.mp he with he | he
      · exact he
      · rcases hq.evs e he with e1 | e1
        · exact ((hne i).1 e1).elim
        · exact ((hne i).2 e1).elim
    refine ⟨hids, ?_, hcalls ?_, hrets, hrets1, ?_, ?_, ?_, ?_, ?_, ?_, ?_⟩
    · intro ch
      rw [hlog, sentOn_append, tookFrom_append, q1, q2, hq.buf, List.append_nil, List.append_nil]
      exact h.chan ch
    · have := hpc.quiet hq.from_done hq.from_handling hq.to_handling hq.to_fail
      rw [hlog]
      refine this.frame fun e he => ?_
      rcases hq.evs e he with rfl | rfl <;> simp [subj]
    · intro p; rw [hlog, sentBy_append, q3, List.append_nil]; exact h.once p
    · intro ch p m hp
      rw [hlog, sentBy_append, takers_append, q3, q4, List.append_nil, List.append_nil]
      rw [hq.buf] at hp
      exact h.buf1 ch p m hp
    · intro ch; rw [hq.buf]; exact h.buf2 ch
    · intro p
      rw [hlog, sentBy_append, takers_append, q3, q4, List.append_nil, List.append_nil]
      exact h.takers p
    · intro p ch hp; rw [hops]; exact h.sent p ch (hin' _ hp fun _ => ⟨nofun, nofun⟩)
    · intro r ch p hp; rw [hops]; exact h.took r ch p (hin' _ hp fun _ => ⟨nofun, nofun⟩)
    · intro r m hp
      rw [hops, hlog]
      obtain ⟨p, ch, ctx, t, h1, h2⟩ := h.handle r m (hin' _ hp fun _ => ⟨nofun, nofun⟩)
      exact ⟨p, ch, ctx, t, List.mem_append_left _ h1, h2⟩
  · -- a message is put on a queue
    obtain ⟨t, ho1, ho2⟩ := hfit
    obtain ⟨g1, g2, g3⟩ := hpc
    have hnb : ∀ ch m', (i, m') ∉ s.b.buf ch := fun ch m' hh => by
      rw [(h.buf1 ch i m' hh).1] at g1; cases g1
    have hin' : ∀ e, e ∈ s'.log → (∀ j k, e ≠ .sent j k) → e ∈ s.log := by
      intro e he hne
      rw [hlog] at he
      rcases List.mem_append.mp he with he | he
      · exact he
      · exact (hne _ _ (List.mem_singleton.mp he)).elim
    have e3 : ∀ p, sentBy p [Ev.sent i q.msg] = if i = p then [q.msg] else [] := by
      intro p; by_cases hp : i = p <;> simp [sentBy, hp]
    have e4 : ∀ p, takers p [Ev.sent i q.msg] = [] := fun _ => rfl
    refine ⟨hids, ?_, hcalls ?_, hrets, hrets1, ?_, ?_, ?_, ?_, ?_, ?_, ?_⟩
    · intro ch
      rw [hlog, sentOn_append, tookFrom_append, hb]
      have e1 : tookFrom ch [Ev.sent i q.msg] = [] := rfl
      rw [e1, List.append_nil, h.chan ch]
      by_cases hch : ch = q.msg
      · subst hch
        rw [upd_self]
        have e2 : sentOn q.msg [Ev.sent i q.msg] = [i] := by simp [sentOn]
        rw [e2]; simp
      · rw [upd_ne _ _ hch]
        have e2 : sentOn ch [Ev.sent i q.msg] = [] := by
          simp only [sentOn, List.filterMap_cons, List.filterMap_nil, if_neg (Ne.symm hch)]
        rw [e2, List.append_nil]
    · refine ⟨fun e => (e rfl).elim, .inl ⟨?_, ?_, nofun⟩⟩
      · rw [hlog, tookBy_append, g2]; rfl
      · rw [hlog, handledBy_append, g3]; rfl
    · intro p
      rw [hlog, sentBy_append, e3]
      split
      · next e => subst e; rw [g1]; exact Nat.le_refl _
      · rw [List.append_nil]; exact h.once p
    · intro ch p m' hp
      rw [hlog, sentBy_append, takers_append, e3, e4, List.append_nil]
      rw [hb] at hp
      by_cases hch : ch = q.msg
      · subst hch
        rw [upd_self] at hp
        rcases List.mem_append.mp hp with hp | hp
        · have : i ≠ p := by rintro rfl; exact hnb _ _ hp
          rw [if_neg this, List.append_nil]
          exact h.buf1 _ p m' hp
        · simp only [List.mem_singleton, Prod.mk.injEq] at hp
          obtain ⟨rfl, rfl⟩ := hp
          rw [if_pos rfl, g1]
          exact ⟨rfl, (h.takers p).2 g1⟩
      · rw [upd_ne _ _ hch] at hp
        have : i ≠ p := by rintro rfl; exact hnb _ _ hp
        rw [if_neg this, List.append_nil]
        exact h.buf1 ch p m' hp
    · intro ch
      rw [hb]
      by_cases hch : ch = q.msg
      · subst hch
        rw [upd_self, List.map_append, List.nodup_append]
        refine ⟨h.buf2 _, by simp, ?_⟩
        intro a ha b' hb'
        simp only [List.map_cons, List.map_nil, List.mem_singleton] at hb'
        subst hb'
        rintro rfl
        obtain ⟨⟨a', m'⟩, h1, h2⟩ := List.mem_map.mp ha
        dsimp only at h2
        subst h2
        exact hnb _ _ h1
      · rw [upd_ne _ _ hch]; exact h.buf2 ch
    · intro p
      rw [hlog, sentBy_append, takers_append, e4, List.append_nil]
      refine ⟨(h.takers p).1, fun hp => (h.takers p).2 (List.append_eq_nil_iff.mp hp).1⟩
    · intro p ch hp
      rw [hops]
      rw [hlog] at hp
      rcases List.mem_append.mp hp with hp | hp
      · exact h.sent p ch hp
      · cases List.mem_singleton.mp hp
        exact ⟨ctx, t, m, ho1, ho2⟩
    · intro r ch p hp; rw [hops]; exact h.took r ch p (hin' _ hp fun _ _ => nofun)
    · intro r m hp
      rw [hops, hlog]
      obtain ⟨p, ch, ctx, t, h1, h2⟩ := h.handle r m (hin' _ hp fun _ _ => nofun)
      exact ⟨p, ch, ctx, t, List.mem_append_left _ h1, h2⟩
  · -- a message is taken and handled
    obtain ⟨g1, g2, g3⟩ := hpc
    have hpm : (p, m) ∈ s.b.buf o.queue.msg := by rw [hbuf]; exact List.mem_cons_self ..
    obtain ⟨cx, t, hpo, hpt⟩ := hi.mem.buf _ p m hpm
    obtain ⟨hs1, hs2⟩ := hi.mem.subs x o ho
    have htt : t = o.topic := by
      rcases hpt with ⟨_, _, h1⟩ | ⟨_, h1⟩ <;> rcases hs2 with ⟨_, _, h2⟩ | ⟨_, h2⟩ <;> rw [h1] at h2 <;>
        cases h2 <;> rfl
    subst htt
    obtain ⟨k1, k2⟩ := h.buf1 _ p m hpm
    have hnd := h.buf2 o.queue.msg
    rw [hbuf, List.map_cons, List.nodup_cons] at hnd
    have hin' : ∀ e, e ∈ s'.log → (∀ j k l, e ≠ .took j k l) → (∀ j k, e ≠ .handle j k) → e ∈ s.log := by
      intro e he hne hne'
      rw [hlog] at he
      rcases List.mem_append.mp he with he | he
      · exact he
      · simp only [List.mem_cons, List.not_mem_nil, or_false] at he
        rcases he with he | he
        · exact (hne _ _ _ he).elim
        · exact (hne' _ _ he).elim
    have e3 : ∀ p', sentBy p' [Ev.took i o.queue.msg p, Ev.handle i m] = [] := fun _ => rfl
    have e4 : ∀ p', takers p' [Ev.took i o.queue.msg p, Ev.handle i m] = if p = p' then [i] else [] := by
      intro p'; by_cases hp : p = p' <;> simp [takers, hp]
    have e5 : tookBy i [Ev.took i o.queue.msg p, Ev.handle i m] = [p] := by simp [tookBy]
    have e6 : handledBy i [Ev.took i o.queue.msg p, Ev.handle i m] = [m] := by simp [handledBy]
    refine ⟨hids, ?_, hcalls ?_, hrets, hrets1, ?_, ?_, ?_, ?_, ?_, ?_, ?_⟩
    · intro ch
      rw [hlog, sentOn_append, tookFrom_append, hb]
      have e1 : sentOn ch [Ev.took i o.queue.msg p, Ev.handle i m] = [] := rfl
      rw [e1, List.append_nil, h.chan ch]
      by_cases hch : ch = o.queue.msg
      · subst hch
        rw [upd_self, hbuf]
        have e2 : tookFrom o.queue.msg [Ev.took i o.queue.msg p, Ev.handle i m] = [p] := by simp [tookFrom]
        rw [e2]; simp
      · rw [upd_ne _ _ hch]
        have e2 : tookFrom ch [Ev.took i o.queue.msg p, Ev.handle i m] = [] := by
          simp only [tookFrom, List.filterMap_cons, List.filterMap_nil, if_neg (Ne.symm hch)]
        rw [e2, List.append_nil]
    · rw [hlog]
      refine ⟨?_, p, ?_, ?_⟩
      · rw [sentBy_append, g1, e3]; rfl
      · rw [tookBy_append, g2, e5]; rfl
      · rw [handledBy_append, g3, e6]; rfl
    · intro p'; rw [hlog, sentBy_append, e3, List.append_nil]; exact h.once p'
    · intro ch p' m' hp
      rw [hlog, sentBy_append, takers_append, e3, e4, List.append_nil]
      rw [hb] at hp
      by_cases hch : ch = o.queue.msg
      · subst hch
        rw [upd_self] at hp
        have hpp : p ≠ p' := by
          rintro rfl
          exact hnd.1 (List.mem_map.mpr ⟨_, hp, rfl⟩)
        rw [if_neg hpp, List.append_nil]
        exact h.buf1 _ p' m' (by rw [hbuf]; exact List.mem_cons_of_mem _ hp)
      · rw [upd_ne _ _ hch] at hp
        have hpp : p ≠ p' := by
          rintro rfl
          have := (h.buf1 ch p m' hp).1
          rw [k1] at this
          cases this; exact hch rfl
        rw [if_neg hpp, List.append_nil]
        exact h.buf1 ch p' m' hp
    · intro ch
      rw [hb]
      by_cases hch : ch = o.queue.msg
      · subst hch; rw [upd_self]; exact hnd.2
      · rw [upd_ne _ _ hch]; exact h.buf2 ch
    · intro p'
      rw [hlog, sentBy_append, takers_append, e3, e4, List.append_nil]
      by_cases hpp : p = p'
      · subst hpp
        rw [if_pos rfl, k1, k2]
        exact ⟨Nat.le_refl _, nofun⟩
      · rw [if_neg hpp, List.append_nil]; exact h.takers p'
    · intro p' ch hp; rw [hops]; exact h.sent p' ch (hin' _ hp (fun _ _ _ => nofun) (fun _ _ => nofun))
    · intro r' ch p' hp
      rw [hops]
      rw [hlog] at hp
      rcases List.mem_append.mp hp with hp | hp
      · exact h.took r' ch p' hp
      · simp only [List.mem_cons, reduceCtorEq, or_false, List.not_mem_nil, Ev.took.injEq] at hp
        obtain ⟨rfl, rfl, rfl⟩ := hp
        exact ⟨ctx, x, o.topic, o.id, cx, m, hfit.1, hs1, hpo, hpt⟩
    · intro r' m' hp
      rw [hops, hlog]
      rw [hlog] at hp
      rcases List.mem_append.mp hp with hp | hp
      · obtain ⟨p', ch, ctx, t, h1, h2⟩ := h.handle r' m' hp
        exact ⟨p', ch, ctx, t, List.mem_append_left _ h1, h2⟩
      · simp only [List.mem_cons, reduceCtorEq, or_false, false_or, List.not_mem_nil, Ev.handle.injEq] at hp
        obtain ⟨rfl, rfl⟩ := hp
        exact ⟨p, o.queue.msg, cx, o.topic, List.mem_append_right _ (List.mem_cons_self ..), hpo⟩
  · -- a message is dropped
    obtain ⟨g1, g2, g3⟩ := hpc
    have hpm : (p, m) ∈ s.b.buf o.queue.msg := by rw [hbuf]; exact List.mem_cons_self ..
    obtain ⟨cx, t, hpo, hpt⟩ := hi.mem.buf _ p m hpm
    obtain ⟨hs1, hs2⟩ := hi.mem.subs x o ho
    obtain ⟨⟨ctx, hrc⟩, _⟩ := hfit
    have htt : t = o.topic := by
      rcases hpt with ⟨_, _, h1⟩ | ⟨_, h1⟩ <;> rcases hs2 with ⟨_, _, h2⟩ | ⟨_, h2⟩ <;> rw [h1] at h2 <;>
        cases h2 <;> rfl
    subst htt
    obtain ⟨k1, k2⟩ := h.buf1 _ p m hpm
    have hnd := h.buf2 o.queue.msg
    rw [hbuf, List.map_cons, List.nodup_cons] at hnd
    have hin' : ∀ e, e ∈ s'.log → (∀ j k l, e ≠ .took j k l) → e ∈ s.log := by
      intro e he hne
      rw [hlog] at he
      rcases List.mem_append.mp he with he | he
      · exact he
      · exact (hne _ _ _ (List.mem_singleton.mp he)).elim
    have e3 : ∀ p', sentBy p' [Ev.took i o.queue.msg p] = [] := fun _ => rfl
    have e4 : ∀ p', takers p' [Ev.took i o.queue.msg p] = if p = p' then [i] else [] := by
      intro p'; by_cases hp : p = p' <;> simp [takers, hp]
    have e5 : tookBy i [Ev.took i o.queue.msg p] = [p] := by simp [tookBy]
    refine ⟨hids, ?_, hcalls ?_, hrets, hrets1, ?_, ?_, ?_, ?_, ?_, ?_, ?_⟩
    · intro ch
      rw [hlog, sentOn_append, tookFrom_append, hb]
      have e1 : sentOn ch [Ev.took i o.queue.msg p] = [] := rfl
      rw [e1, List.append_nil, h.chan ch]
      by_cases hch : ch = o.queue.msg
      · subst hch
        rw [upd_self, hbuf]
        have e2 : tookFrom o.queue.msg [Ev.took i o.queue.msg p] = [p] := by simp [tookFrom]
        rw [e2]; simp
      · rw [upd_ne _ _ hch]
        have e2 : tookFrom ch [Ev.took i o.queue.msg p] = [] := by
          simp only [tookFrom, List.filterMap_cons, List.filterMap_nil, if_neg (Ne.symm hch)]
        rw [e2, List.append_nil]
    · rw [hlog]
      refine ⟨fun _ => ?_, .inr (.inr ⟨p, ?_, ?_, rfl⟩)⟩
      · rw [sentBy_append, g1, e3]; rfl
      · rw [tookBy_append, g2, e5]; rfl
      · rw [handledBy_append, g3]; rfl
    · intro p'; rw [hlog, sentBy_append, e3, List.append_nil]; exact h.once p'
    · intro ch p' m' hp
      rw [hlog, sentBy_append, takers_append, e3, e4, List.append_nil]
      rw [hb] at hp
      by_cases hch : ch = o.queue.msg
      · subst hch
        rw [upd_self] at hp
        have hpp : p ≠ p' := by
          rintro rfl
          exact hnd.1 (List.mem_map.mpr ⟨_, hp, rfl⟩)
        rw [if_neg hpp, List.append_nil]
        exact h.buf1 _ p' m' (by rw [hbuf]; exact List.mem_cons_of_mem _ hp)
      · rw [upd_ne _ _ hch] at hp
        have hpp : p ≠ p' := by
          rintro rfl
          have := (h.buf1 ch p m' hp).1
          rw [k1] at this
          cases this; exact hch rfl
        rw [if_neg hpp, List.append_nil]
        exact h.buf1 ch p' m' hp
    · intro ch
      rw [hb]
      by_cases hch : ch = o.queue.msg
      · subst hch; rw [upd_self]; exact hnd.2
      · rw [upd_ne _ _ hch]; exact h.buf2 ch
    · intro p'
      rw [hlog, sentBy_append, takers_append, e3, e4, List.append_nil]
      by_cases hpp : p = p'
      · subst hpp
        rw [if_pos rfl, k1, k2]
        exact ⟨Nat.le_refl _, nofun⟩
      · rw [if_neg hpp, List.append_nil]; exact h.takers p'
    · intro p' ch hp; rw [hops]; exact h.sent p' ch (hin' _ hp (fun _ _ _ => nofun))
    · intro r' ch p' hp
      rw [hops]
      rw [hlog] at hp
      rcases List.mem_append.mp hp with hp | hp
      · exact h.took r' ch p' hp
      · cases List.mem_singleton.mp hp
        exact ⟨ctx, x, o.topic, o.id, cx, m, hrc, hs1, hpo, hpt⟩
    · intro r' m' hp
      rw [hops, hlog]
      obtain ⟨p', ch, ctx, t, h1, h2⟩ := h.handle r' m' (hin' _ hp (fun _ _ _ => nofun))
      exact ⟨p', ch, ctx, t, List.mem_append_left _ h1, h2⟩
  · -- the handler returns
    obtain ⟨g1, p, g2, g3⟩ := hpc
    have hin' : ∀ e, e ∈ s'.log → (∀ j k, e ≠ .handled j k) → e ∈ s.log := by
      intro e he hne
      rw [hlog] at he
      rcases List.mem_append.mp he with he | he
      · exact he
      · exact (hne _ _ (List.mem_singleton.mp he)).elim
    have e1 : ∀ p', sentBy p' [Ev.handled i er] = [] := fun _ => rfl
    have e2 : ∀ p', takers p' [Ev.handled i er] = [] := fun _ => rfl
    refine ⟨hids, ?_, hcalls ?_, hrets, hrets1, ?_, ?_, ?_, ?_, ?_, ?_, ?_⟩
    · intro ch
      rw [hlog, sentOn_append, tookFrom_append, hb]
      have e1 : sentOn ch [Ev.handled i er] = [] := rfl
      have e2 : tookFrom ch [Ev.handled i er] = [] := rfl
      rw [e1, e2, List.append_nil, List.append_nil, h.chan ch]
    · rw [hlog]
      refine ⟨fun _ => ?_, .inr (.inl ⟨p, m, ?_, ?_, ?_⟩)⟩
      · rw [sentBy_append, g1, e1]; rfl
      · rw [tookBy_append, g2]; rfl
      · rw [handledBy_append, g3]; rfl
      · cases er with
        | none => exact .inl ⟨List.mem_append_right _ (List.mem_singleton.mpr rfl), rfl⟩
        | some e => exact .inr ⟨e, List.mem_append_right _ (List.mem_singleton.mpr rfl), rfl⟩
    · intro p'; rw [hlog, sentBy_append, e1, List.append_nil]; exact h.once p'
    · intro ch p' m' hp
      rw [hlog, sentBy_append, takers_append, e1, e2, List.append_nil, List.append_nil]
      rw [hb] at hp
      exact h.buf1 ch p' m' hp
    · intro ch; rw [hb]; exact h.buf2 ch
    · intro p'
      rw [hlog, sentBy_append, takers_append, e1, e2, List.append_nil, List.append_nil]
      exact h.takers p'
    · intro p' ch hp; rw [hops]; exact h.sent p' ch (hin' _ hp (fun _ _ => nofun))
    · intro r ch p' hp; rw [hops]; exact h.took r ch p' (hin' _ hp (fun _ _ => nofun))
    · intro r m' hp
      rw [hops, hlog]
      obtain ⟨p', ch, ctx, t, h1, h2⟩ := h.handle r m' (hin' _ hp (fun _ _ => nofun))
      exact ⟨p', ch, ctx, t, List.mem_append_left _ h1, h2⟩

theorem start_ne (op : Op) : (∀ r, PC.start op ≠ .done r) ∧ ∀ m, PC.start op ≠ .handling m := by
  cases op <;> exact ⟨nofun, nofun⟩

theorem logInv_tr {s s' : St} {a : Act} (h : LogInv s) (hi : Inv s)
    (hsz : ∀ ch, (s.b.buf ch).length ≤ s.b.size) (ht : Tr s a s') : LogInv s' := by
  have hn : s.ops s.next = none := hi.ops _ (Nat.le_refl _)
  cases ht with
  | call op hop =>
    have hnot : ∀ {e}, e ∈ s.log ++ [Ev.call s.next] → e ≠ .call s.next → e ∈ s.log := by
      intro e he hne
      rcases List.mem_append.mp he with he | he
      · exact he
      · exact (hne (List.mem_singleton.mp he)).elim
    have f1 : ∀ ch, sentOn ch (s.log ++ [Ev.call s.next]) = sentOn ch s.log := fun ch => by
      rw [sentOn_append]; exact List.append_nil _
    have f2 : ∀ ch, tookFrom ch (s.log ++ [Ev.call s.next]) = tookFrom ch s.log := fun ch => by
      rw [tookFrom_append]; exact List.append_nil _
    have f3 : ∀ ch, sentBy ch (s.log ++ [Ev.call s.next]) = sentBy ch s.log := fun ch => by
      rw [sentBy_append]; exact List.append_nil _
    have f4 : ∀ ch, takers ch (s.log ++ [Ev.call s.next]) = takers ch s.log := fun ch => by
      rw [takers_append]; exact List.append_nil _
    have hfr : ∀ j, j ≠ s.next → ∀ e ∈ [Ev.call s.next], subj e ≠ some j := by
      intro j hj e he
      rw [List.mem_singleton.mp he]
      intro hh; cases hh; exact hj rfl
    constructor <;> dsimp only
    · intro e he j hj
      rcases List.mem_append.mp he with he | he
      · have := h.ids e he j hj; omega
      · rw [List.mem_singleton.mp he] at hj; cases hj; omega
    · intro ch; rw [f1, f2]; exact h.chan ch
    · intro i pc hc
      by_cases hin : i = s.next
      · subst hin
        rw [upd_self] at hc
        cases hc
        have := pcLog_start h (start_ne op).1 (start_ne op).2 (Nat.le_refl s.next)
        cases op <;> simpa only [PC.start, PcLog, sentBy_append, tookBy_append, handledBy_append,
          show sentBy s.next [Ev.call s.next] = [] from rfl, show tookBy s.next [Ev.call s.next] = [] from rfl,
          show handledBy s.next [Ev.call s.next] = [] from rfl, List.append_nil] using this
      · rw [upd_ne _ _ hin] at hc
        exact (h.calls i pc hc).frame (hfr i hin)
    · intro i r hr
      have hr := hnot hr nofun
      obtain ⟨h1, h2⟩ := h.rets i r hr
      have : i ≠ s.next := by have := h.ids _ hr i rfl; omega
      rw [upd_ne _ _ this]
      exact ⟨h1, h2.frame fun e he => .inl (hfr i this e he)⟩
    · intro i r r' h1 h2; exact h.rets1 i r r' (hnot h1 nofun) (hnot h2 nofun)
    · intro p; rw [f3]; exact h.once p
    · intro ch p m hp; rw [f3, f4]; exact h.buf1 ch p m hp
    · exact h.buf2
    · intro p; rw [f3, f4]; exact h.takers p
    · intro p ch hp
      obtain ⟨ctx, t, m, h1, h2⟩ := h.sent p ch (hnot hp nofun)
      exact ⟨ctx, t, m, ops_upd hn h1, h2.upd hn⟩
    · intro r ch p hp
      obtain ⟨ctx, x, t, u, ctx', m, h1, h2, h3, h4⟩ := h.took r ch p (hnot hp nofun)
      exact ⟨ctx, x, t, u, ctx', m, ops_upd hn h1, ops_upd hn h2, ops_upd hn h3, h4.upd hn⟩
    · intro r m hp
      obtain ⟨p, ch, ctx, t, h1, h2⟩ := h.handle r m (hnot hp nofun)
      exact ⟨p, ch, ctx, t, List.mem_append_left _ h1, ops_upd hn h2⟩
  | cancel ctx =>
    exact ⟨h.ids, h.chan, h.calls, h.rets, h.rets1, h.once, h.buf1, h.buf2, h.takers, h.sent, h.took,
      h.handle⟩
  | step i a pc pc' b' evs hc hm =>
    refine logInv_micro h hi hc (micro_mic hm) rfl rfl (Nat.le_refl _) (upd_self _ _ _) ?_ ?_
    · intro j pcj hj hh
      dsimp only at hh
      rw [upd_ne _ _ hj] at hh; exact .inl hh
    · intro j _ hj hh
      dsimp only
      rw [upd_ne _ _ hj]; exact hh
  | spawn i a pc pc' g b' evs hc hm =>
    have hin := hi.next hc
    refine logInv_micro (s' := ⟨b', upd (upd s.calls i (some pc')) s.next (some g), s.ops, s.next + 1,
      s.log ++ evs⟩) h hi hc (micro_mic hm) rfl rfl (Nat.le_succ _) ?_ ?_ ?_
    · dsimp only; rw [upd_ne _ _ hin]; exact upd_self _ _ _
    · intro j pcj hj hh
      dsimp only at hh
      by_cases hjn : j = s.next
      · subst hjn; rw [upd_self] at hh; cases hh; exact .inr ⟨Nat.le_refl _, mic_spawn (micro_mic hm)⟩
      · rw [upd_ne _ _ hjn, upd_ne _ _ hj] at hh; exact .inl hh
    · intro j hlt hj hh
      dsimp only
      rw [upd_ne _ _ (by omega), upd_ne _ _ hj]; exact hh
  | meet p r pc pr pc' pr' evs hp hr hm =>
    obtain ⟨ctx, q, ex, m, x, o, rfl, ho, hq, hz, rfl, hh⟩ := meet_cases hm
    obtain ⟨t, ho1, ho2⟩ := hi.fits p _ hp
    obtain ⟨hs1, hs2⟩ := hi.mem.subs x o ho
    rw [hq] at hs2
    have htt : t = o.topic := by
      rcases ho2 with ⟨_, _, h1⟩ | ⟨_, h1⟩ <;> rcases hs2 with ⟨_, _, h2⟩ | ⟨_, h2⟩ <;> rw [h1] at h2 <;>
        cases h2 <;> rfl
    subst htt
    have hpr : p ≠ r := by
      rintro rfl
      rw [hp] at hr
      rcases hh with ⟨c, rfl, _, _⟩ | ⟨rfl, _, _⟩ <;> cases hr
    obtain ⟨cr, hor⟩ : ∃ cr, s.ops r = some (.receive cr x) := by
      have := hi.fits r _ hr
      rcases hh with ⟨c, rfl, _, _⟩ | ⟨rfl, _, _⟩
      · exact ⟨c, this.1⟩
      · exact this.1
    obtain ⟨g1, g2, g3⟩ := h.calls p _ hp
    obtain ⟨k1, k2, k3⟩ : sentBy r s.log = [] ∧ tookBy r s.log = [] ∧ handledBy r s.log = [] := by
      have := h.calls r _ hr
      rcases hh with ⟨c, rfl, _, _⟩ | ⟨rfl, _, _⟩ <;> exact this
    have hnb : ∀ ch m', (p, m') ∉ s.b.buf ch := fun ch m' hh => by
      rw [(h.buf1 ch p m' hh).1] at g1; cases g1
    have htk := (h.takers p).2 g1
    have hsub : ∀ e ∈ evs, subj e = some p ∨ subj e = some r := by
      intro e he
      rcases hh with ⟨c, rfl, rfl, rfl⟩ | ⟨rfl, rfl, rfl⟩ <;>
        simp only [List.mem_cons, List.not_mem_nil, or_false] at he
      · rcases he with rfl | rfl | rfl
        · exact .inl rfl
        · exact .inr rfl
        · exact .inr rfl
      · rcases he with rfl | rfl
        · exact .inl rfl
        · exact .inr rfl
    have hret : ∀ j k, Ev.ret j k ∉ evs := by
      intro j k he
      rcases hh with ⟨c, rfl, rfl, rfl⟩ | ⟨rfl, rfl, rfl⟩ <;> simp at he
    have hpn : p < s.next := by
      rcases Nat.lt_or_ge p s.next with h1 | h1
      · exact h1
      · rw [hi.calls p h1] at hp; cases hp
    have hrn : r < s.next := by
      rcases Nat.lt_or_ge r s.next with h1 | h1
      · exact h1
      · rw [hi.calls r h1] at hr; cases hr
    have hfr : ∀ j, j ≠ p → j ≠ r → ∀ e ∈ evs, subj e ≠ some j := by
      intro j h1 h2 e he hs
      rcases hsub e he with h3 | h3 <;> rw [hs] at h3 <;> cases h3
      · exact h1 rfl
      · exact h2 rfl
    have f1 : ∀ ch, sentOn ch evs = tookFrom ch evs := by
      intro ch
      by_cases hch : q.msg = ch
      · rcases hh with ⟨c, rfl, rfl, rfl⟩ | ⟨rfl, rfl, rfl⟩ <;> simp [sentOn, tookFrom, hch]
      · rcases hh with ⟨c, rfl, rfl, rfl⟩ | ⟨rfl, rfl, rfl⟩ <;> simp [sentOn, tookFrom, hch]
    have f3 : ∀ p', sentBy p' evs = if p = p' then [q.msg] else [] := by
      intro p'
      rcases hh with ⟨c, rfl, rfl, rfl⟩ | ⟨rfl, rfl, rfl⟩ <;> by_cases e : p = p' <;> simp [sentBy, e]
    have f4 : ∀ p', takers p' evs = if p = p' then [r] else [] := by
      intro p'
      rcases hh with ⟨c, rfl, rfl, rfl⟩ | ⟨rfl, rfl, rfl⟩ <;> by_cases e : p = p' <;> simp [takers, e]
    have f5 : tookBy p evs = [] ∧ handledBy p evs = [] ∧ tookBy r evs = [p] := by
      rcases hh with ⟨c, rfl, rfl, rfl⟩ | ⟨rfl, rfl, rfl⟩ <;>
        simp [tookBy, handledBy, Ne.symm hpr]
    constructor <;> dsimp only
    · intro e he j hj
      rcases List.mem_append.mp he with he | he
      · exact h.ids e he j hj
      · rcases hsub e he with h1 | h1 <;> rw [hj] at h1 <;> cases h1 <;> assumption
    · intro ch
      rw [sentOn_append, tookFrom_append, h.chan ch, f1]
      have hb : s.b.buf ch = [] ∨ tookFrom ch evs = [] := by
        by_cases hch : q.msg = ch
        · left
          cases hb : s.b.buf ch with
          | nil => rfl
          | cons a l =>
            have := hsz ch
            rw [hb, hz] at this
            cases this
        · right
          rcases hh with ⟨c, rfl, rfl, rfl⟩ | ⟨rfl, rfl, rfl⟩ <;> simp [tookFrom, hch]
      rcases hb with hb | hb <;> rw [hb] <;> simp
    · intro j pcj hj
      by_cases hjr : j = r
      · subst hjr
        rw [upd_self] at hj
        cases hj
        have s1 : sentBy j (s.log ++ evs) = [] := by rw [sentBy_append, k1, f3, if_neg hpr]; rfl
        have s2 : tookBy j (s.log ++ evs) = [p] := by rw [tookBy_append, k2, f5.2.2]; rfl
        rcases hh with ⟨c, rfl, rfl, rfl⟩ | ⟨rfl, rfl, rfl⟩
        · refine ⟨s1, p, s2, ?_⟩
          rw [handledBy_append, k3]; simp [handledBy]
        · refine ⟨fun _ => s1, .inr (.inr ⟨p, s2, ?_, rfl⟩)⟩
          rw [handledBy_append, k3]; simp [handledBy]
      · rw [upd_ne _ _ hjr] at hj
        by_cases hjp : j = p
        · subst hjp
          rw [upd_self] at hj
          cases hj
          refine ⟨fun e => (e rfl).elim, .inl ⟨?_, ?_, nofun⟩⟩
          · rw [tookBy_append, g2, f5.1]; rfl
          · rw [handledBy_append, g3, f5.2.1]; rfl
        · rw [upd_ne _ _ hjp] at hj
          exact (h.calls j pcj hj).frame (hfr j hjp hjr)
    · intro j k hj
      have hj : Ev.ret j k ∈ s.log := by
        rcases List.mem_append.mp hj with hj | hj
        · exact hj
        · exact (hret j k hj).elim
      obtain ⟨h1, h2⟩ := h.rets j k hj
      have e1 : j ≠ p := by rintro rfl; rw [hp] at h1; cases h1
      have e2 : j ≠ r := by rintro rfl; rw [hr] at h1; cases h1
      rw [upd_ne _ _ e2, upd_ne _ _ e1]
      exact ⟨h1, h2.frame fun e he => .inl (hfr j e1 e2 e he)⟩
    · intro j k k' h1 h2
      rcases List.mem_append.mp h1 with h1 | h1
      · rcases List.mem_append.mp h2 with h2 | h2
        · exact h.rets1 j k k' h1 h2
        · exact (hret j k' h2).elim
      · exact (hret j k h1).elim
    · intro p'
      rw [sentBy_append, f3]
      split
      · next e => subst e; rw [g1]; exact Nat.le_refl _
      · rw [List.append_nil]; exact h.once p'
    · intro ch p' m' hp'
      have : p ≠ p' := by rintro rfl; exact hnb _ _ hp'
      rw [sentBy_append, takers_append, f3, f4, if_neg this, if_neg this, List.append_nil, List.append_nil]
      exact h.buf1 ch p' m' hp'
    · exact h.buf2
    · intro p'
      rw [sentBy_append, takers_append, f3, f4]
      by_cases e : p = p'
      · subst e
        rw [if_pos rfl, if_pos rfl, g1, htk]
        exact ⟨Nat.le_refl _, nofun⟩
      · rw [if_neg e, if_neg e, List.append_nil, List.append_nil]; exact h.takers p'
    · intro p' ch hp'
      rcases List.mem_append.mp hp' with hp' | hp'
      · exact h.sent p' ch hp'
      · have : p' = p ∧ ch = q.msg := by
          rcases hh with ⟨c, rfl, rfl, rfl⟩ | ⟨rfl, rfl, rfl⟩ <;> simpa using hp'
        obtain ⟨rfl, rfl⟩ := this
        exact ⟨ctx, _, m, ho1, ho2⟩
    · intro r' ch p' hp'
      rcases List.mem_append.mp hp' with hp' | hp'
      · exact h.took r' ch p' hp'
      · have : r' = r ∧ ch = q.msg ∧ p' = p := by
          rcases hh with ⟨c, rfl, rfl, rfl⟩ | ⟨rfl, rfl, rfl⟩ <;> simpa using hp'
        obtain ⟨rfl, rfl, rfl⟩ := this
        exact ⟨cr, x, o.topic, o.id, ctx, m, hor, hs1, ho1, ho2⟩
    · intro r' m' hp'
      rcases List.mem_append.mp hp' with hp' | hp'
      · obtain ⟨p', ch, ctx, t, h1, h2⟩ := h.handle r' m' hp'
        exact ⟨p', ch, ctx, t, List.mem_append_left _ h1, h2⟩
      · rcases hh with ⟨c, rfl, rfl, rfl⟩ | ⟨rfl, rfl, rfl⟩
        · have : r' = r ∧ m' = m := by simpa using hp'
          obtain ⟨rfl, rfl⟩ := this
          exact ⟨p, q.msg, ctx, o.topic, List.mem_append_right _ (by simp), ho1⟩
        · simp at hp'
  | ret i r hc =>
    have hnot : ∀ {e}, e ∈ s.log ++ [Ev.ret i r] → e ≠ .ret i r → e ∈ s.log := by
      intro e he hne
      rcases List.mem_append.mp he with he | he
      · exact he
      · exact (hne (List.mem_singleton.mp he)).elim
    have hin : i < s.next := by
      rcases Nat.lt_or_ge i s.next with h1 | h1
      · exact h1
      · rw [hi.calls i h1] at hc; cases hc
    have f1 : ∀ ch, sentOn ch (s.log ++ [Ev.ret i r]) = sentOn ch s.log := fun ch => by
      rw [sentOn_append]; exact List.append_nil _
    have f2 : ∀ ch, tookFrom ch (s.log ++ [Ev.ret i r]) = tookFrom ch s.log := fun ch => by
      rw [tookFrom_append]; exact List.append_nil _
    have f3 : ∀ ch, sentBy ch (s.log ++ [Ev.ret i r]) = sentBy ch s.log := fun ch => by
      rw [sentBy_append]; exact List.append_nil _
    have f4 : ∀ ch, takers ch (s.log ++ [Ev.ret i r]) = takers ch s.log := fun ch => by
      rw [takers_append]; exact List.append_nil _
    have hfr : ∀ j, j ≠ i → ∀ e ∈ [Ev.ret i r], subj e ≠ some j := by
      intro j hj e he
      rw [List.mem_singleton.mp he]
      intro hh; cases hh; exact hj rfl
    have hfr' : ∀ j, ∀ e ∈ [Ev.ret i r], subj e ≠ some j ∨ ∃ r, e = .ret j r := by
      intro j e he
      by_cases hj : j = i
      · subst hj; exact .inr ⟨r, List.mem_singleton.mp he⟩
      · exact .inl (hfr j hj e he)
    have hnr : ∀ k, Ev.ret i k ∉ s.log := fun k hr => by rw [(h.rets i k hr).1] at hc; cases hc
    constructor <;> dsimp only
    · intro e he j hj
      rcases List.mem_append.mp he with he | he
      · exact h.ids e he j hj
      · rw [List.mem_singleton.mp he] at hj; cases hj; exact hin
    · intro ch; rw [f1, f2]; exact h.chan ch
    · intro j pc hj
      by_cases hji : j = i
      · subst hji; rw [upd_self] at hj; cases hj
      · rw [upd_ne _ _ hji] at hj
        exact (h.calls j pc hj).frame (hfr j hji)
    · intro j k hj
      rcases List.mem_append.mp hj with hj1 | hj
      · obtain ⟨h1, h2⟩ := h.rets j k hj1
        have : j ≠ i := by rintro rfl; exact hnr k hj1
        rw [upd_ne _ _ this]
        exact ⟨h1, h2.frame (hfr' j)⟩
      · cases List.mem_singleton.mp hj
        exact ⟨upd_self _ _ _, DoneLog.frame (h.calls i _ hc) (hfr' i)⟩
    · intro j k k' h1 h2
      rcases List.mem_append.mp h1 with h1 | h1
      · rcases List.mem_append.mp h2 with h2 | h2
        · exact h.rets1 j k k' h1 h2
        · cases List.mem_singleton.mp h2; exact (hnr _ h1).elim
      · cases List.mem_singleton.mp h1
        rcases List.mem_append.mp h2 with h2 | h2
        · exact (hnr _ h2).elim
        · cases List.mem_singleton.mp h2; rfl
    · intro p; rw [f3]; exact h.once p
    · intro ch p m hp; rw [f3, f4]; exact h.buf1 ch p m hp
    · exact h.buf2
    · intro p; rw [f3, f4]; exact h.takers p
    · intro p ch hp; exact h.sent p ch (hnot hp nofun)
    · intro r ch p hp; exact h.took r ch p (hnot hp nofun)
    · intro r m hp
      obtain ⟨p, ch, ctx, t, h1, h2⟩ := h.handle r m (hnot hp nofun)
      exact ⟨p, ch, ctx, t, List.mem_append_left _ h1, h2⟩

/-- Both invariants and the capacity. -/
theorem Reach.toLog {cap : Int} {allowed : St → Act → Prop} {s : St} (h : Reach cap allowed s) :
    LogInv s ∧ s.b.size = sizeOf cap ∧ ∀ ch, (s.b.buf ch).length ≤ s.b.size := by
  refine h.inv (P := fun s => LogInv s ∧ s.b.size = sizeOf cap ∧ ∀ ch, (s.b.buf ch).length ≤ s.b.size)
    ⟨logInv_init cap, rfl, fun _ => Nat.zero_le _⟩ ?_
  rintro s s' a hr ⟨h1, h2, h3⟩ _ _ ht
  refine ⟨logInv_tr h1 hr.toInv h3 ht, ?_⟩
  have key : ∀ {i pc a b' pc' evs g}, Mic s.b i pc a b' pc' evs g →
      b'.size = sizeOf cap ∧ ∀ ch, (b'.buf ch).length ≤ b'.size := by
    intro i pc a b' pc' evs g hm
    obtain ⟨k1, k2⟩ := mic_kind hm
    refine ⟨k1.trans h2, fun ch => ?_⟩
    rw [k1]
    rcases k2 with hq | ⟨ctx, q, ex, m, _, hlen, _, hb, _⟩ | ⟨ctx, x, o, p, m, r, _, ho, hbuf, _, hb, _⟩ |
      ⟨x, o, p, m, r, _, ho, hbuf, _, hb, _⟩ | ⟨m, er, _, hb, _, _⟩
    · rw [hq.buf]; exact h3 ch
    · rw [hb]
      by_cases hc : ch = q.msg
      · subst hc; rw [upd_self, List.length_append]; exact hlen
      · rw [upd_ne _ _ hc]; exact h3 ch
    · rw [hb]
      by_cases hc : ch = o.queue.msg
      · subst hc
        rw [upd_self]
        have := h3 o.queue.msg
        rw [hbuf, List.length_cons] at this
        omega
      · rw [upd_ne _ _ hc]; exact h3 ch
    · rw [hb]
      by_cases hc : ch = o.queue.msg
      · subst hc
        rw [upd_self]
        have := h3 o.queue.msg
        rw [hbuf, List.length_cons] at this
        omega
      · rw [upd_ne _ _ hc]; exact h3 ch
    · rw [hb]; exact h3 ch
  cases ht with
  | step i a pc pc' b' evs hc hm => exact key (micro_mic hm)
  | spawn i a pc pc' g b' evs hc hm => exact key (micro_mic hm)
  | _ => exact ⟨h2, h3⟩

end Netscrape.Broker
