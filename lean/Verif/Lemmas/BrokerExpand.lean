import Verif.Lemmas.BrokerRefine
import Verif.Lemmas.Broker

/-!
# Every run of the coarse broker is one of the statement-level broker
-/

namespace Netscrape.BrokerLock
open Netscrape.Conc (upd upd_self upd_ne Mu)
open Netscrape.Broker (Mem Msg Op Ret PC Ev Alt Queue Sub Loc)

theorem exec_append (s : St) (as bs : List Act) :
    exec s (as ++ bs) = match exec s as with | none => none | some s' => exec s' bs := by
  induction as generalizing s with
  | nil => rfl
  | cons a as ih =>
    rw [List.cons_append]
    simp only [exec]
    cases step s a with
    | none => rfl
    | some s' => exact ih s'

theorem exec_trans {s s' s'' : St} {as bs : List Act} (h : exec s as = some s') (h' : exec s' bs = some s'') :
    exec s (as ++ bs) = some s'' := by
  rw [exec_append, h]; exact h'

theorem exec_one {s s' : St} {a : Act} (h : step s a = some s') : exec s [a] = some s' := by
  simp [exec, h]

theorem upd_upd {α : Type} (f : Nat → α) (i : Nat) (a b : α) : upd (upd f i a) i b = upd f i b := by
  funext j
  by_cases h : j = i
  · subst h; rw [upd_self, upd_self]
  · rw [upd_ne _ _ h, upd_ne _ _ h, upd_ne _ _ h]

/-- Locking, unlocking and statements of `i`. -/
def Inside (i : Nat) (a : Act) : Prop := a = .lock i ∨ ∃ key, a = .stmt i key

/-- Some statements of `i` in a row, none of which is one of the last two of `Open`. -/
inductive Run (i n : Nat) : Mem → Pos → Mem → Pos → List Ev → Prop
  | refl (b p) : Run i n b p b p []
  | step (b key p b1 p1 evs1 b' p' evs) : b.crashed = false → (∀ ctx, p ≠ .open2 ctx) → (∀ ctx m, p ≠ .open4 ctx m) →
      stmt b i n key p = some (b1, p1, evs1) → Run i n b1 p1 b' p' evs → Run i n b p b' p' (evs1 ++ evs)

theorem Run.trans {i n : Nat} {b b1 b2 : Mem} {p p1 p2 : Pos} {e e' : List Ev} (h : Run i n b p b1 p1 e)
    (h' : Run i n b1 p1 b2 p2 e') : Run i n b p b2 p2 (e ++ e') := by
  induction h with
  | refl => exact h'
  | step b key p b1 p1 evs1 b2 p2 evs hc h2 h4 hs _ ih =>
    rw [List.append_assoc]
    exact .step b key p b1 p1 evs1 _ _ _ hc h2 h4 hs (ih h')

theorem Run.one {i n : Nat} {b b1 : Mem} {p p1 : Pos} {e : List Ev} (key : String) (hc : b.crashed = false)
    (h2 : ∀ ctx, p ≠ .open2 ctx) (h4 : ∀ ctx m, p ≠ .open4 ctx m) (h : stmt b i n key p = some (b1, p1, e)) :
    Run i n b p b1 p1 e := by
  have := Run.step b key p b1 p1 e b1 p1 [] hc h2 h4 h (.refl _ _)
  rwa [List.append_nil] at this

theorem Run.exec {i n : Nat} {b b' : Mem} {p p' : Pos} {evs : List Ev} (h : Run i n b p b' p' evs) (s : St)
    (hn : s.next = n) : ∃ acts, (∀ a ∈ acts, Inside i a) ∧
      exec { s with b := b, calls := upd s.calls i (some p) } acts =
        some { s with b := b', calls := upd s.calls i (some p'), log := s.log ++ evs } := by
  induction h generalizing s with
  | refl => exact ⟨[], nofun, by simp [BrokerLock.exec]⟩
  | step b key p b1 p1 evs1 b2 p2 evs hc h2 h4 hs _ ih =>
    obtain ⟨acts, ha, he⟩ := ih { s with log := s.log ++ evs1 } hn
    refine ⟨.stmt i key :: acts, ?_, ?_⟩
    · intro a h
      rcases List.mem_cons.mp h with rfl | h
      · exact .inr ⟨key, rfl⟩
      · exact ha a h
    · have : BrokerLock.step { s with b := b, calls := upd s.calls i (some p) } (.stmt i key) =
          some { s with b := b1, calls := upd s.calls i (some p1), log := s.log ++ evs1 } := by
        simp [BrokerLock.step, hc, upd_self, hn, hs, starts_of h4, claims_of h2, upd_upd]
      simp only [BrokerLock.exec, this]
      rw [he]
      simp [List.append_assoc]

/-! ## The loops of `Close` -/

theorem size_del_lt {V : Type} {m : GoMap String V} {k : String} (h : (m.get? k).isSome = true) :
    (m.del k).entries.length < m.entries.length := by
  obtain ⟨v, hv⟩ := Option.isSome_iff_exists.mp h
  rw [GoMap.get?_eq_some] at hv
  refine List.length_filter_lt_length_iff_exists.mpr ⟨_, hv, by simp⟩

theorem get?_head {V : Type} {m : GoMap String V} {k : String} {v : V} {r : List (String × V)}
    (h : m.entries = (k, v) :: r) : m.get? k = some v := by
  rw [GoMap.get?_eq_some, h]; exact List.mem_cons_self

theorem del_set {V : Type} (m : GoMap String V) (k : String) (v : V) : (m.set k v).del k = m.del k := by
  refine GoMap.ext_entries ?_
  unfold GoMap.set GoMap.del
  simp [List.filter_filter]

/-- The inner loop. -/
theorem run_inner (i n : Nat) (t : String) : ∀ (k : Nat) (b : Mem) (inner : GoMap String Nat),
    inner.entries.length = k → b.crashed = false → b.subs.get? t = some inner →
    ∃ subs', Run i n b (.close4 t) { b with subs := subs' } (.close5 t) [] ∧ subs'.del t = b.subs.del t ∧
      (subs'.get? t).isSome = true
  | k, b, inner, hk, hc, hg => by
    cases he : inner.entries with
    | nil =>
      refine ⟨b.subs, .one "" hc nofun nofun ?_, rfl, by rw [hg]; rfl⟩
      simp [stmt, hg, he]
    | cons e r =>
      obtain ⟨u, v⟩ := e
      have hgu := get?_head he
      have hlt : (inner.del u).entries.length < k := by
        rw [← hk]; exact size_del_lt (by rw [hgu]; rfl)
      obtain ⟨subs', h1, h2, h3⟩ := run_inner i n t _ { b with subs := b.subs.set t (inner.del u) } (inner.del u) rfl hc
        (GoMap.get?_set_self _ _ _)
      refine ⟨subs', ?_, ?_, h3⟩
      · refine Run.step b u (.close4 t) _ (.close4 t) [] _ _ [] hc nofun nofun ?_ h1
        simp [stmt, hg, he, hgu]
      · rw [h2]; exact del_set _ _ _
termination_by k => k

/-- The outer loop. -/
theorem run_outer (i n : Nat) : ∀ (k : Nat) (b : Mem), b.subs.entries.length = k → b.crashed = false →
    Run i n b .close3 { b with subs := GoMap.empty, topics := clear b.subs b.topics } .close7 []
  | k, b, hk, hc => by
    cases he : b.subs.entries with
    | nil =>
      have hs := empty_of he
      have : { b with subs := GoMap.empty, topics := clear b.subs b.topics } = b := by
        rw [hs]
        show ({ b with subs := GoMap.empty, topics := b.topics } : Mem) = b
        rw [← hs]
      rw [this]
      refine .one "" hc nofun nofun ?_
      simp [stmt, he]
    | cons e r =>
      obtain ⟨t, inner⟩ := e
      have hg := get?_head he
      have hgs : (b.subs.get? t).isSome = true := by rw [hg]; rfl
      obtain ⟨subs', h1, h2, h3⟩ := run_inner i n t _ b inner rfl hc hg
      have hlt : (b.subs.del t).entries.length < k := by
        rw [← hk]; exact size_del_lt hgs
      have h4 := run_outer i n _ { b with subs := b.subs.del t, topics := b.topics.del t } rfl hc
      have h5 : Run i n b .close3 b (.close4 t) [] := by
        refine .one t hc nofun nofun ?_
        simp [stmt, he, hg]
      have h6 : Run i n { b with subs := subs' } (.close5 t) { b with subs := b.subs.del t } (.close6 t) [] := by
        refine .one "" hc nofun nofun ?_
        simp [stmt, h2]
      have h7 : Run i n { b with subs := b.subs.del t } (.close6 t)
          { b with subs := b.subs.del t, topics := b.topics.del t } .close3 [] := .one "" hc nofun nofun rfl
      have h8 := (((h5.trans h1).trans h6).trans h7).trans h4
      simp only [clear_del hgs] at h8
      exact h8
termination_by k => k

/-! ## Whole sections -/

/-- A section under `Lock` other than the one of `Open`. -/
theorem run_section {b b' : Mem} {i n : Nat} {pc pc' : PC} {evs : List Ev} (hs : sect pc = some false)
    (ho : ∀ ctx, pc ≠ .openSet ctx) (hc : b.crashed = false)
    (hm : Broker.micro b i pc .go = some (b', pc', evs, none)) : Run i n b (enter pc) b' (.wEnd pc') evs := by
  have close : ∀ pc, (pc = .closing ∨ pc = .pubClose ∨ pc = .runClose) →
      Run i n b (.close1 pc) (b.close i).1 (.wEnd (.done .nil)) (b.close i).2 := by
    intro pc _
    rcases Bool.eq_false_or_eq_true b.connected with hcn | hcn
    · have h1 : Run i n b (.close1 pc) b (.close2 pc) [] := .one "" hc nofun nofun (by simp [stmt, hcn])
      cases hx : b.exit with
      | none =>
        have : b.close i = ({ b with crashed := true }, []) := by simp [Mem.close, hcn, hx]
        rw [this]
        exact h1.trans (.one "" hc nofun nofun (by simp [stmt, hx]))
      | some e =>
        rcases Bool.eq_false_or_eq_true (b.closed e) with hce | hce
        · have : b.close i = ({ b with crashed := true }, []) := by simp [Mem.close, hcn, hx, hce]
          rw [this]
          exact h1.trans (.one "" hc nofun nofun (by simp [stmt, hx, hce]))
        · have : b.close i = ({ b with
              closed := upd b.closed e true, subs := GoMap.empty, topics := clear b.subs b.topics,
              connected := false }, [.closed i]) := by simp [Mem.close, hcn, hx, hce, clear]
          rw [this]
          have h2 : Run i n b (.close2 pc) { b with closed := upd b.closed e true } .close3 [.closed i] :=
            .one "" hc nofun nofun (by simp [stmt, hx, hce])
          have h3 := run_outer i n _ { b with closed := upd b.closed e true } rfl hc
          have h4 : Run i n { b with closed := upd b.closed e true, subs := GoMap.empty, topics := clear b.subs b.topics }
              .close7 { b with
                closed := upd b.closed e true, subs := GoMap.empty, topics := clear b.subs b.topics,
                connected := false } (.wEnd (.done .nil)) [] := .one "" hc nofun nofun rfl
          exact ((h1.trans h2).trans h3).trans h4
    · have : b.close i = (b, []) := by simp [Mem.close, hcn]
      rw [this]
      exact .one "" hc nofun nofun (by simp [stmt, hcn])
  cases pc <;> simp only [sect, reduceCtorEq, Option.some.injEq] at hs
  case openSet ctx => exact (ho ctx rfl).elim
  case closing => cases hm; exact close _ (.inl rfl)
  case pubClose => cases hm; exact close _ (.inr (.inl rfl))
  case runClose => cases hm; exact close _ (.inr (.inr rfl))
  case pubGet ctx t m =>
    cases hm
    unfold Mem.queue
    cases hq : b.topics.get? t with
    | some q => exact .one "" hc nofun nofun (by simp [enter, stmt, hq])
    | none =>
      have h1 : Run i n b (.pub1 ctx t m) b (.pub2 ctx t m) [] := .one "" hc nofun nofun (by simp [stmt, hq])
      have h2 : Run i n b (.pub2 ctx t m) b (.pub3 ctx t m ⟨i, b.exit⟩) [] := .one "" hc nofun nofun rfl
      exact (h1.trans h2).trans (.one "" hc nofun nofun rfl)
  case subMake t u =>
    have h1 : Run i n b (.sub1 t u) (b.queue i t).1 (.sub4 t u (b.queue i t).2) [] := by
      unfold Mem.queue
      cases hq : b.topics.get? t with
      | some q => exact .one "" hc nofun nofun (by simp [stmt, hq])
      | none =>
        have h1 : Run i n b (.sub1 t u) b (.sub2 t u) [] := .one "" hc nofun nofun (by simp [stmt, hq])
        have h2 : Run i n b (.sub2 t u) b (.sub3 t u ⟨i, b.exit⟩) [] := .one "" hc nofun nofun rfl
        exact (h1.trans h2).trans (.one "" hc nofun nofun rfl)
    have hc' : (b.queue i t).1.crashed = false := by unfold Mem.queue; split <;> exact hc
    cases hm
    generalize hb2 : (b.queue i t).1 = b2 at *
    generalize hq2 : (b.queue i t).2 = q2 at *
    refine h1.trans (e' := []) ?_
    have h2 : Run i n b2 (.sub4 t u q2) { b2 with sub := upd b2.sub i (some ⟨u, t, true, q2, b2.ctl⟩) } (.sub5 t u) [] :=
      .one "" hc' nofun nofun rfl
    refine h2.trans (e' := []) ?_
    rcases Bool.eq_false_or_eq_true (((b2.subs.get? t).getD GoMap.empty).get? u).isNone with hx | hx
    · simp only [hx, if_true]
      have h3 : Run i n { b2 with sub := upd b2.sub i (some ⟨u, t, true, q2, b2.ctl⟩) } (.sub5 t u)
          { b2 with sub := upd b2.sub i (some ⟨u, t, true, q2, b2.ctl⟩) } (.sub6 t u) [] :=
        .one "" hc' nofun nofun (by simp only [stmt, hx, if_true])
      have h4 : Run i n { b2 with sub := upd b2.sub i (some ⟨u, t, true, q2, b2.ctl⟩) } (.sub6 t u)
          { b2 with sub := upd b2.sub i (some ⟨u, t, true, q2, b2.ctl⟩), subs := b2.subs.set t GoMap.empty } (.sub7 t u) [] :=
        .one "" hc' nofun nofun rfl
      refine (h3.trans h4).trans (e' := []) (.one "" hc' nofun nofun ?_)
      simp only [stmt, GoMap.get?_set_self, set_set]
    · simp only [hx, Bool.false_eq_true, if_false]
      have h3 : Run i n { b2 with sub := upd b2.sub i (some ⟨u, t, true, q2, b2.ctl⟩) } (.sub5 t u)
          { b2 with sub := upd b2.sub i (some ⟨u, t, true, q2, b2.ctl⟩) } (.sub7 t u) [] :=
        .one "" hc' nofun nofun (by simp only [stmt, hx, Bool.false_eq_true, if_false])
      refine h3.trans (e' := []) (.one "" hc' nofun nofun ?_)
      cases hg : b2.subs.get? t with
      | none => rw [hg] at hx; cases hx
      | some inner => simp only [stmt, hg]; rfl
  case runDel ctx t u =>
    simp only [Broker.micro] at hm
    split at hm
    · next hg => cases hm; exact .one "" hc nofun nofun (by simp [enter, stmt, hg])
    · next inner hg =>
      cases hm
      have h1 : Run i n b (.del1 ctx t u) b (.del2 ctx t u) [] := .one "" hc nofun nofun (by simp [stmt, hg])
      exact h1.trans (.one "" hc nofun nofun (by simp [stmt, hg]))

/-! ## Whole runs -/

/-- The coarse state as one of the statement-level broker: nobody is in a critical section. -/
def ofC (c : Broker.St) (w : Option Nat) : St :=
  ⟨{ c.b with ctlWas := w }, .init, fun j => (c.calls j).map .out, c.ops, c.next, c.log⟩

/-- What a coarse step consists of. -/
def Part : Broker.Act → Act → Prop
  | .call op, x => x = .call op
  | .cancel ctx, x => x = .cancel ctx
  | .step i alt, x => x = .step i alt ∨ Inside i x
  | .meet p r, x => x = .meet p r
  | .ret i, x => x = .ret i

theorem isClosed_was (b : Mem) (w e : Option Nat) : Mem.isClosed { b with ctlWas := w } e = b.isClosed e := by
  cases e <;> rfl

theorem close_was (b : Mem) (w : Option Nat) (i : Nat) :
    Mem.close { b with ctlWas := w } i = ({ (b.close i).1 with ctlWas := w }, (b.close i).2) := by
  unfold Mem.close
  dsimp only
  split
  · split
    · rfl
    · split <;> rfl
  · rfl

theorem queue_was (b : Mem) (w : Option Nat) (i : Nat) (t : String) :
    Mem.queue { b with ctlWas := w } i t = ({ (b.queue i t).1 with ctlWas := w }, (b.queue i t).2) := by
  unfold Mem.queue
  dsimp only
  split <;> rfl

theorem micro_was {b b' : Mem} {i : Nat} {pc pc' : PC} {alt : Alt} {evs : List Ev} {g : Option PC} (w : Option Nat)
    (ha : alt ≠ .stale) (ho : ∀ ctx, pc ≠ .openSet ctx) (h : Broker.micro b i pc alt = some (b', pc', evs, g)) :
    Broker.micro { b with ctlWas := w } i pc alt = some ({ b' with ctlWas := w }, pc', evs, g) := by
  cases pc <;> cases alt <;>
    simp only [Broker.micro, reduceCtorEq, isClosed_was, close_was, queue_was] at h ⊢ <;>
    first
    | exact (ho _ rfl).elim
    | exact (ha rfl).elim
    | (cases h; rfl)
    | (repeat' split at h
       all_goals first
         | (cases h; done)
         | (cases h; simp_all))

theorem map_upd (calls : Nat → Option PC) (i : Nat) (pc : PC) :
    (fun j => (upd calls i (some pc) j).map Pos.out) = upd (fun j => (calls j).map Pos.out) i (some (.out pc)) := by
  funext j
  by_cases h : j = i
  · subst h; simp [upd_self]
  · simp [upd_ne _ _ h]

theorem map_ret (calls : Nat → Option PC) (i : Nat) :
    (fun j => (upd calls i none j).map Pos.out) = upd (fun j => (calls j).map Pos.out) i none := by
  funext j
  by_cases h : j = i
  · subst h; simp [upd_self]
  · simp [upd_ne _ _ h]

/-- Entering and leaving a section under `Lock`. -/
theorem exec_section {s : St} {i : Nat} {pc pc' : PC} {b' : Mem} {evs : List Ev} (hcr : s.b.crashed = false)
    (hcr' : s.mu = .init) (hc : s.calls i = some (.out pc)) (hs : sect pc = some false)
    (hr : Run i s.next s.b (enter pc) b' (.wEnd pc') evs) (hb : b'.crashed = false) :
    ∃ acts, (∀ a ∈ acts, Inside i a) ∧ exec s acts =
      some { s with b := b', calls := upd s.calls i (some (.out pc')), log := s.log ++ evs } := by
  obtain ⟨acts, ha, he⟩ := hr.exec { s with mu := { s.mu with wr := .held } } rfl
  refine ⟨[.lock i, .lock i] ++ (acts ++ [.lock i]), ?_, ?_⟩
  · intro a h
    simp only [List.mem_append, List.mem_cons, List.not_mem_nil, or_false] at h
    rcases h with (rfl | rfl) | h | rfl
    · exact .inl rfl
    · exact .inl rfl
    · exact ha a h
    · exact .inl rfl
  · refine exec_trans (s' := { s with mu := { s.mu with wr := .held }, calls := upd s.calls i (some (enter pc)) }) ?_ ?_
    · simp [BrokerLock.exec, BrokerLock.step, hcr, hc, lock, hs, hcr', Mu.init, upd_self, upd_upd]
    · refine exec_trans he (exec_one ?_)
      simp [BrokerLock.step, hb, upd_self, lock, upd_upd, hcr', Mu.init]

/-- The section of `Open`. -/
theorem exec_open {s : St} {i ctx : Nat} (hcr : s.b.crashed = false) (hmu : s.mu = .init)
    (hc : s.calls i = some (.out (.openSet ctx))) (hi : i ≠ s.next) :
    ∃ acts, (∀ a ∈ acts, Inside i a) ∧ exec s acts =
      some { s with
        b := { s.b with connected := true, exit := some i, ctl := some i },
        calls := upd (upd s.calls i (some (.out (.done .nil)))) s.next (some (.out (.run ctx))),
        next := s.next + 1, log := s.log ++ [.opened i] } := by
  refine ⟨[.lock i, .lock i, .stmt i "", .stmt i "", .stmt i "", .stmt i "", .lock i], ?_, ?_⟩
  · intro a h
    simp only [List.mem_cons, List.not_mem_nil, or_false] at h
    rcases h with rfl | rfl | rfl | rfl | rfl | rfl | rfl
    · exact .inl rfl
    · exact .inl rfl
    · exact .inr ⟨"", rfl⟩
    · exact .inr ⟨"", rfl⟩
    · exact .inr ⟨"", rfl⟩
    · exact .inr ⟨"", rfl⟩
    · exact .inl rfl
  · simp [BrokerLock.exec, BrokerLock.step, hcr, hc, lock, sect, hmu, Mu.init, upd_self, upd_upd, enter, stmt, starts,
      claims]
    funext j
    by_cases h1 : j = i
    · subst h1; rw [upd_self, upd_ne _ _ hi, upd_self]
    · rw [upd_ne _ _ h1]
      by_cases h2 : j = s.next
      · subst h2; rw [upd_self, upd_self]
      · rw [upd_ne _ _ h2, upd_ne _ _ h2, upd_ne _ _ h1, upd_ne _ _ h1]

theorem expand {c c' : Broker.St} {a : Broker.Act} (w : Option Nat) (hst : ∀ i, a ≠ .step i .stale)
    (hnext : ∀ j, c.next ≤ j → c.calls j = none)
    (hlive : c.b.connected = true → ∃ e, c.b.exit = some e ∧ c.b.closed e = false)
    (h : Broker.step c a = some c') :
    ∃ acts, (∀ x ∈ acts, Part a x) ∧ exec (ofC c w) acts = some (ofC c' w) := by
  unfold Broker.step at h
  split at h
  · cases h
  next hcr =>
  have hcr : c.b.crashed = false := by simpa using hcr
  have hcr' : (ofC c w).b.crashed = false := hcr
  cases a with
  | call op =>
    dsimp only at h
    split at h
    · next hop =>
      cases h
      refine ⟨[.call op], by simp [Part], exec_one ?_⟩
      have hop' : (ofC c w).b.has op = true := by rw [← hop]; cases op <;> rfl
      simp only [step, hcr', hop', Bool.false_eq_true, if_false, if_true]
      simp only [ofC, map_upd]
    · cases h
  | cancel ctx =>
    cases h
    refine ⟨[.cancel ctx], by simp [Part], exec_one ?_⟩
    simp only [step, hcr', Bool.false_eq_true, if_false]
    simp only [ofC, hcr]
  | step i alt =>
    have hst : alt ≠ .stale := fun e => hst i (by rw [e])
    dsimp only at h
    split at h
    · cases h
    next pc hc =>
    have hc' : (ofC c w).calls i = some (.out pc) := by simp [ofC, hc]
    have hin : i ≠ c.next := by intro e; rw [hnext i (by omega)] at hc; cases hc
    cases hs : sect pc with
    | none =>
      have ho : ∀ ctx, pc ≠ .openSet ctx := by rintro ctx rfl; cases hs
      refine ⟨[.step i alt], fun x hx => .inl (by simpa using hx), exec_one ?_⟩
      split at h
      · cases h
      · next b' pc' evs hm =>
        cases h
        have hm' : Broker.micro (ofC c w).b i pc alt = _ := micro_was w hst ho hm
        simp only [step, hcr', hc', hs, hm', Bool.false_eq_true, if_false, if_true, hst, ne_eq, not_false_eq_true, and_self]
        simp only [ofC, map_upd]
      · next b' pc' evs g hm =>
        cases h
        have hm' : Broker.micro (ofC c w).b i pc alt = _ := micro_was w hst ho hm
        simp only [step, hcr', hc', hs, hm', Bool.false_eq_true, if_false, if_true, hst, ne_eq, not_false_eq_true, and_self]
        simp only [ofC, map_upd]
    | some rd =>
      have hgo : alt = .go := by
        cases pc <;> simp only [sect, reduceCtorEq] at hs <;> cases alt <;> first | rfl | (simp [Broker.micro] at h; done)
      subst hgo
      cases rd with
      | true =>
        have hm : Broker.micro c.b i pc .go = some (c.b, check c.b.connected pc, [], none) := by
          cases pc <;> simp only [sect, reduceCtorEq, Option.some.injEq] at hs <;> rfl
        rw [hm] at h
        cases h
        refine ⟨[.lock i, .stmt i "", .lock i], ?_, ?_⟩
        · intro x hx
          simp only [List.mem_cons, List.not_mem_nil, or_false] at hx
          rcases hx with rfl | rfl | rfl
          · exact .inr (.inl rfl)
          · exact .inr (.inr ⟨"", rfl⟩)
          · exact .inr (.inl rfl)
        · have hmu : (ofC c w).mu = .init := rfl
          simp [BrokerLock.exec, BrokerLock.step, hcr', hc', lock, hs, hmu, Mu.init, upd_self, upd_upd, stmt, starts, claims]
          simp [ofC, map_upd, Mu.init]
      | false =>
        by_cases ho : ∃ ctx, pc = .openSet ctx
        · obtain ⟨ctx, rfl⟩ := ho
          obtain ⟨acts, ha, he⟩ := exec_open (s := ofC c w) hcr' rfl hc' hin
          refine ⟨acts, fun x hx => .inr (ha x hx), ?_⟩
          rw [he]
          simp only [Broker.micro] at h
          cases h
          simp only [ofC, map_upd]
        · replace ho : ∀ ctx, pc ≠ .openSet ctx := fun ctx e => ho ⟨ctx, e⟩
          split at h
          · cases h
          · next b' pc' evs hm =>
            cases h
            have hm' : Broker.micro (ofC c w).b i pc .go = some ({ b' with ctlWas := w }, pc', evs, none) :=
              micro_was w hst ho hm
            have hb : b'.crashed = false := by
              have hcl : ∀ b1, (c.b.close i).1 = b1 → b1.crashed = false := by
                rintro b1 rfl
                unfold Mem.close
                split
                · next hcn =>
                  obtain ⟨e, h1, h2⟩ := hlive hcn
                  simp only [h1, h2, Bool.false_eq_true, if_false]; exact hcr
                · exact hcr
              have hqu : ∀ t, (c.b.queue i t).1.crashed = false := by
                intro t; unfold Mem.queue; split <;> exact hcr
              cases pc <;> simp only [sect, reduceCtorEq, Option.some.injEq] at hs
              case openSet ctx => exact (ho ctx rfl).elim
              case closing | pubClose | runClose => cases hm; exact hcl _ rfl
              case pubGet => cases hm; exact hqu _
              case subMake => cases hm; exact hqu _
              case runDel => simp only [Broker.micro] at hm; split at hm <;> cases hm <;> exact hcr
            obtain ⟨acts, ha, he⟩ := exec_section (s := ofC c w) hcr' rfl hc' hs
              (run_section hs ho hcr' hm') (by exact hb)
            refine ⟨acts, fun x hx => .inr (ha x hx), ?_⟩
            rw [he]
            simp only [ofC, map_upd]
          · next b' pc' evs g hm =>
            exfalso
            cases pc <;> simp only [sect, reduceCtorEq, Option.some.injEq] at hs
            case openSet ctx => exact ho ctx rfl
            case runDel => simp only [Broker.micro] at hm; split at hm <;> cases hm
            all_goals cases hm
  | meet p r =>
    dsimp only at h
    split at h
    · next pc pc' hp hr =>
      split at h
      · cases h
      · next pc1 pc1' evs hm =>
        cases h
        refine ⟨[.meet p r], by simp [Part], exec_one ?_⟩
        have hp' : (ofC c w).calls p = some (.out pc) := by simp [ofC, hp]
        have hr' : (ofC c w).calls r = some (.out pc') := by simp [ofC, hr]
        have hm' : Broker.meet (ofC c w).b p r pc pc' = some (pc1, pc1', evs) := by
          rw [← hm]; unfold Broker.meet; split <;> rfl
        simp only [step, hcr', hp', hr', hm', Bool.false_eq_true, if_false]
        simp only [ofC, map_upd]
    · cases h
  | ret i =>
    dsimp only at h
    split at h
    · next r hc =>
      cases h
      refine ⟨[.ret i], by simp [Part], exec_one ?_⟩
      have hc' : (ofC c w).calls i = some (.out (.done r)) := by simp [ofC, hc]
      simp only [step, hcr', hc', Bool.false_eq_true, if_false]
      simp only [ofC, map_ret]
    · cases h

theorem Reach.exec {cap : Int} {s s' : St} {acts : List Act} (h : Reach cap Any s) (he : exec s acts = some s') :
    Reach cap Any s' := by
  induction acts generalizing s with
  | nil => cases he; exact h
  | cons a as ih =>
    simp only [BrokerLock.exec] at he
    split at he
    · cases he
    · next s1 hs => exact ih (.step _ _ _ h trivial hs) he

end Netscrape.BrokerLock
