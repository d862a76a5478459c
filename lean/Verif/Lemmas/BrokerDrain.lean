import Verif.Lemmas.BrokerExpand
import Verif.Lemmas.BrokerEnd

/-!
# Whoever is in a critical section of the broker can leave it
-/

namespace Netscrape.BrokerLock
open Netscrape.Conc (upd upd_self upd_ne Mu)
open Netscrape.Broker (Mem Msg Op Ret PC Ev Alt Queue Sub Loc)

/-! ## One goroutine under `Lock` -/

/-- `i`, at `p`, gets to the end of its section without a panic. -/
def Ends (i n : Nat) (b : Mem) (p : Pos) : Prop :=
  ∃ b' pc' evs, Run i n b p b' (.wEnd pc') evs ∧ b'.crashed = false

theorem Ends.step {i n : Nat} {b b1 : Mem} {p p1 : Pos} {e : List Ev} (key : String) (hc : b.crashed = false)
    (h2 : ∀ ctx, p ≠ .open2 ctx) (h4 : ∀ ctx m, p ≠ .open4 ctx m) (h : stmt b i n key p = some (b1, p1, e))
    (hn : Ends i n b1 p1) : Ends i n b p := by
  obtain ⟨b', pc', evs, h1, h3⟩ := hn
  exact ⟨b', pc', _, .step b key p b1 p1 e b' _ evs hc h2 h4 h h1, h3⟩

theorem Ends.run {i n : Nat} {b b1 : Mem} {p p1 : Pos} {e : List Ev} (h : Run i n b p b1 p1 e)
    (hn : Ends i n b1 p1) : Ends i n b p := by
  obtain ⟨b', pc', evs, h1, h3⟩ := hn
  exact ⟨b', pc', _, h.trans h1, h3⟩

theorem Ends.here {i n : Nat} {b : Mem} {pc : PC} (h : b.crashed = false) : Ends i n b (.wEnd pc) :=
  ⟨b, pc, [], .refl _ _, h⟩

theorem ends_close3 {i n : Nat} {b : Mem} (hc : b.crashed = false) : Ends i n b .close3 :=
  .run (run_outer i n _ b rfl hc) (.step "" hc nofun nofun rfl (.here hc))

theorem ends_close6 {i n : Nat} {b : Mem} {t : String} (hc : b.crashed = false) : Ends i n b (.close6 t) :=
  .step "" hc nofun nofun rfl (ends_close3 hc)

theorem ends_close5 {i n : Nat} {b : Mem} {t : String} (hc : b.crashed = false) : Ends i n b (.close5 t) :=
  .step "" hc nofun nofun rfl (ends_close6 hc)

theorem ends_close4 {i n : Nat} {b : Mem} {t : String} (hc : b.crashed = false) (h : (b.subs.get? t).isSome = true) :
    Ends i n b (.close4 t) := by
  obtain ⟨inner, hg⟩ := Option.isSome_iff_exists.mp h
  obtain ⟨subs', h1, _, _⟩ := run_inner i n t _ b inner rfl hc hg
  exact .run h1 (ends_close5 hc)

theorem ends_close2 {i n : Nat} {b : Mem} {pc : PC} (hc : b.crashed = false)
    (h : ∃ e, b.exit = some e ∧ b.closed e = false) : Ends i n b (.close2 pc) := by
  obtain ⟨e, h1, h2⟩ := h
  refine .step (b1 := { b with closed := upd b.closed e true }) (p1 := .close3) (e := [.closed i]) "" hc nofun nofun ?_ (ends_close3 hc)
  simp [stmt, h1, h2]

theorem ends_close1 {i n : Nat} {b : Mem} {pc : PC} (hc : b.crashed = false)
    (h : b.connected = true → ∃ e, b.exit = some e ∧ b.closed e = false) : Ends i n b (.close1 pc) := by
  rcases Bool.eq_false_or_eq_true b.connected with hcn | hcn
  · refine .step (b1 := b) (e := []) (p1 := .close2 pc) "" hc nofun nofun ?_ (ends_close2 hc (h hcn))
    simp [stmt, hcn]
  · refine .step (b1 := b) (e := []) (p1 := .wEnd (.done .nil)) "" hc nofun nofun ?_ (.here hc)
    simp [stmt, hcn]

theorem ends_sub7 {i n : Nat} {b : Mem} {t u : String} (hc : b.crashed = false) {inner : GoMap String Nat}
    (h : b.subs.get? t = some inner) : Ends i n b (.sub7 t u) := by
  refine .step (b1 := { b with subs := b.subs.set t (inner.set u i) }) (p1 := .wEnd (.done .sub)) (e := []) "" hc nofun nofun ?_
    (.here hc)
  simp [stmt, h]

theorem ends_sub6 {i n : Nat} {b : Mem} {t u : String} (hc : b.crashed = false) : Ends i n b (.sub6 t u) :=
  .step "" hc nofun nofun rfl (ends_sub7 hc (GoMap.get?_set_self _ _ _))

theorem ends_sub5 {i n : Nat} {b : Mem} {t u : String} (hc : b.crashed = false) : Ends i n b (.sub5 t u) := by
  refine .step (b1 := b) (e := []) "" hc nofun nofun rfl ?_
  split
  · exact ends_sub6 hc
  · next hx =>
    cases hg : b.subs.get? t with
    | none => rw [hg] at hx; exact (hx rfl).elim
    | some inner => exact ends_sub7 hc hg

theorem ends_sub4 {i n : Nat} {b : Mem} {t u : String} {q : Queue} (hc : b.crashed = false) : Ends i n b (.sub4 t u q) :=
  .step "" hc nofun nofun rfl (ends_sub5 hc)

theorem ends_sub3 {i n : Nat} {b : Mem} {t u : String} {q : Queue} (hc : b.crashed = false) : Ends i n b (.sub3 t u q) :=
  .step "" hc nofun nofun rfl (ends_sub4 hc)

theorem ends_sub2 {i n : Nat} {b : Mem} {t u : String} (hc : b.crashed = false) : Ends i n b (.sub2 t u) :=
  .step "" hc nofun nofun rfl (ends_sub3 hc)

theorem ends_sub1 {i n : Nat} {b : Mem} {t u : String} (hc : b.crashed = false) : Ends i n b (.sub1 t u) := by
  cases hq : b.topics.get? t with
  | some q => exact .step (b1 := b) (p1 := .sub4 t u q) (e := []) "" hc nofun nofun (by simp [stmt, hq]) (ends_sub4 hc)
  | none => exact .step (b1 := b) (p1 := .sub2 t u) (e := []) "" hc nofun nofun (by simp [stmt, hq]) (ends_sub2 hc)

theorem ends_pub3 {i n : Nat} {b : Mem} {ctx : Nat} {t : String} {m : Msg} {q : Queue} (hc : b.crashed = false) :
    Ends i n b (.pub3 ctx t m q) := .step "" hc nofun nofun rfl (.here hc)

theorem ends_pub2 {i n : Nat} {b : Mem} {ctx : Nat} {t : String} {m : Msg} (hc : b.crashed = false) :
    Ends i n b (.pub2 ctx t m) := .step "" hc nofun nofun rfl (ends_pub3 hc)

theorem ends_pub1 {i n : Nat} {b : Mem} {ctx : Nat} {t : String} {m : Msg} (hc : b.crashed = false) :
    Ends i n b (.pub1 ctx t m) := by
  cases hq : b.topics.get? t with
  | some q =>
    exact .step (b1 := b) (p1 := .wEnd (.pubRead ctx q m)) (e := []) "" hc nofun nofun (by simp [stmt, hq]) (.here hc)
  | none => exact .step (b1 := b) (p1 := .pub2 ctx t m) (e := []) "" hc nofun nofun (by simp [stmt, hq]) (ends_pub2 hc)

theorem ends_del2 {i n : Nat} {b : Mem} {ctx : Nat} {t u : String} (hc : b.crashed = false) :
    Ends i n b (.del2 ctx t u) := .step "" hc nofun nofun rfl (.here hc)

theorem ends_del1 {i n : Nat} {b : Mem} {ctx : Nat} {t u : String} (hc : b.crashed = false) :
    Ends i n b (.del1 ctx t u) := by
  refine .step (b1 := b) (e := []) "" hc nofun nofun rfl ?_
  split
  · exact ends_del2 hc
  · exact .here hc

/-- Any section but the one of `Open`. -/
theorem ends_all {f : St} {c : Broker.St} {cap : Int} {i : Nat} {p : Pos} (h : Sim f c) (hr : Broker.Reach cap Broker.Any c)
    (hcr : f.b.crashed = false) (hc : f.calls i = some p) (hp : cls p = .writing)
    (h1 : ∀ ctx, p ≠ .open1 ctx) (h2 : ∀ ctx, p ≠ .open2 ctx) (h3 : ∀ ctx n, p ≠ .open3 ctx n)
    (h4 : ∀ ctx n, p ≠ .open4 ctx n) : Ends i f.next f.b p := by
  have hm := h.mid i p hc hp
  have hlive : Eqg f.b c.b → f.b.connected = true → ∃ e, f.b.exit = some e ∧ f.b.closed e = false := by
    intro he hcn
    rw [← h.exit, ← h.closed]
    exact hr.toInv.mem.live (by rw [← he.connected]; exact hcn)
  cases p with
  | out | wait | chk | rEnd => cases hp
  | open1 ctx => exact (h1 ctx rfl).elim
  | open2 ctx => exact (h2 ctx rfl).elim
  | open3 ctx n => exact (h3 ctx n rfl).elim
  | open4 ctx n => exact (h4 ctx n rfl).elim
  | close1 => exact ends_close1 hcr (hlive hm)
  | close2 => exact ends_close2 hcr (hlive hm.1 hm.2)
  | close3 => exact ends_close3 hcr
  | close4 => exact ends_close4 hcr hm.2.2.2.2
  | close5 => exact ends_close5 hcr
  | close6 => exact ends_close6 hcr
  | close7 => exact .step "" hcr nofun nofun rfl (.here hcr)
  | pub1 => exact ends_pub1 hcr
  | pub2 => exact ends_pub2 hcr
  | pub3 => exact ends_pub3 hcr
  | sub1 => exact ends_sub1 hcr
  | sub2 => exact ends_sub2 hcr
  | sub3 => exact ends_sub3 hcr
  | sub4 => exact ends_sub4 hcr
  | sub5 => exact ends_sub5 hcr
  | sub6 => exact ends_sub6 hcr
  | sub7 => obtain ⟨inner, hg, _⟩ := hm.2.2.2; exact ends_sub7 hcr hg
  | del1 => exact ends_del1 hcr
  | del2 => exact ends_del2 hcr
  | wEnd => exact .here hcr

/-! ## Whole systems -/

theorem sim_any {cap : Int} {f : St} (h : Reach cap Any f) : ∃ c, Broker.Reach cap Broker.Any c ∧ Sim f c :=
  refines (fun _ _ _ _ _ _ _ _ _ _ => trivial) h

/-- What goroutines in critical sections do. -/
def AllInside (acts : List Act) : Prop := ∀ a ∈ acts, ∃ j, Inside j a

theorem AllInside.append {as bs : List Act} (h : AllInside as) (h' : AllInside bs) : AllInside (as ++ bs) := by
  intro a ha
  rcases List.mem_append.mp ha with ha | ha
  · exact h a ha
  · exact h' a ha

/-- Get from one state to another by steps in critical sections, without a panic. -/
def Goes (f f' : St) : Prop := f'.b.crashed = false ∧ ∃ acts, AllInside acts ∧ exec f acts = some f'

theorem Goes.refl {f : St} (h : f.b.crashed = false) : Goes f f := ⟨h, [], nofun, rfl⟩

theorem Goes.trans {f f' f'' : St} (h : Goes f f') (h' : Goes f' f'') : Goes f f'' := by
  obtain ⟨_, as, h1, h2⟩ := h
  obtain ⟨h3, bs, h4, h5⟩ := h'
  exact ⟨h3, as ++ bs, h1.append h4, exec_trans h2 h5⟩

theorem Goes.one {f f' : St} {a : Act} {j : Nat} (hb : f'.b.crashed = false) (ha : Inside j a)
    (h : step f a = some f') : Goes f f' :=
  ⟨hb, [a], fun x hx => ⟨j, by rw [List.mem_singleton.mp hx]; exact ha⟩, exec_one h⟩

theorem Goes.reach {cap : Int} {f f' : St} (h : Reach cap Any f) (hg : Goes f f') : Reach cap Any f' := by
  obtain ⟨_, _, _, he⟩ := hg
  exact h.exec he

/-- Whoever holds the mutex can get to where it is about to unlock it. -/
theorem goes_end {cap : Int} {f : St} {i : Nat} {p : Pos} (h : Reach cap Any f) (hcr : f.b.crashed = false)
    (hc : f.calls i = some p) (hp : cls p = .writing) :
    ∃ f' pc, Goes f f' ∧ f'.mu = f.mu ∧ f'.calls i = some (.wEnd pc) := by
  obtain ⟨c, hrc, hsim⟩ := sim_any h
  have self : ∀ {i : Nat} {p : Pos}, f.calls i = some p → { f with calls := upd f.calls i (some p) } = f := by
    intro i p hc
    rw [upd_same _ _ _ hc]
  have s4 : ∀ (f : St) (ctx n : Nat), f.b.crashed = false → f.calls i = some (.open4 ctx n) →
      ∃ f', Goes f f' ∧ f'.mu = f.mu ∧ f'.calls i = some (.wEnd (.done .nil)) := by
    intro f ctx n hcr hc
    refine ⟨_, .one (a := .stmt i "") (j := i) (f' := { f with
        calls := upd (upd f.calls n (some (.out (.run ctx)))) i (some (.wEnd (.done .nil))) }) hcr (.inr ⟨_, rfl⟩) ?_, rfl, ?_⟩
    · simp [step, hcr, hc, stmt, starts, claims]
    · exact upd_self _ _ _
  have s3 : ∀ (f : St) (ctx n : Nat), f.b.crashed = false → f.calls i = some (.open3 ctx n) →
      ∃ f', Goes f f' ∧ f'.mu = f.mu ∧ f'.calls i = some (.wEnd (.done .nil)) := by
    intro f ctx n hcr hc
    obtain ⟨f', h1, h2, h3⟩ := s4 { f with b := { f.b with ctl := some i }, calls := upd f.calls i (some (.open4 ctx n)) }
      ctx n hcr (upd_self _ _ _)
    refine ⟨f', .trans (.one (f := f) (a := .stmt i "") (j := i) (by exact hcr) (.inr ⟨_, rfl⟩) ?_) h1, h2, h3⟩
    simp [step, hcr, hc, stmt, starts, claims]
  have s2 : ∀ (f : St) (ctx : Nat), f.b.crashed = false → f.calls i = some (.open2 ctx) →
      ∃ f', Goes f f' ∧ f'.mu = f.mu ∧ f'.calls i = some (.wEnd (.done .nil)) := by
    intro f ctx hcr hc
    obtain ⟨f', h1, h2, h3⟩ := s3 { f with
        b := { f.b with exit := some i }, calls := upd f.calls i (some (.open3 ctx f.next)), next := f.next + 1,
        log := f.log ++ [.opened i] } ctx f.next hcr (upd_self _ _ _)
    refine ⟨f', .trans (.one (f := f) (a := .stmt i "") (j := i) (by exact hcr) (.inr ⟨_, rfl⟩) ?_) h1, h2, h3⟩
    simp [step, hcr, hc, stmt, starts, claims]
  have s1 : ∀ (f : St) (ctx : Nat), f.b.crashed = false → f.calls i = some (.open1 ctx) →
      ∃ f', Goes f f' ∧ f'.mu = f.mu ∧ f'.calls i = some (.wEnd (.done .nil)) := by
    intro f ctx hcr hc
    obtain ⟨f', h1, h2, h3⟩ := s2 { f with b := { f.b with connected := true }, calls := upd f.calls i (some (.open2 ctx)) }
      ctx hcr (upd_self _ _ _)
    refine ⟨f', .trans (.one (f := f) (a := .stmt i "") (j := i) (by exact hcr) (.inr ⟨_, rfl⟩) ?_) h1, h2, h3⟩
    simp [step, hcr, hc, stmt, starts, claims]
  by_cases h1 : ∃ ctx, p = .open1 ctx
  · obtain ⟨ctx, rfl⟩ := h1
    obtain ⟨f', h⟩ := s1 f ctx hcr hc; exact ⟨f', _, h⟩
  by_cases h2 : ∃ ctx, p = .open2 ctx
  · obtain ⟨ctx, rfl⟩ := h2
    obtain ⟨f', h⟩ := s2 f ctx hcr hc; exact ⟨f', _, h⟩
  by_cases h3 : ∃ ctx n, p = .open3 ctx n
  · obtain ⟨ctx, n, rfl⟩ := h3
    obtain ⟨f', h⟩ := s3 f ctx n hcr hc; exact ⟨f', _, h⟩
  by_cases h4 : ∃ ctx n, p = .open4 ctx n
  · obtain ⟨ctx, n, rfl⟩ := h4
    obtain ⟨f', h⟩ := s4 f ctx n hcr hc; exact ⟨f', _, h⟩
  obtain ⟨b', pc', evs, hrun, hb⟩ := ends_all hsim hrc hcr hc hp (fun ctx e => h1 ⟨ctx, e⟩) (fun ctx e => h2 ⟨ctx, e⟩)
    (fun ctx n e => h3 ⟨ctx, n, e⟩) (fun ctx n e => h4 ⟨ctx, n, e⟩)
  obtain ⟨acts, ha, he⟩ := hrun.exec f rfl
  have hself := self hc
  rw [show ({ f with b := f.b, calls := upd f.calls i (some p) } : St) = f from hself] at he
  exact ⟨_, pc', ⟨hb, acts, fun a hx => ⟨i, ha a hx⟩, he⟩, rfl, upd_self _ _ _⟩

/-- Nobody holds, waits for, or has asked for the mutex. -/
structure Idle (f : St) : Prop where
  mu : f.mu = .init
  out : ∀ j p, f.calls j = some p → ∃ pc, p = .out pc

theorem idle_of {f : St} (h : LockInv f) (hr : f.mu.readers = 0) (hw : f.mu.wr = .free) : Idle f := by
  constructor
  · have : f.mu = ⟨f.mu.readers, f.mu.wr⟩ := rfl
    rw [this, hr, hw]; rfl
  · intro j p hp
    have h1 := h.lock.free hw j
    have h2 : clsAt f.calls j ≠ .reading := by
      obtain ⟨R, _, hlen, hR⟩ := h.lock.readers
      intro e
      have := (hR j).mpr e
      rw [hr] at hlen
      rw [List.length_eq_zero_iff.mp hlen] at this
      cases this
    rw [clsAt_some hp] at h1 h2
    cases p <;> first | exact ⟨_, rfl⟩ | exact (h1.1 rfl).elim | exact (h1.2 rfl).elim | exact (h2 rfl).elim

theorem drain_held {cap : Int} {f : St} (h : Reach cap Any f) (hcr : f.b.crashed = false) (hw : f.mu.wr = .held) :
    ∃ f', Goes f f' ∧ Idle f' := by
  obtain ⟨i, hi⟩ := h.inv.lock.holder hw
  have hr := (h.inv.lock.held hw).1
  unfold clsAt at hi
  split at hi
  · cases hi
  next p hp =>
  obtain ⟨f', pc, h1, h2, h3⟩ := goes_end h hcr hp hi
  have h4 : Goes f' { f' with mu := { f'.mu with wr := .free }, calls := upd f'.calls i (some (.out pc)) } := by
    refine .one (a := .lock i) (j := i) h1.1 (.inl rfl) ?_
    simp [step, h1.1, h3, lock]
  have h5 := h1.trans h4
  exact ⟨_, h5, idle_of (h5.reach h).inv (by dsimp only; rw [h2]; exact hr) rfl⟩

theorem drain_readers {cap : Int} : ∀ (n : Nat) {f : St}, Reach cap Any f → f.b.crashed = false → f.mu.readers = n →
    ∃ f', Goes f f' ∧ f'.mu.readers = 0 ∧ f'.mu.wr = f.mu.wr
  | 0, f, _, hcr, hn => ⟨f, .refl hcr, hn, rfl⟩
  | n + 1, f, h, hcr, hn => by
    obtain ⟨R, _, hlen, hR⟩ := h.inv.lock.readers
    rw [hn] at hlen
    obtain ⟨i, hi⟩ := List.exists_mem_of_length_pos (l := R) (by omega)
    have hi := (hR i).mp hi
    unfold clsAt at hi
    split at hi
    · cases hi
    next p hp =>
    have leave : ∀ (g : St) (pc : PC), g.b.crashed = false → g.mu = f.mu → g.calls i = some (.rEnd pc) →
        Goes g { g with mu := { g.mu with readers := g.mu.readers - 1 }, calls := upd g.calls i (some (.out pc)) } := by
      intro g pc hg _ hc
      refine .one (a := .lock i) (j := i) hg (.inl rfl) ?_
      simp [step, hg, hc, lock]
    have fin : ∃ f', Goes f f' ∧ f'.mu.readers = n ∧ f'.mu.wr = f.mu.wr := by
      cases p <;> try cases hi
      case chk pc =>
        have h1 : Goes f { f with calls := upd f.calls i (some (.rEnd (check f.b.connected pc))) } := by
          refine .one (a := .stmt i "") (j := i) hcr (.inr ⟨_, rfl⟩) ?_
          simp [step, hcr, hp, stmt, starts, claims]
        have h2 := leave { f with calls := upd f.calls i (some (.rEnd (check f.b.connected pc))) } _ hcr rfl (upd_self _ _ _)
        exact ⟨_, h1.trans h2, by dsimp only; omega, rfl⟩
      case rEnd pc => exact ⟨_, leave f pc hcr rfl hp, by dsimp only; omega, rfl⟩
    obtain ⟨f1, h1, h2, h3⟩ := fin
    obtain ⟨f2, h4, h5, h6⟩ := drain_readers n (h1.reach h) h1.1 h2
    exact ⟨f2, h1.trans h4, h5, by rw [h6, h3]⟩

theorem drain {cap : Int} {f : St} (h : Reach cap Any f) (hcr : f.b.crashed = false) : ∃ f', Goes f f' ∧ Idle f' := by
  obtain ⟨f1, h1, h2, h3⟩ := drain_readers _ h hcr rfl
  have hr1 := h1.reach h
  cases hw : f1.mu.wr with
  | free => exact ⟨f1, h1, idle_of hr1.inv h2 hw⟩
  | held =>
    obtain ⟨f2, h4, h5⟩ := drain_held hr1 h1.1 hw
    exact ⟨f2, h1.trans h4, h5⟩
  | announced =>
    obtain ⟨i, hi⟩ := hr1.inv.lock.announcer hw
    unfold clsAt at hi
    split at hi
    · cases hi
    next p hp =>
    cases p <;> try cases hi
    case wait pc =>
      have h4 : Goes f1 { f1 with mu := { f1.mu with wr := .held }, calls := upd f1.calls i (some (enter pc)) } := by
        refine .one (a := .lock i) (j := i) h1.1 (.inl rfl) ?_
        simp [step, h1.1, hp, lock, h2]
      obtain ⟨f2, h5, h6⟩ := drain_held (h4.reach hr1) h1.1 rfl
      exact ⟨f2, (h1.trans h4).trans h5, h6⟩

end Netscrape.BrokerLock
