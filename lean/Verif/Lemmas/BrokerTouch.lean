import Verif.Spec.BrokerLock
import Verif.Lemmas.BrokerLock

/-!
# Steps of the statement-level broker depend on and change the listed fields only
-/

namespace Netscrape.BrokerLock
open Netscrape.Conc (upd upd_self upd_ne Mu)
open Netscrape.Broker (Mem Msg Op Ret PC Ev Alt Queue Sub Loc)
open Netscrape.Spec.BrokerLock

theorem rest_some {b b2 : Mem} (h : SameRest b b2) {x : Nat} {o : Sub} (hx : b.sub x = some o) :
    ∃ o2, b2.sub x = some o2 ∧ o2.id = o.id ∧ o2.topic = o.topic ∧ o2.queue = o.queue ∧ o2.ctl = o.ctl := by
  have := h.sub x
  rw [hx] at this
  cases h2 : b2.sub x with
  | none => rw [h2] at this; cases this
  | some o2 => rw [h2] at this; simp at this; exact ⟨o2, rfl, this.1.symm, this.2.1.symm, this.2.2.1.symm, this.2.2.2.symm⟩

theorem rest_none {b b2 : Mem} (h : SameRest b b2) {x : Nat} (hx : b.sub x = none) : b2.sub x = none := by
  have := h.sub x
  rw [hx] at this
  cases h2 : b2.sub x with
  | none => rfl
  | some o2 => rw [h2] at this; cases this

theorem rest_isClosed {b b2 : Mem} (h : SameRest b b2) (e : Option Nat) : b.isClosed e = b2.isClosed e := by
  cases e with
  | none => rfl
  | some e => exact congrFun h.closed e

/-- A statement of a critical section. -/
theorem stmt_touch {b b2 b' : Mem} {i n : Nat} {key : String} {p p' : Pos} {evs : List Ev}
    (h : stmt b i n key p = some (b', p', evs)) (hr : SameRest b b2) (hs : ∀ l w, (l, w) ∈ touches p → Same b b2 l) :
    ∃ b2', stmt b2 i n key p = some (b2', p', evs) ∧ SameRest b' b2' ∧
      (∀ l w, (l, w) ∈ touches p → Same b' b2' l) ∧
      (∀ l, (l, true) ∉ touches p → l ≠ .active i → Same b b' l ∧ Same b2 b2' l) := by
  have hcl := hr.closed
  have nil : ∀ {b : Mem} (l : Loc), Same b b l := by intro b l; cases l <;> rfl
  have refl : ∀ {b b2 : Mem}, (∀ l, l ≠ .active i → Same b b l ∧ Same b2 b2 l) := fun l _ => ⟨nil l, nil l⟩
  cases p <;> simp only [stmt, reduceCtorEq] at h
  case chk pc =>
    cases h
    have := hs .connected false (by simp [touches])
    refine ⟨b2, ?_, hr, hs, fun l _ => refl l⟩
    simp only [stmt]; rw [show b2.connected = b.connected from this.symm]
  case open1 =>
    cases h
    refine ⟨_, rfl, ⟨hr.1, hr.2, hr.3, hr.4, hr.5, hr.6, hr.7⟩, ?_, ?_⟩
    · simp only [touches, List.mem_singleton, Prod.mk.injEq]; rintro l w ⟨rfl, _⟩; rfl
    · intro l hl _; cases l <;> first | exact ⟨rfl, rfl⟩ | (simp [touches] at hl)
  case open2 =>
    cases h
    refine ⟨_, rfl, ⟨hr.1, hr.2, hr.3, hr.4, hr.5, hr.6, hr.7⟩, ?_, ?_⟩
    · simp only [touches, List.mem_singleton, Prod.mk.injEq]; rintro l w ⟨rfl, _⟩; rfl
    · intro l hl _; cases l <;> first | exact ⟨rfl, rfl⟩ | (simp [touches] at hl)
  case open3 =>
    cases h
    refine ⟨_, rfl, ⟨hr.1, hr.2, hr.3, hr.4, hr.5, hr.6, hr.7⟩, ?_, ?_⟩
    · simp only [touches, List.mem_singleton, Prod.mk.injEq]; rintro l w ⟨rfl, _⟩; rfl
    · intro l hl _; cases l <;> first | exact ⟨rfl, rfl⟩ | (simp [touches] at hl)
  case open4 => cases h; exact ⟨_, rfl, hr, hs, fun l _ => refl l⟩
  case close1 =>
    cases h
    have := hs .connected false (by simp [touches])
    refine ⟨b2, ?_, hr, hs, fun l _ => refl l⟩
    simp only [stmt]; rw [show b2.connected = b.connected from this.symm]
  case close2 pc =>
    have hx : b.exit = b2.exit := hs .exit false (by simp [touches])
    split at h
    · next hn =>
      cases h
      refine ⟨{ b2 with crashed := true }, ?_, ⟨hr.1, hr.2, hr.3, hr.4, hr.5, rfl, hr.7⟩, ?_, ?_⟩
      · simp only [stmt, ← hx, hn]
      · simp only [touches, List.mem_singleton, Prod.mk.injEq]; rintro l w ⟨rfl, _⟩; exact hx
      · intro l hl _; cases l <;> exact ⟨rfl, rfl⟩
    · next e he =>
      split at h
      · next hce =>
        cases h
        refine ⟨{ b2 with crashed := true }, ?_, ⟨hr.1, hr.2, hr.3, hr.4, hr.5, rfl, hr.7⟩, ?_, ?_⟩
        · simp only [stmt, ← hx, he, ← hcl, hce, if_true]
        · simp only [touches, List.mem_singleton, Prod.mk.injEq]; rintro l w ⟨rfl, _⟩; exact hx
        · intro l hl _; cases l <;> exact ⟨rfl, rfl⟩
      · next hce =>
        cases h
        refine ⟨{ b2 with closed := upd b2.closed e true }, ?_, ⟨hr.1, by dsimp only; rw [hr.2], hr.3, hr.4, hr.5, hr.6, hr.7⟩, ?_, ?_⟩
        · have hce : b2.closed e = false := by rw [← hcl]; simpa using hce
          simp [stmt, ← hx, he, hce]
        · simp only [touches, List.mem_singleton, Prod.mk.injEq]; rintro l w ⟨rfl, _⟩; exact hx
        · intro l hl _; cases l <;> exact ⟨rfl, rfl⟩
  case close3 =>
    have hx : b.subs = b2.subs := hs .subs false (by simp [touches])
    split at h
    · next he => cases h; exact ⟨b2, by simp [stmt, ← hx, he], hr, hs, fun l _ => refl l⟩
    · next he =>
      split at h
      · next hk => cases h; exact ⟨b2, by simp [stmt, ← hx, he, hk], hr, hs, fun l _ => refl l⟩
      · cases h
  case close4 t =>
    have hx : b.subs = b2.subs := hs .subs true (by simp [touches])
    have keep : Same b b2 .subs := hx
    split at h
    · next hn =>
      cases h
      exact ⟨b2, by simp [stmt, ← hx, hn], hr, hs, fun l _ => refl l⟩
    · next inner hg =>
      split at h
      · next he => cases h; exact ⟨b2, by simp [stmt, ← hx, hg, he], hr, hs, fun l _ => refl l⟩
      · next he =>
        split at h
        · next hk =>
          cases h
          refine ⟨{ b2 with subs := b2.subs.set t (inner.del key) }, by simp [stmt, ← hx, hg, he, hk],
            ⟨hr.1, hr.2, hr.3, hr.4, hr.5, hr.6, hr.7⟩, ?_, ?_⟩
          · simp only [touches, List.mem_singleton, Prod.mk.injEq]; rintro l w ⟨rfl, _⟩; simp [Same, hx]
          · intro l hl _; cases l <;> first | exact ⟨rfl, rfl⟩ | (simp [touches] at hl)
        · cases h
  case close5 t =>
    have hx : b.subs = b2.subs := hs .subs true (by simp [touches])
    cases h
    refine ⟨_, rfl, ⟨hr.1, hr.2, hr.3, hr.4, hr.5, hr.6, hr.7⟩, ?_, ?_⟩
    · simp only [touches, List.mem_singleton, Prod.mk.injEq]; rintro l w ⟨rfl, _⟩; simp [Same, hx]
    · intro l hl _; cases l <;> first | exact ⟨rfl, rfl⟩ | (simp [touches] at hl)
  case close6 t =>
    have hx : b.topics = b2.topics := hs .topics true (by simp [touches])
    cases h
    refine ⟨_, rfl, ⟨hr.1, hr.2, hr.3, hr.4, hr.5, hr.6, hr.7⟩, ?_, ?_⟩
    · simp only [touches, List.mem_singleton, Prod.mk.injEq]; rintro l w ⟨rfl, _⟩; simp [Same, hx]
    · intro l hl _; cases l <;> first | exact ⟨rfl, rfl⟩ | (simp [touches] at hl)
  case close7 =>
    cases h
    refine ⟨_, rfl, ⟨hr.1, hr.2, hr.3, hr.4, hr.5, hr.6, hr.7⟩, ?_, ?_⟩
    · simp only [touches, List.mem_singleton, Prod.mk.injEq]; rintro l w ⟨rfl, _⟩; rfl
    · intro l hl _; cases l <;> first | exact ⟨rfl, rfl⟩ | (simp [touches] at hl)
  case pub1 ctx t m =>
    have hx : b.topics = b2.topics := hs .topics false (by simp [touches])
    split at h
    · next q hq => cases h; exact ⟨b2, by simp [stmt, ← hx, hq], hr, hs, fun l _ => refl l⟩
    · next hq => cases h; exact ⟨b2, by simp [stmt, ← hx, hq], hr, hs, fun l _ => refl l⟩
  case pub2 ctx t m =>
    have hx : b.exit = b2.exit := hs .exit false (by simp [touches])
    cases h; exact ⟨b2, by simp [stmt, ← hx], hr, hs, fun l _ => refl l⟩
  case pub3 ctx t m q =>
    have hx : b.topics = b2.topics := hs .topics true (by simp [touches])
    cases h
    refine ⟨_, rfl, ⟨hr.1, hr.2, hr.3, hr.4, hr.5, hr.6, hr.7⟩, ?_, ?_⟩
    · simp only [touches, List.mem_singleton, Prod.mk.injEq]; rintro l w ⟨rfl, _⟩; simp [Same, hx]
    · intro l hl _; cases l <;> first | exact ⟨rfl, rfl⟩ | (simp [touches] at hl)
  case sub1 t u =>
    have hx : b.topics = b2.topics := hs .topics false (by simp [touches])
    split at h
    · next q hq => cases h; exact ⟨b2, by simp [stmt, ← hx, hq], hr, hs, fun l _ => refl l⟩
    · next hq => cases h; exact ⟨b2, by simp [stmt, ← hx, hq], hr, hs, fun l _ => refl l⟩
  case sub2 t u =>
    have hx : b.exit = b2.exit := hs .exit false (by simp [touches])
    cases h; exact ⟨b2, by simp [stmt, ← hx], hr, hs, fun l _ => refl l⟩
  case sub3 t u q =>
    have hx : b.topics = b2.topics := hs .topics true (by simp [touches])
    cases h
    refine ⟨_, rfl, ⟨hr.1, hr.2, hr.3, hr.4, hr.5, hr.6, hr.7⟩, ?_, ?_⟩
    · simp only [touches, List.mem_singleton, Prod.mk.injEq]; rintro l w ⟨rfl, _⟩; simp [Same, hx]
    · intro l hl _; cases l <;> first | exact ⟨rfl, rfl⟩ | (simp [touches] at hl)
  case sub4 t u q =>
    have hx : b.ctl = b2.ctl := hs .ctl false (by simp [touches])
    cases h
    refine ⟨_, rfl, ⟨hr.1, hr.2, hr.3, hr.4, hr.5, hr.6, ?_⟩, ?_, ?_⟩
    · intro x
      dsimp only
      by_cases hxi : x = i
      · subst hxi; rw [upd_self, upd_self]; simp [hx]
      · rw [upd_ne _ _ hxi, upd_ne _ _ hxi]; exact hr.7 x
    · simp only [touches, List.mem_singleton, Prod.mk.injEq]; rintro l w ⟨rfl, _⟩; exact hx
    · intro l _ hl
      cases l with
      | active x =>
        have hxi : x ≠ i := by rintro rfl; exact hl rfl
        dsimp only [Same]
        rw [upd_ne _ _ hxi, upd_ne _ _ hxi]; exact ⟨rfl, rfl⟩
      | _ => exact ⟨rfl, rfl⟩
  case sub5 t u =>
    have hx : b.subs = b2.subs := hs .subs false (by simp [touches])
    cases h; exact ⟨b2, by simp [stmt, ← hx], hr, hs, fun l _ => refl l⟩
  case sub6 t u =>
    have hx : b.subs = b2.subs := hs .subs true (by simp [touches])
    cases h
    refine ⟨_, rfl, ⟨hr.1, hr.2, hr.3, hr.4, hr.5, hr.6, hr.7⟩, ?_, ?_⟩
    · simp only [touches, List.mem_singleton, Prod.mk.injEq]; rintro l w ⟨rfl, _⟩; simp [Same, hx]
    · intro l hl _; cases l <;> first | exact ⟨rfl, rfl⟩ | (simp [touches] at hl)
  case sub7 t u =>
    have hx : b.subs = b2.subs := hs .subs true (by simp [touches])
    split at h
    · next hn =>
      cases h
      refine ⟨{ b2 with crashed := true }, by simp [stmt, ← hx, hn], ⟨hr.1, hr.2, hr.3, hr.4, hr.5, rfl, hr.7⟩, ?_, ?_⟩
      · simp only [touches, List.mem_singleton, Prod.mk.injEq]; rintro l w ⟨rfl, _⟩; exact hx
      · intro l hl _; cases l <;> exact ⟨rfl, rfl⟩
    · next inner hg =>
      cases h
      refine ⟨{ b2 with subs := b2.subs.set t (inner.set u i) }, by simp [stmt, ← hx, hg],
        ⟨hr.1, hr.2, hr.3, hr.4, hr.5, hr.6, hr.7⟩, ?_, ?_⟩
      · simp only [touches, List.mem_singleton, Prod.mk.injEq]; rintro l w ⟨rfl, _⟩; simp [Same, hx]
      · intro l hl _; cases l <;> first | exact ⟨rfl, rfl⟩ | (simp [touches] at hl)
  case del1 ctx t u =>
    have hx : b.subs = b2.subs := hs .subs false (by simp [touches])
    cases h; exact ⟨b2, by simp [stmt, ← hx], hr, hs, fun l _ => refl l⟩
  case del2 ctx t u =>
    have hx : b.subs = b2.subs := hs .subs true (by simp [touches])
    cases h
    refine ⟨_, rfl, ⟨hr.1, hr.2, hr.3, hr.4, hr.5, hr.6, hr.7⟩, ?_, ?_⟩
    · simp only [touches, List.mem_singleton, Prod.mk.injEq]; rintro l w ⟨rfl, _⟩; simp [Same, hx]
    · intro l hl _; cases l <;> first | exact ⟨rfl, rfl⟩ | (simp [touches] at hl)

/-- A step outside of critical sections. -/
theorem micro_touch {b b2 b' : Mem} {i : Nat} {alt : Alt} {pc pc' : PC} {evs : List Ev} {g : Option PC}
    (h : Broker.micro b i pc alt = some (b', pc', evs, g)) (hn : sect pc = none) (ha : alt ≠ .stale)
    (hr : SameRest b b2) (hs : ∀ l w, (l, w) ∈ touches (.out pc) → Same b b2 l) :
    ∃ b2', Broker.micro b2 i pc alt = some (b2', pc', evs, g) ∧ SameRest b' b2' ∧
      (∀ l w, (l, w) ∈ touches (.out pc) → Same b' b2' l) ∧
      (∀ l, (l, true) ∉ touches (.out pc) → Same b b' l ∧ Same b2 b2' l) := by
  have hcl := hr.closed
  have nil : ∀ {b : Mem} (l : Loc), Same b b l := by intro b l; cases l <;> rfl
  have refl : ∀ {b b2 : Mem}, (∀ l, Same b b l ∧ Same b2 b2 l) := fun l => ⟨nil l, nil l⟩
  have hic := rest_isClosed hr
  cases pc <;> cases alt <;> simp only [Broker.micro, reduceCtorEq, sect, ne_eq, not_true, not_false_eq_true] at h hn ha
  case pubRead.go ctx q m =>
    have hx : b.exit = b2.exit := hs .exit false (by simp [touches])
    cases h; exact ⟨b2, by simp [Broker.micro, ← hx], hr, hs, fun l _ => refl l⟩
  case pubSel.ctx =>
    split at h
    · next hd => cases h; exact ⟨b2, by simp [Broker.micro, ← hr.done, hd], hr, hs, fun l _ => refl l⟩
    · cases h
  case pubSel.exit =>
    split at h
    · next hd => cases h; exact ⟨b2, by simp [Broker.micro, ← hic, hd], hr, hs, fun l _ => refl l⟩
    · cases h
  case pubSel.timeout => cases h; exact ⟨b2, rfl, hr, hs, fun l _ => refl l⟩
  case pubSel.msg ctx q e m =>
    split at h
    · next hd =>
      cases h
      refine ⟨{ b2 with buf := upd b2.buf q.msg (b2.buf q.msg ++ [(i, m)]) }, by simp only [Broker.micro, ← hr.buf, ← hr.size, hd, if_true],
        ⟨hr.1, hr.2, by dsimp only; rw [hr.3], hr.4, hr.5, hr.6, hr.7⟩, ?_, ?_⟩
      · intro l w hl; cases hl
      · intro l _; cases l <;> exact ⟨rfl, rfl⟩
    · cases h
  case recvChk.go ctx x =>
    split at h
    · cases h
    · next o ho =>
      obtain ⟨o2, h2, h3, h4, h5, h6⟩ := rest_some hr ho
      have hx : (b.sub x).map Sub.active = (b2.sub x).map Sub.active := hs (.active x) false (by simp [touches])
      rw [ho, h2] at hx
      have hx : o.active = o2.active := by simpa using hx
      cases h; exact ⟨b2, by simp [Broker.micro, h2, hx], hr, hs, fun l _ => refl l⟩
  case recvSel.ctx =>
    split at h
    · next hd => cases h; exact ⟨b2, by simp [Broker.micro, ← hr.done, hd], hr, hs, fun l _ => refl l⟩
    · cases h
  case recvSel.timeout => cases h; exact ⟨b2, rfl, hr, hs, fun l _ => refl l⟩
  case recvSel.exit ctx x =>
    split at h
    · cases h
    · next o ho =>
      obtain ⟨o2, h2, h3, h4, h5, h6⟩ := rest_some hr ho
      split at h
      · next hd => cases h; exact ⟨b2, by simp [Broker.micro, ← hic, h2, h5, hd], hr, hs, fun l _ => refl l⟩
      · cases h
  case recvSel.unsub ctx x =>
    split at h
    · next hd => cases h; exact ⟨b2, by simp [Broker.micro, ← hcl, hd], hr, hs, fun l _ => refl l⟩
    · cases h
  case recvSel.msg ctx x =>
    split at h
    · cases h
    · next o ho =>
      obtain ⟨o2, h2, h3, h4, h5, h6⟩ := rest_some hr ho
      split at h
      · cases h
      · next p m r hb =>
        cases h
        refine ⟨{ b2 with buf := upd b2.buf o2.queue.msg r }, by simp [Broker.micro, ← hr.buf, h2, h5, hb],
          ⟨hr.1, hr.2, by dsimp only; rw [hr.3, h5], hr.4, hr.5, hr.6, hr.7⟩, ?_, ?_⟩
        · intro l w hl; cases hl
        · intro l _; cases l <;> exact ⟨rfl, rfl⟩
  case recvDrop.go x =>
    split at h
    · cases h
    · next o ho =>
      obtain ⟨o2, h2, h3, h4, h5, h6⟩ := rest_some hr ho
      split at h
      · next hb =>
        cases h; exact ⟨b2, by simp [Broker.micro, ← hr.buf, h2, h5, hb], hr, hs, fun l _ => refl l⟩
      · next p m r hb =>
        cases h
        refine ⟨{ b2 with buf := upd b2.buf o2.queue.msg r }, by simp [Broker.micro, ← hr.buf, h2, h5, hb],
          ⟨hr.1, hr.2, by dsimp only; rw [hr.3, h5], hr.4, hr.5, hr.6, hr.7⟩, ?_, ?_⟩
        · intro l w hl; cases hl
        · intro l _; cases l <;> exact ⟨rfl, rfl⟩
  case handling.result => cases h; exact ⟨b2, rfl, hr, hs, fun l _ => refl l⟩
  case unsubChk.go x =>
    split at h
    · cases h
    · next o ho =>
      obtain ⟨o2, h2, h3, h4, h5, h6⟩ := rest_some hr ho
      have hx : (b.sub x).map Sub.active = (b2.sub x).map Sub.active := hs (.active x) false (by simp [touches])
      rw [ho, h2] at hx
      have hx : o.active = o2.active := by simpa using hx
      cases h; exact ⟨b2, by simp [Broker.micro, h2, hx], hr, hs, fun l _ => refl l⟩
  case unsubClose.go x =>
    split at h
    · next hd =>
      cases h
      refine ⟨{ b2 with crashed := true }, by simp [Broker.micro, ← hcl, hd], ⟨hr.1, hr.2, hr.3, hr.4, hr.5, rfl, hr.7⟩, ?_, ?_⟩
      · intro l w hl; cases hl
      · intro l _; cases l <;> exact ⟨rfl, rfl⟩
    · next hd =>
      cases h
      refine ⟨{ b2 with closed := upd b2.closed x true }, ?_, ⟨hr.1, by dsimp only; rw [hr.2], hr.3, hr.4, hr.5, hr.6, hr.7⟩, ?_, ?_⟩
      · have hd : b2.closed x = false := by rw [← hcl]; simpa using hd
        simp [Broker.micro, hd]
      · intro l w hl; cases hl
      · intro l _; cases l <;> exact ⟨rfl, rfl⟩
  case unsubSet.go x =>
    split at h
    · cases h
    · next o ho =>
      obtain ⟨o2, h2, h3, h4, h5, h6⟩ := rest_some hr ho
      cases h
      refine ⟨{ b2 with sub := upd b2.sub x (some { o2 with active := false }) }, by simp [Broker.micro, h2],
        ⟨hr.1, hr.2, hr.3, hr.4, hr.5, hr.6, ?_⟩, ?_, ?_⟩
      · intro y
        dsimp only
        by_cases hy : y = x
        · subst hy; rw [upd_self, upd_self]; simp [h3, h4, h5, h6]
        · rw [upd_ne _ _ hy, upd_ne _ _ hy]; exact hr.7 y
      · simp only [touches, List.mem_singleton, Prod.mk.injEq]; rintro l w ⟨rfl, _⟩
        simp only [Same, upd_self, Option.map]
      · intro l hl
        cases l with
        | active y =>
          have hy : y ≠ x := by rintro rfl; exact hl (by simp [touches])
          dsimp only [Same]
          rw [upd_ne _ _ hy, upd_ne _ _ hy]; exact ⟨rfl, rfl⟩
        | _ => exact ⟨rfl, rfl⟩
  case unsubGo.go => cases h; exact ⟨b2, rfl, hr, hs, fun l _ => refl l⟩
  case notify.msg x =>
    split at h
    · cases h
    · next o ho =>
      obtain ⟨o2, h2, h3, h4, h5, h6⟩ := rest_some hr ho
      split at h
      · cases h
      · next c hc =>
        split at h
        · next hd =>
          cases h
          refine ⟨{ b2 with ctlBuf := upd b2.ctlBuf c (b2.ctlBuf c ++ [(o2.id, o2.topic)]) }, ?_,
            ⟨hr.1, hr.2, hr.3, by dsimp only; rw [hr.4, h3, h4], hr.5, hr.6, hr.7⟩, ?_, ?_⟩
          · rw [hr.ctlBuf] at hd
            simp [Broker.micro, h2, h6, hc, hd]
          · intro l w hl; cases hl
          · intro l _; cases l <;> exact ⟨rfl, rfl⟩
        · cases h
  case notify.exit x =>
    split at h
    · cases h
    · next o ho =>
      obtain ⟨o2, h2, h3, h4, h5, h6⟩ := rest_some hr ho
      split at h
      · next hd => cases h; exact ⟨b2, by simp [Broker.micro, ← hic, h2, h5, hd], hr, hs, fun l _ => refl l⟩
      · cases h
  case run.go =>
    have hx : b.exit = b2.exit := hs .exit false (by simp [touches])
    cases h; exact ⟨b2, by simp [Broker.micro, ← hx], hr, hs, fun l _ => refl l⟩
  case runCtl.go =>
    have hx : b.ctl = b2.ctl := hs .ctl false (by simp [touches])
    cases h; exact ⟨b2, by simp [Broker.micro, ← hx], hr, hs, fun l _ => refl l⟩
  case runSel.ctx =>
    split at h
    · next hd => cases h; exact ⟨b2, by simp [Broker.micro, ← hr.done, hd], hr, hs, fun l _ => refl l⟩
    · cases h
  case runSel.exit =>
    split at h
    · next hd => cases h; exact ⟨b2, by simp [Broker.micro, ← hic, hd], hr, hs, fun l _ => refl l⟩
    · cases h
  case runSel.msg ctx e c =>
    split at h
    · cases h
    · next c =>
      split at h
      · cases h
      · next u t r hb =>
        cases h
        refine ⟨{ b2 with ctlBuf := upd b2.ctlBuf c r }, by simp [Broker.micro, ← hr.ctlBuf, hb],
          ⟨hr.1, hr.2, hr.3, by dsimp only; rw [hr.4], hr.5, hr.6, hr.7⟩, ?_, ?_⟩
        · intro l w hl; cases hl
        · intro l _; cases l <;> exact ⟨rfl, rfl⟩

end Netscrape.BrokerLock
