import Verif.Model.BrokerLock
import Verif.Lemmas.BrokerSteps

/-!
# Who is in which critical section of the broker
-/

namespace Netscrape.BrokerLock
open Netscrape.Conc (upd upd_self upd_ne Mu)
open Netscrape.Broker (Mem Msg Op Ret PC Ev Alt Queue Sub Loc)

/-! ## Who is in a critical section -/

/-- How a position relates to the mutex. -/
inductive Cls where
  | out
  | reading
  | waiting
  | writing
deriving DecidableEq

def cls : Pos → Cls
  | .out _ => .out
  | .wait _ => .waiting
  | .chk _ => .reading
  | .rEnd _ => .reading
  | _ => .writing

def clsAt (calls : Nat → Option Pos) (j : Nat) : Cls :=
  match calls j with
  | none => .out
  | some p => cls p

/-- The number a position has reserved, with the context the new goroutine is going to have. -/
def claimed : Pos → Option (Nat × Nat)
  | .open3 ctx n => some (ctx, n)
  | .open4 ctx n => some (ctx, n)
  | _ => none

structure Locked (mu : Mu) (k : Nat → Cls) : Prop where
  readers : ∃ R : List Nat, R.Nodup ∧ R.length = mu.readers ∧ ∀ j, j ∈ R ↔ k j = .reading
  free : mu.wr = .free → ∀ j, k j ≠ .waiting ∧ k j ≠ .writing
  announced : mu.wr = .announced → ∀ j, k j ≠ .writing
  held : mu.wr = .held → mu.readers = 0 ∧ ∀ j, k j ≠ .waiting
  one : ∀ i j, (k i = .waiting ∨ k i = .writing) → (k j = .waiting ∨ k j = .writing) → i = j
  holder : mu.wr = .held → ∃ j, k j = .writing
  announcer : mu.wr = .announced → ∃ j, k j = .waiting

/-- Numbers are used once. -/
structure Numbers (s : St) : Prop where
  calls : ∀ j, s.next ≤ j → s.calls j = none
  claim : ∀ i p ctx n, s.calls i = some p → claimed p = some (ctx, n) → n < s.next ∧ s.calls n = none

structure LockInv (s : St) : Prop where
  lock : Locked s.mu (clsAt s.calls)
  num : Numbers s

theorem cls_enter (pc : PC) : cls (enter pc) = .writing := by cases pc <;> rfl

theorem claimed_enter (pc : PC) : claimed (enter pc) = none := by cases pc <;> rfl

theorem clsAt_upd (calls : Nat → Option Pos) (i : Nat) (p : Pos) :
    clsAt (upd calls i (some p)) = upd (clsAt calls) i (cls p) := by
  funext j
  by_cases h : j = i
  · subst h; simp [clsAt, upd_self]
  · simp [clsAt, upd_ne _ _ h]

theorem upd_same {α : Type} (k : Nat → α) (i : Nat) (a : α) (h : k i = a) : upd k i a = k := by
  funext j
  by_cases hj : j = i
  · subst hj; rw [upd_self, h]
  · rw [upd_ne _ _ hj]

theorem clsAt_keep {calls : Nat → Option Pos} {i : Nat} {p : Pos} (h : clsAt calls i = cls p) :
    clsAt (upd calls i (some p)) = clsAt calls := by
  rw [clsAt_upd]; exact upd_same _ _ _ h

theorem clsAt_some {calls : Nat → Option Pos} {i : Nat} {p : Pos} (h : calls i = some p) : clsAt calls i = cls p := by
  simp [clsAt, h]

theorem clsAt_none {calls : Nat → Option Pos} {i : Nat} (h : calls i = none) : clsAt calls i = .out := by
  simp [clsAt, h]

theorem clsAt_ret {calls : Nat → Option Pos} {i : Nat} (h : clsAt calls i = .out) :
    clsAt (upd calls i none) = clsAt calls := by
  funext j
  by_cases hj : j = i
  · subst hj; rw [h]; simp [clsAt, upd_self]
  · simp [clsAt, upd_ne _ _ hj]

/-- A statement of a critical section stays in it. -/
theorem stmt_cls {b b' : Mem} {i n : Nat} {key : String} {p p' : Pos} {evs : List Ev}
    (h : stmt b i n key p = some (b', p', evs)) :
    cls p' = cls p ∧ cls p ≠ .out ∧ cls p ≠ .waiting := by
  cases p <;> simp only [stmt, reduceCtorEq] at h
  all_goals first
    | (obtain ⟨-, rfl, -⟩ : _ ∧ _ ∧ _ := by simpa only [Option.some.injEq, Prod.mk.injEq] using h
       refine ⟨?_, by simp [cls], by simp [cls]⟩
       first | rfl | (split <;> rfl))
    | (refine ⟨?_, by simp [cls], by simp [cls]⟩
       repeat' split at h
       all_goals cases h <;> rfl)

theorem stmt_claimed {b b' : Mem} {i n : Nat} {key : String} {p p' : Pos} {evs : List Ev}
    (h : stmt b i n key p = some (b', p', evs)) :
    (∃ ctx, p = .open2 ctx ∧ p' = .open3 ctx n) ∨ (∃ ctx m, p = .open4 ctx m ∧ claimed p' = none) ∨
      ((∀ ctx, p ≠ .open2 ctx) ∧ (∀ ctx m, p ≠ .open4 ctx m) ∧ claimed p' = claimed p) := by
  cases p <;> simp only [stmt, reduceCtorEq] at h
  case open2 ctx => cases h; exact .inl ⟨ctx, rfl, rfl⟩
  case open4 ctx m => cases h; exact .inr (.inl ⟨ctx, m, rfl, rfl⟩)
  all_goals
    refine .inr (.inr ⟨nofun, nofun, ?_⟩)
    first
      | (cases h; first | rfl | (split <;> rfl))
      | (repeat' split at h
         all_goals cases h <;> rfl)

theorem starts_of {calls : Nat → Option Pos} {p : Pos} (h : ∀ ctx m, p ≠ .open4 ctx m) : starts calls p = calls := by
  cases p <;> first | rfl | exact (h _ _ rfl).elim

theorem claims_of {p : Pos} (h : ∀ ctx, p ≠ .open2 ctx) : claims p = 0 := by
  cases p <;> first | rfl | exact (h _ rfl).elim

/-! ## Steps, one rule each -/

inductive Tr (s : St) : Act → St → Prop
  | call (op) : s.b.has op = true → Tr s (.call op)
      { s with calls := upd s.calls s.next (some (.out (.start op))), ops := upd s.ops s.next (some op),
               next := s.next + 1, log := s.log ++ [.call s.next] }
  | cancel (ctx) : Tr s (.cancel ctx) { s with b := { s.b with done := upd s.b.done ctx true } }
  | step (i alt pc pc' b' evs) : s.calls i = some (.out pc) → sect pc = none → alt ≠ .stale →
      Broker.micro s.b i pc alt = some (b', pc', evs, none) → Tr s (.step i alt)
      { s with b := b', calls := upd s.calls i (some (.out pc')), log := s.log ++ evs }
  | spawn (i alt pc pc' g b' evs) : s.calls i = some (.out pc) → sect pc = none → alt ≠ .stale →
      Broker.micro s.b i pc alt = some (b', pc', evs, some g) → Tr s (.step i alt)
      { s with b := b', calls := upd (upd s.calls i (some (.out pc'))) s.next (some (.out g)),
               next := s.next + 1, log := s.log ++ evs }
  | lock (i p mu' p') : s.calls i = some p → lock s.mu p = some (mu', p') → Tr s (.lock i)
      { s with mu := mu', calls := upd s.calls i (some p') }
  | stmt (i key p b' p' evs) : s.calls i = some p → stmt s.b i s.next key p = some (b', p', evs) → Tr s (.stmt i key)
      { s with b := b', calls := upd (starts s.calls p) i (some p'), next := s.next + claims p, log := s.log ++ evs }
  | meet (p r pc pc' pc1 pc1' evs) : s.calls p = some (.out pc) → s.calls r = some (.out pc') →
      Broker.meet s.b p r pc pc' = some (pc1, pc1', evs) → Tr s (.meet p r)
      { s with calls := upd (upd s.calls p (some (.out pc1))) r (some (.out pc1')), log := s.log ++ evs }
  | ret (i r) : s.calls i = some (.out (.done r)) → Tr s (.ret i)
      { s with calls := upd s.calls i none, log := s.log ++ [.ret i r] }

theorem step_tr {s s' : St} {a : Act} (h : step s a = some s') : s.b.crashed = false ∧ Tr s a s' := by
  unfold step at h
  split at h
  · cases h
  next hn =>
  refine ⟨by simpa using hn, ?_⟩
  cases a with
  | call op =>
    dsimp only at h
    split at h
    · next hop => cases h; exact .call op hop
    · cases h
  | cancel ctx => cases h; exact .cancel _
  | step i alt =>
    dsimp only at h
    split at h
    · next pc hc =>
      split at h
      · next hs =>
        split at h
        · cases h
        · next b' pc' evs hm => cases h; exact .step i alt pc pc' b' evs hc hs.1 hs.2 hm
        · next b' pc' evs g hm => cases h; exact .spawn i alt pc pc' g b' evs hc hs.1 hs.2 hm
      · cases h
    · cases h
  | lock i =>
    dsimp only at h
    split at h
    · cases h
    · next p hc =>
      split at h
      · cases h
      · next mu' p' hl => cases h; exact .lock i p mu' p' hc hl
  | stmt i key =>
    dsimp only at h
    split at h
    · cases h
    · next p hc =>
      split at h
      · cases h
      · next b' p' evs hm => cases h; exact .stmt i key p b' p' evs hc hm
  | meet p r =>
    dsimp only at h
    split at h
    · next pc pc' hp hr =>
      split at h
      · cases h
      · next pc1 pc1' evs hm => cases h; exact .meet p r pc pc' pc1 pc1' evs hp hr hm
    · cases h
  | ret i =>
    dsimp only at h
    split at h
    · next r hc => cases h; exact .ret i r hc
    · cases h

/-! ## The mutex excludes -/

theorem lock_locked {mu mu' : Mu} {k : Nat → Cls} {p p' : Pos} {i : Nat} (h : Locked mu k) (hk : k i = cls p)
    (hl : lock mu p = some (mu', p')) : Locked mu' (upd k i (cls p')) := by
  obtain ⟨R, hnd, hlen, hR⟩ := h.readers
  cases p <;> simp only [lock, reduceCtorEq] at hl
  case out pc =>
    have hk : k i = .out := hk
    split at hl
    · cases hl
    · split at hl
      · next hf =>
        cases hl
        have hi : i ∉ R := by rw [hR, hk]; exact nofun
        refine ⟨⟨i :: R, List.nodup_cons.mpr ⟨hi, hnd⟩, by simp [hlen], ?_⟩, ?_, ?_, ?_, ?_, ?_, ?_⟩
        · intro j
          by_cases hj : j = i
          · subst hj; simp [upd_self, cls]
          · rw [upd_ne _ _ hj, List.mem_cons, ← hR]; simp [hj]
        · intro _ j
          by_cases hj : j = i
          · subst hj; simp [upd_self, cls]
          · rw [upd_ne _ _ hj]; exact h.free hf j
        · intro e; rw [hf] at e; cases e
        · intro e; rw [hf] at e; cases e
        · intro a b ha hb
          have : ∀ j, ¬ (upd k i (cls (Pos.chk pc)) j = .waiting ∨ upd k i (cls (Pos.chk pc)) j = .writing) := by
            intro j
            by_cases hj : j = i
            · subst hj; simp [upd_self, cls]
            · rw [upd_ne _ _ hj]; simp [h.free hf j]
          exact (this a ha).elim
        · intro e; rw [hf] at e; cases e
        · intro e; rw [hf] at e; cases e
      · cases hl
    · split at hl
      · next hf =>
        cases hl
        have hout : ∀ j, j ≠ i → ¬ (upd k i (cls (Pos.wait pc)) j = .waiting ∨ upd k i (cls (Pos.wait pc)) j = .writing) := by
          intro j hj
          rw [upd_ne _ _ hj]; simp [h.free hf j]
        refine ⟨⟨R, hnd, hlen, ?_⟩, nofun, ?_, nofun, ?_, ?_, ?_⟩
        · intro j
          by_cases hj : j = i
          · subst hj; simp [upd_self, cls, hR, hk]
          · rw [upd_ne _ _ hj]; exact hR j
        · intro _ j
          by_cases hj : j = i
          · subst hj; simp [upd_self, cls]
          · rw [upd_ne _ _ hj]; exact (h.free hf j).2
        · intro a b ha hb
          have h1 : a = i := Classical.byContradiction fun e => hout a e ha
          have h2 : b = i := Classical.byContradiction fun e => hout b e hb
          rw [h1, h2]
        · exact nofun
        · exact fun _ => ⟨i, by rw [upd_self]; rfl⟩
      · cases hl
  case wait pc =>
    have hk : k i = .waiting := hk
    split at hl
    · next hr =>
      cases hl
      have hR0 : R = [] := List.length_eq_zero_iff.mp (by rw [hlen, hr])
      have hne : ∀ j, j ≠ i → k j ≠ .waiting ∧ k j ≠ .writing := fun j hj =>
        ⟨fun e => hj (h.one j i (.inl e) (.inl hk)), fun e => hj (h.one j i (.inr e) (.inl hk))⟩
      refine ⟨⟨[], List.nodup_nil, by simp [hr], ?_⟩, nofun, nofun, ?_, ?_, ?_, ?_⟩
      · intro j
        by_cases hj : j = i
        · subst hj; simp [upd_self, cls_enter]
        · rw [upd_ne _ _ hj, ← hR, hR0]
      · intro _
        refine ⟨hr, fun j => ?_⟩
        by_cases hj : j = i
        · subst hj; simp [upd_self, cls_enter]
        · rw [upd_ne _ _ hj]; exact (hne j hj).1
      · intro a b ha hb
        have hout : ∀ j, j ≠ i → ¬ (upd k i (cls (enter pc)) j = .waiting ∨ upd k i (cls (enter pc)) j = .writing) := by
          intro j hj
          rw [upd_ne _ _ hj]; simp [hne j hj]
        have h1 : a = i := Classical.byContradiction fun e => hout a e ha
        have h2 : b = i := Classical.byContradiction fun e => hout b e hb
        rw [h1, h2]
      · exact fun _ => ⟨i, by rw [upd_self, cls_enter]⟩
      · exact nofun
    · cases hl
  case rEnd pc =>
    have hk : k i = .reading := hk
    cases hl
    have hi : i ∈ R := (hR i).mpr hk
    have hk' : ∀ j, upd k i (cls (Pos.out pc)) j ≠ .reading → upd k i (cls (Pos.out pc)) j ≠ .out →
        upd k i (cls (Pos.out pc)) j = k j := by
      intro j _ h2
      by_cases hj : j = i
      · subst hj; rw [upd_self] at h2; exact (h2 rfl).elim
      · rw [upd_ne _ _ hj]
    refine ⟨⟨R.erase i, hnd.erase i, by rw [List.length_erase_of_mem hi, hlen], ?_⟩, ?_, ?_, ?_, ?_, ?_, ?_⟩
    · intro j
      rw [hnd.mem_erase_iff]
      by_cases hj : j = i
      · subst hj; simp [upd_self, cls]
      · rw [upd_ne _ _ hj, ← hR]; simp [hj]
    · intro e j
      by_cases hj : j = i
      · subst hj; simp [upd_self, cls]
      · rw [upd_ne _ _ hj]; exact h.free e j
    · intro e j
      by_cases hj : j = i
      · subst hj; simp [upd_self, cls]
      · rw [upd_ne _ _ hj]; exact h.announced e j
    · intro e
      have := (h.held e).1
      rw [← hlen] at this
      rw [List.length_eq_zero_iff.mp this] at hi
      cases hi
    · intro a b ha hb
      have hx : ∀ j, (upd k i (cls (Pos.out pc)) j = .waiting ∨ upd k i (cls (Pos.out pc)) j = .writing) →
          k j = .waiting ∨ k j = .writing := by
        intro j hj
        have := hk' j (by rcases hj with e | e <;> rw [e] <;> exact nofun) (by rcases hj with e | e <;> rw [e] <;> exact nofun)
        rw [← this]; exact hj
      exact h.one a b (hx a ha) (hx b hb)
    · intro e
      obtain ⟨j, hj⟩ := h.holder e
      refine ⟨j, ?_⟩
      rw [upd_ne _ _ (by rintro rfl; rw [hk] at hj; cases hj)]; exact hj
    · intro e
      obtain ⟨j, hj⟩ := h.announcer e
      refine ⟨j, ?_⟩
      rw [upd_ne _ _ (by rintro rfl; rw [hk] at hj; cases hj)]; exact hj
  case wEnd pc =>
    have hk : k i = .writing := hk
    cases hl
    have hne : ∀ j, j ≠ i → k j ≠ .waiting ∧ k j ≠ .writing := fun j hj =>
      ⟨fun e => hj (h.one j i (.inl e) (.inr hk)), fun e => hj (h.one j i (.inr e) (.inr hk))⟩
    have hall : ∀ j, upd k i (cls (Pos.out pc)) j ≠ .waiting ∧ upd k i (cls (Pos.out pc)) j ≠ .writing := by
      intro j
      by_cases hj : j = i
      · subst hj; simp [upd_self, cls]
      · rw [upd_ne _ _ hj]; exact hne j hj
    refine ⟨⟨R, hnd, hlen, ?_⟩, fun _ => hall, nofun, nofun, ?_, ?_, ?_⟩
    · intro j
      by_cases hj : j = i
      · subst hj; simp [upd_self, cls, hR, hk]
      · rw [upd_ne _ _ hj]; exact hR j
    · intro a _ ha _
      rcases ha with ha | ha
      · exact ((hall a).1 ha).elim
      · exact ((hall a).2 ha).elim
    · exact nofun
    · exact nofun

theorem lock_claimed {mu mu' : Mu} {p p' : Pos} (h : lock mu p = some (mu', p')) :
    claimed p = none ∧ claimed p' = none := by
  cases p <;> simp only [lock, reduceCtorEq] at h
  case out pc =>
    repeat' split at h
    all_goals cases h <;> exact ⟨rfl, rfl⟩
  case wait pc =>
    split at h
    · cases h; exact ⟨rfl, claimed_enter pc⟩
    · cases h
  all_goals (cases h; exact ⟨rfl, rfl⟩)

theorem Numbers.upd {s s' : St} {i : Nat} {p p' : Pos} (h : Numbers s) (hc : s.calls i = some p)
    (hn : s'.next = s.next) (hs : s'.calls = Conc.upd s.calls i (some p')) (hcl : claimed p' = claimed p) : Numbers s' := by
  constructor
  · intro j hj
    rw [hn] at hj
    have : j ≠ i := by rintro rfl; rw [h.calls j hj] at hc; cases hc
    rw [hs, upd_ne _ _ this]; exact h.calls j hj
  · intro a q ctx n ha hq
    rw [hs] at ha ⊢
    rw [hn]
    have key : n < s.next ∧ s.calls n = none := by
      by_cases hai : a = i
      · subst hai
        rw [upd_self] at ha; cases ha
        exact h.claim a p ctx n hc (by rw [← hcl]; exact hq)
      · rw [upd_ne _ _ hai] at ha
        exact h.claim a q ctx n ha hq
    refine ⟨key.1, ?_⟩
    rw [upd_ne _ _ (by rintro rfl; rw [key.2] at hc; cases hc)]
    exact key.2

theorem Numbers.fresh {s s' : St} {pc : PC} (h : Numbers s) (hn : s'.next = s.next + 1)
    (hs : s'.calls = Conc.upd s.calls s.next (some (.out pc))) : Numbers s' := by
  constructor
  · intro j hj
    rw [hn] at hj
    rw [hs, upd_ne _ _ (by omega)]; exact h.calls j (by omega)
  · intro a q ctx n ha hq
    rw [hs] at ha ⊢
    rw [hn]
    by_cases hai : a = s.next
    · subst hai; rw [upd_self] at ha; cases ha; cases hq
    · rw [upd_ne _ _ hai] at ha
      have key := h.claim a q ctx n ha hq
      refine ⟨by omega, ?_⟩
      rw [upd_ne _ _ (by omega)]; exact key.2

theorem LockInv.init (cap : Int) : LockInv (.init cap) := by
  refine ⟨⟨⟨[], List.nodup_nil, rfl, fun j => ⟨nofun, fun h => by cases h⟩⟩, fun _ j => ⟨nofun, nofun⟩, nofun, nofun, ?_, nofun, nofun⟩, ?_⟩
  · intro i j h; rcases h with h | h <;> cases h
  · exact ⟨fun _ _ => rfl, nofun⟩

theorem LockInv.tr {s s' : St} {a : Act} (h : LockInv s) (ht : Tr s a s') : LockInv s' := by
  cases ht with
  | call op _ =>
    refine ⟨?_, h.num.fresh rfl rfl⟩
    dsimp only
    rw [clsAt_keep (p := .out (.start op)) (clsAt_none (h.num.calls _ (Nat.le_refl _)))]
    exact h.lock
  | cancel => exact ⟨h.lock, ⟨h.num.calls, h.num.claim⟩⟩
  | step i alt pc pc' b' evs hc _ _ _ =>
    refine ⟨?_, h.num.upd hc rfl rfl rfl⟩
    dsimp only
    rw [clsAt_keep (p := .out pc') (clsAt_some hc :)]
    exact h.lock
  | spawn i alt pc pc' g b' evs hc _ _ _ =>
    have h1 : Numbers { s with calls := upd s.calls i (some (.out pc')) } := h.num.upd hc rfl rfl rfl
    refine ⟨?_, h1.fresh rfl rfl⟩
    dsimp only
    rw [clsAt_keep (p := .out g) (clsAt_none (h1.calls _ (Nat.le_refl _))), clsAt_keep (p := .out pc') (clsAt_some hc :)]
    exact h.lock
  | lock i p mu' p' hc hl =>
    have := lock_claimed hl
    refine ⟨?_, h.num.upd hc rfl rfl (by rw [this.1, this.2])⟩
    dsimp only
    rw [clsAt_upd]
    exact lock_locked h.lock (clsAt_some hc :) hl
  | stmt i key p b' p' evs hc hm =>
    have hcls := stmt_cls hm
    rcases stmt_claimed hm with ⟨ctx, rfl, rfl⟩ | ⟨ctx, n, rfl, hcl⟩ | ⟨h1, h2, hcl⟩
    · refine ⟨?_, ?_, ?_⟩
      · dsimp only [starts]
        rw [clsAt_keep (p := .open3 ctx s.next) (clsAt_some hc :)]; exact h.lock
      · intro j hj
        dsimp only [starts, claims] at hj ⊢
        rw [upd_ne _ _ (by rintro rfl; rw [h.num.calls j (by omega)] at hc; cases hc)]
        exact h.num.calls j (by omega)
      · intro a q ctx' n ha hq
        dsimp only [starts, claims] at ha ⊢
        have hne : s.next ≠ i := by
          intro e; rw [← e, h.num.calls _ (Nat.le_refl _)] at hc; cases hc
        by_cases hai : a = i
        · subst hai
          rw [upd_self] at ha; cases ha; cases hq
          exact ⟨Nat.lt_succ_self _, by rw [upd_ne _ _ hne]; exact h.num.calls _ (Nat.le_refl _)⟩
        · rw [upd_ne _ _ hai] at ha
          have key := h.num.claim a q ctx' n ha hq
          exact ⟨by omega, by rw [upd_ne _ _ (by rintro rfl; rw [key.2] at hc; cases hc)]; exact key.2⟩
    · have key := h.num.claim i _ ctx n hc rfl
      have hin : i ≠ n := by rintro rfl; rw [key.2] at hc; cases hc
      refine ⟨?_, ?_, ?_⟩
      · dsimp only [starts]
        rw [clsAt_upd, clsAt_keep (p := .out (.run ctx)) (clsAt_none key.2), hcls.1]
        rw [upd_same _ _ _ (clsAt_some hc :)]
        exact h.lock
      · intro j hj
        dsimp only [starts, claims] at hj ⊢
        rw [upd_ne _ _ (by rintro rfl; rw [h.num.calls j (by omega)] at hc; cases hc), upd_ne _ _ (by omega)]
        exact h.num.calls j (by omega)
      · intro a q ctx' m ha hq
        dsimp only [starts, claims] at ha ⊢
        exfalso
        by_cases hai : a = i
        · subst hai
          rw [upd_self] at ha; cases ha; rw [hcl] at hq; cases hq
        · rw [upd_ne _ _ hai] at ha
          by_cases han : a = n
          · subst han; rw [upd_self] at ha; cases ha; cases hq
          · rw [upd_ne _ _ han] at ha
            refine hai (h.lock.one a i ?_ ?_)
            · rw [clsAt_some ha]; right; cases q <;> first | rfl | cases hq
            · rw [clsAt_some hc]; exact .inr rfl
    · refine ⟨?_, h.num.upd hc ?_ ?_ hcl⟩
      · dsimp only
        rw [starts_of h2, clsAt_keep (by rw [clsAt_some hc, hcls.1])]; exact h.lock
      · dsimp only; rw [claims_of h1]; rfl
      · dsimp only; rw [starts_of h2]
  | meet p r pc pc' pc1 pc1' evs hp hr hm =>
    by_cases hpr : r = p
    · subst hpr
      refine ⟨?_, ?_⟩
      · dsimp only
        rw [clsAt_keep (p := .out pc1') (by rw [clsAt_keep (p := .out pc1) (clsAt_some hp :)]; exact (clsAt_some hp :)),
          clsAt_keep (p := .out pc1) (clsAt_some hp :)]
        exact h.lock
      · have h1 : Numbers { s with calls := upd s.calls r (some (.out pc1)) } := h.num.upd hp rfl rfl rfl
        exact h1.upd (p := .out pc1) (upd_self _ _ _) rfl rfl rfl
    · refine ⟨?_, ?_⟩
      · dsimp only
        rw [clsAt_keep (p := .out pc1') (by rw [clsAt_keep (p := .out pc1) (clsAt_some hp :)]; exact (clsAt_some hr :)),
          clsAt_keep (p := .out pc1) (clsAt_some hp :)]
        exact h.lock
      · have h1 : Numbers { s with calls := upd s.calls p (some (.out pc1)) } := h.num.upd hp rfl rfl rfl
        exact h1.upd (p := .out pc') (by dsimp only; rw [upd_ne _ _ hpr]; exact hr) rfl rfl rfl
  | ret i r hc =>
    refine ⟨?_, ?_, ?_⟩
    · dsimp only
      rw [clsAt_ret (clsAt_some hc)]; exact h.lock
    · intro j hj
      dsimp only at hj ⊢
      by_cases hji : j = i
      · subst hji; exact upd_self _ _ _
      · rw [upd_ne _ _ hji]; exact h.num.calls j hj
    · intro a q ctx n ha hq
      dsimp only at ha ⊢
      by_cases hai : a = i
      · subst hai; rw [upd_self] at ha; cases ha
      · rw [upd_ne _ _ hai] at ha
        have key := h.num.claim a q ctx n ha hq
        refine ⟨key.1, ?_⟩
        by_cases hni : n = i
        · subst hni; exact upd_self _ _ _
        · rw [upd_ne _ _ hni]; exact key.2

theorem Reach.inv {cap : Int} {allowed : St → Act → Prop} {s : St} (h : Reach cap allowed s) : LockInv s := by
  induction h with
  | init => exact .init cap
  | step s s' a _ _ hs ih => exact ih.tr (step_tr hs).2

end Netscrape.BrokerLock
