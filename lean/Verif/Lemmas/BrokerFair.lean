import Verif.Lemmas.BrokerProgress

/-!
# Under a fair scheduler and a fair mutex every call returns
-/

namespace Netscrape.BrokerLock
open Netscrape.Conc (upd upd_self upd_ne Mu)
open Netscrape.Broker (Mem Msg Op Ret PC Ev Alt Queue Sub Loc)
open Netscrape.Spec.BrokerLock

/-! ## What goroutines in critical sections have left to do -/

/-- The size of the table of subscriptions. -/
def weight (m : GoMap String (GoMap String Nat)) : Nat := (m.entries.map fun e => e.2.entries.length + 4).sum

/-- How many steps a goroutine needs at most to get out of its critical section. -/
def rank (b : Mem) : Pos → Nat
  | .chk _ => 2
  | .rEnd _ => 1
  | .wEnd _ => 1
  | .open1 _ => 5
  | .open2 _ => 4
  | .open3 _ _ => 3
  | .open4 _ _ => 2
  | .close1 _ => weight b.subs + 5
  | .close2 _ => weight b.subs + 4
  | .close3 => weight b.subs + 3
  | .close4 _ => weight b.subs + 2
  | .close5 _ => weight b.subs + 1
  | .close6 _ => weight b.subs + 4
  | .close7 => 2
  | .pub1 _ _ _ => 4
  | .pub2 _ _ _ => 3
  | .pub3 _ _ _ _ => 2
  | .sub1 _ _ => 8
  | .sub2 _ _ => 7
  | .sub3 _ _ _ => 6
  | .sub4 _ _ _ => 5
  | .sub5 _ _ => 4
  | .sub6 _ _ => 3
  | .sub7 _ _ => 2
  | .del1 _ _ _ => 3
  | .del2 _ _ _ => 2
  | .out _ => 0
  | .wait _ => 0

theorem sum_filter_le {α : Type} (g : α → Nat) (p : α → Bool) : ∀ l : List α, ((l.filter p).map g).sum ≤ (l.map g).sum
  | [] => Nat.le_refl _
  | a :: l => by
    have := sum_filter_le g p l
    rw [List.filter_cons]
    split <;> simp <;> omega

theorem sum_filter_mem {α : Type} (g : α → Nat) (p : α → Bool) {a : α} (hp : p a = false) : ∀ l : List α, a ∈ l →
    ((l.filter p).map g).sum + g a ≤ (l.map g).sum
  | b :: l, h => by
    rcases List.mem_cons.mp h with rfl | h
    · have := sum_filter_le g p l
      rw [List.filter_cons, hp]; simp; omega
    · have := sum_filter_mem g p hp l h
      rw [List.filter_cons]
      split <;> simp <;> omega

theorem weight_del {m : GoMap String (GoMap String Nat)} {t : String} {inner : GoMap String Nat} (h : m.get? t = some inner) :
    weight (m.del t) + (inner.entries.length + 4) ≤ weight m := by
  rw [GoMap.get?_eq_some] at h
  exact sum_filter_mem (fun e : String × GoMap String Nat => e.2.entries.length + 4) (fun e => decide (e.1 ≠ t))
    (a := (t, inner)) (by simp) _ h

theorem weight_set {m : GoMap String (GoMap String Nat)} {t : String} {inner inner' : GoMap String Nat} (h : m.get? t = some inner)
    (hl : inner'.entries.length < inner.entries.length) : weight (m.set t inner') < weight m := by
  have h1 := weight_del h
  have h2 : weight (m.set t inner') = (inner'.entries.length + 4) + weight (m.del t) := rfl
  omega

/-- Every statement gets closer to the end of the section. -/
theorem stmt_rank {b b' : Mem} {i n : Nat} {key : String} {p p' : Pos} {evs : List Ev}
    (h : stmt b i n key p = some (b', p', evs)) (h5 : ∀ t, p = .close5 t → (b.subs.get? t).isSome = true) :
    rank b' p' < rank b p := by
  cases p <;> simp only [stmt, reduceCtorEq] at h
  case chk => cases h; simp [rank]
  case open1 => cases h; simp [rank]
  case open2 => cases h; simp [rank]
  case open3 => cases h; simp [rank]
  case open4 => cases h; simp [rank]
  case close1 =>
    cases h
    split <;> simp [rank]
  case close2 =>
    split at h
    · cases h; simp [rank]
    · split at h <;> cases h <;> simp [rank]
  case close3 =>
    split at h
    · cases h; simp [rank]
    · split at h <;> cases h; simp [rank]
  case close4 t =>
    split at h
    · cases h; simp [rank]
    · next inner hg =>
      split at h
      · cases h; simp [rank]
      · split at h
        · next hk =>
          cases h
          have := weight_set (inner' := inner.del key) hg (size_del_lt hk)
          simp only [rank]; omega
        · cases h
  case close5 t =>
    cases h
    obtain ⟨inner, hg⟩ := Option.isSome_iff_exists.mp (h5 t rfl)
    have := weight_del hg
    simp only [rank]; omega
  case close6 => cases h; simp [rank]
  case close7 => cases h; simp [rank]
  case pub1 => split at h <;> cases h <;> simp [rank]
  case pub2 => cases h; simp [rank]
  case pub3 => cases h; simp [rank]
  case sub1 => split at h <;> cases h <;> simp [rank]
  case sub2 => cases h; simp [rank]
  case sub3 => cases h; simp [rank]
  case sub4 => cases h; simp [rank]
  case sub5 => cases h; split <;> simp [rank]
  case sub6 => cases h; simp [rank]
  case sub7 => split at h <;> cases h <;> simp [rank]
  case del1 => cases h; split <;> simp [rank]
  case del2 => cases h; simp [rank]

/-- In a critical section there is always a next step. -/
theorem inside_enabled {s : St} {i : Nat} {p : Pos} (hcr : s.b.crashed = false) (hp : s.calls i = some p)
    (hin : cls p = .reading ∨ cls p = .writing) : ∃ a, mine i a = true ∧ (step s a).isSome = true := by
  have lk : ∀ mu' p', lock s.mu p = some (mu', p') → ∃ a, mine i a = true ∧ (step s a).isSome = true := by
    intro mu' p' h
    exact ⟨.lock i, by simp [mine], by simp [step, hcr, hp, h]⟩
  have st : ∀ key x, stmt s.b i s.next key p = some x → ∃ a, mine i a = true ∧ (step s a).isSome = true := by
    intro key x h
    obtain ⟨b', p', evs⟩ := x
    exact ⟨.stmt i key, by simp [mine], by simp [step, hcr, hp, h]⟩
  cases p
  case out => simp [cls] at hin
  case wait => simp [cls] at hin
  case rEnd => exact lk _ _ rfl
  case wEnd => exact lk _ _ rfl
  case close2 =>
    simp only [stmt] at st
    cases he : s.b.exit with
    | none => rw [he] at st; exact st "" _ rfl
    | some e =>
      rw [he] at st
      rcases Bool.eq_false_or_eq_true (s.b.closed e) with hc | hc
      · simp only [hc, if_true] at st; exact st "" _ rfl
      · simp only [hc, Bool.false_eq_true, if_false] at st; exact st "" _ rfl
  case close3 =>
    simp only [stmt] at st
    cases he : s.b.subs.entries with
    | nil => simp only [he, if_true] at st; exact st "" _ rfl
    | cons e r =>
      have : (s.b.subs.get? e.1).isSome = true := by rw [get?_head (k := e.1) (v := e.2) (r := r) he]; rfl
      refine st e.1 (s.b, .close4 e.1, []) ?_
      simp [he, this]
  case close4 t =>
    simp only [stmt] at st
    cases hg : s.b.subs.get? t with
    | none => rw [hg] at st; exact st "" _ rfl
    | some inner =>
      rw [hg] at st
      cases he : inner.entries with
      | nil => simp only [he, if_true] at st; exact st "" _ rfl
      | cons e r =>
        have : (inner.get? e.1).isSome = true := by rw [get?_head (k := e.1) (v := e.2) (r := r) he]; rfl
        refine st e.1 ({ s.b with subs := s.b.subs.set t (inner.del e.1) }, .close4 t, []) ?_
        simp [he, this]
  case pub1 ctx t m =>
    simp only [stmt] at st
    cases hq : s.b.topics.get? t with
    | none => rw [hq] at st; exact st "" _ rfl
    | some q => rw [hq] at st; exact st "" _ rfl
  case sub1 t u =>
    simp only [stmt] at st
    cases hq : s.b.topics.get? t with
    | none => rw [hq] at st; exact st "" _ rfl
    | some q => rw [hq] at st; exact st "" _ rfl
  case sub7 t u =>
    simp only [stmt] at st
    cases hq : s.b.subs.get? t with
    | none => rw [hq] at st; exact st "" _ rfl
    | some q => rw [hq] at st; exact st "" _ rfl
  all_goals exact st "" _ rfl

/-! ## What others do -/

/-- Only its own steps move a goroutine. -/
theorem stays {s s' : St} {a : Act} {j : Nat} {p : Pos} (hi : LockInv s) (hs : step s a = some s') (hj : s.calls j = some p)
    (ha : takesPart j a = false) : s'.calls j = some p := by
  have hne : j ≠ s.next := by
    intro e; rw [hi.num.calls j (by omega)] at hj; cases hj
  cases (step_tr hs).2 with
  | call op h => dsimp only; rw [upd_ne _ _ hne]; exact hj
  | cancel => exact hj
  | step i alt pc pc' b' evs hc h1 h2 h3 =>
    have : j ≠ i := by simpa [takesPart, mine] using ha
    dsimp only; rw [upd_ne _ _ this]; exact hj
  | spawn i alt pc pc' g b' evs hc h1 h2 h3 =>
    have : j ≠ i := by simpa [takesPart, mine] using ha
    dsimp only; rw [upd_ne _ _ hne, upd_ne _ _ this]; exact hj
  | lock i p mu' p' hc h1 =>
    have : j ≠ i := by simpa [takesPart, mine] using ha
    dsimp only; rw [upd_ne _ _ this]; exact hj
  | stmt i key q b' p' evs hc h1 =>
    have : j ≠ i := by simpa [takesPart, mine] using ha
    dsimp only; rw [upd_ne _ _ this]
    unfold starts
    split
    · next ctx n =>
      have := (hi.num.claim i _ ctx n hc rfl).2
      rw [upd_ne]; · exact hj
      rintro rfl; rw [this] at hj; cases hj
    · exact hj
  | meet x r pc pc' pc1 pc1' evs h1 h2 h3 =>
    have : j ≠ x ∧ j ≠ r := by simpa [takesPart] using ha
    dsimp only; rw [upd_ne _ _ this.2, upd_ne _ _ this.1]; exact hj
  | ret i r hc =>
    have : j ≠ i := by simpa [takesPart, mine] using ha
    dsimp only; rw [upd_ne _ _ this]; exact hj

/-- Nobody but the holder of the lock changes the table of subscriptions. -/
theorem subs_stay {s s' : St} {a : Act} {j : Nat} {p : Pos} (hi : LockInv s) (hs : step s a = some s') (hj : s.calls j = some p)
    (hp : cls p = .writing) (ha : takesPart j a = false) : s'.b.subs = s.b.subs := by
  cases (step_tr hs).2 with
  | call op h => rfl
  | cancel => rfl
  | step i alt pc pc' b' evs hc h1 h2 h3 => exact (micro_put s.b h1 h2 h3).1.subs.symm
  | spawn i alt pc pc' g b' evs hc h1 h2 h3 => exact (micro_put s.b h1 h2 h3).1.subs.symm
  | lock i p mu' p' hc h1 => rfl
  | stmt i k q b' p' evs hc h1 =>
    have : j ≠ i := by simpa [takesPart, mine] using ha
    cases q
    case chk => cases h1; rfl
    case out => cases h1
    case wait => cases h1
    case rEnd => cases h1
    all_goals exact (this (hi.writer hc rfl hj hp)).elim
  | meet x r pc pc' pc1 pc1' evs h1 h2 h3 => rfl
  | ret i r hc => rfl

/-! ## Runs -/

section
variable {cap : Int} {f : Nat → St} {acts : Nat → Act}

theorem fair_reach (hr : Reach cap Any (f 0)) (hf : FairRun f acts) : ∀ n, Reach cap Any (f n)
  | 0 => hr
  | n + 1 => .step _ _ _ (fair_reach hr hf n) trivial (hf.step n)

theorem fair_crashed (hf : FairRun f acts) (n : Nat) : (f n).b.crashed = false := (step_tr (hf.step n)).1

/-- As long as it does not move it is where it is. -/
theorem still (hr : Reach cap Any (f 0)) (hf : FairRun f acts) {j n : Nat} {p : Pos} (hp : (f n).calls j = some p) :
    ∀ k, (∀ m, n ≤ m → m < n + k → takesPart j (acts m) = false) → (f (n + k)).calls j = some p
  | 0, _ => hp
  | k + 1, h => stays (fair_reach hr hf (n + k)).inv (hf.step (n + k))
      (still hr hf hp k fun m h1 h2 => h m h1 (by omega)) (h (n + k) (by omega) (by omega))

theorem still_subs (hr : Reach cap Any (f 0)) (hf : FairRun f acts) {j n : Nat} {p : Pos} (hp : (f n).calls j = some p)
    (hw : cls p = .writing) :
    ∀ k, (∀ m, n ≤ m → m < n + k → takesPart j (acts m) = false) → (f (n + k)).b.subs = (f n).b.subs
  | 0, _ => rfl
  | k + 1, h => (subs_stay (fair_reach hr hf (n + k)).inv (hf.step (n + k))
      (still hr hf hp k fun m h1 h2 => h m h1 (by omega)) hw (h (n + k) (by omega) (by omega))).trans
      (still_subs hr hf hp hw k fun m h1 h2 => h m h1 (by omega))

/-- The first time something happens. -/
theorem first_time {P : Nat → Prop} {n m : Nat} (hm : n ≤ m) (h : P m) :
    ∃ k, P (n + k) ∧ ∀ l, n ≤ l → l < n + k → ¬ P l := by
  have : ∀ d n, n + d = m → ∃ k, P (n + k) ∧ ∀ l, n ≤ l → l < n + k → ¬ P l := by
    intro d
    induction d with
    | zero => intro n hn; exact ⟨0, by rw [Nat.add_zero] at hn ⊢; rw [hn]; exact h, fun l h1 h2 => by omega⟩
    | succ d ih =>
      intro n hn
      by_cases hp : P n
      · exact ⟨0, hp, fun l h1 h2 => by omega⟩
      · obtain ⟨k, h1, h2⟩ := ih (n + 1) (by omega)
        refine ⟨k + 1, by rw [show n + (k + 1) = n + 1 + k from by omega]; exact h1, fun l h3 h4 => ?_⟩
        by_cases hl : l = n
        · subst hl; exact hp
        · exact h2 l (by omega) (by omega)
  exact this (m - n) n (by omega)

/-- Whoever is going to move does it from where it is. -/
theorem moves (hr : Reach cap Any (f 0)) (hf : FairRun f acts) {j n : Nat} {p : Pos} (hp : (f n).calls j = some p)
    (h : ∃ m, n ≤ m ∧ takesPart j (acts m) = true) :
    ∃ k, takesPart j (acts (n + k)) = true ∧ (∀ m, n ≤ m → m < n + k → takesPart j (acts m) = false) ∧
      ∀ l, l ≤ k → (f (n + l)).calls j = some p := by
  obtain ⟨m, hm, ht⟩ := h
  obtain ⟨k, h1, h2⟩ := first_time (P := fun m => takesPart j (acts m) = true) hm ht
  have h3 : ∀ m, n ≤ m → m < n + k → takesPart j (acts m) = false := fun m a b => by simpa using h2 m a b
  exact ⟨k, h1, h3, fun l hl => still hr hf hp l fun m a b => h3 m a (by omega)⟩

/-- Whoever can move as long as it has not is going to. -/
theorem forced (hr : Reach cap Any (f 0)) (hf : FairRun f acts) {j n : Nat} {p : Pos} (hp : (f n).calls j = some p)
    (h : ∀ m, n ≤ m → (f m).calls j = some p → ∃ a, mine j a = true ∧ (step (f m) a).isSome = true) :
    ∃ m, n ≤ m ∧ takesPart j (acts m) = true := by
  refine Classical.byContradiction fun hn => ?_
  have h1 : ∀ m, n ≤ m → takesPart j (acts m) = false := by
    intro m hm
    rcases Bool.eq_false_or_eq_true (takesPart j (acts m)) with ht | ht
    · exact (hn ⟨m, hm, ht⟩).elim
    · exact ht
  refine hn (hf.turn j n fun m hm => h m hm ?_)
  have := still hr hf hp (m - n) fun l a _ => h1 l a
  rwa [show n + (m - n) = m from by omega] at this

/-- What somebody in a critical section does. -/
theorem part_stmt {s s' : St} {a : Act} {j : Nat} {p : Pos} (hs : step s a = some s') (hj : s.calls j = some p)
    (ha : takesPart j a = true) (hp : cls p = .reading ∨ cls p = .writing) (h1 : ∀ pc, p ≠ .rEnd pc) (h2 : ∀ pc, p ≠ .wEnd pc) :
    ∃ key p' evs, stmt s.b j s.next key p = some (s'.b, p', evs) ∧ s'.calls j = some p' := by
  cases (step_tr hs).2 with
  | call op h => cases ha
  | cancel => cases ha
  | step i alt pc pc' b' evs hc h1 h2 h3 =>
    have : j = i := by simpa [takesPart, mine] using ha
    subst this; rw [hj] at hc; cases hc; simp [cls] at hp
  | spawn i alt pc pc' g b' evs hc h1 h2 h3 =>
    have : j = i := by simpa [takesPart, mine] using ha
    subst this; rw [hj] at hc; cases hc; simp [cls] at hp
  | lock i q mu' p' hc hl =>
    have : j = i := by simpa [takesPart, mine] using ha
    subst this; rw [hj] at hc; cases hc
    cases p
    case out => simp [cls] at hp
    case wait => simp [cls] at hp
    case rEnd pc => exact (h1 pc rfl).elim
    case wEnd pc => exact (h2 pc rfl).elim
    all_goals cases hl
  | stmt i key q b' p' evs hc h =>
    have : j = i := by simpa [takesPart, mine] using ha
    subst this; rw [hj] at hc; cases hc
    exact ⟨key, p', evs, h, upd_self ..⟩
  | meet x r pc pc' pc1 pc1' evs h1 h2 h3 =>
    have : j = x ∨ j = r := by simpa [takesPart] using ha
    rcases this with rfl | rfl
    · rw [hj] at h1; cases h1; simp [cls] at hp
    · rw [hj] at h2; cases h2; simp [cls] at hp
  | ret i r hc =>
    have : j = i := by simpa [takesPart, mine] using ha
    subst this; rw [hj] at hc; cases hc; simp [cls] at hp

/-- What somebody who is about to unlock, waits, or is about to lock does. -/
theorem part_lock {s s' : St} {a : Act} {j : Nat} {p : Pos} (hs : step s a = some s') (hj : s.calls j = some p)
    (ha : takesPart j a = true) (hp : (∃ pc, p = .rEnd pc ∨ p = .wEnd pc ∨ p = .wait pc) ∨ ∃ pc, p = .out pc ∧ sect pc ≠ none) :
    ∃ p', a = .lock j ∧ lock s.mu p = some (s'.mu, p') ∧ s'.calls j = some p' := by
  have nout : ∀ {pc}, p = .out pc → sect pc ≠ none := by
    rintro pc rfl
    rcases hp with ⟨pc', h | h | h⟩ | ⟨pc', h, h'⟩ <;> cases h
    exact h'
  cases (step_tr hs).2 with
  | call op h => cases ha
  | cancel => cases ha
  | step i alt pc pc' b' evs hc h1 h2 h3 =>
    have : j = i := by simpa [takesPart, mine] using ha
    subst this; rw [hj] at hc; cases hc; exact (nout rfl h1).elim
  | spawn i alt pc pc' g b' evs hc h1 h2 h3 =>
    have : j = i := by simpa [takesPart, mine] using ha
    subst this; rw [hj] at hc; cases hc; exact (nout rfl h1).elim
  | lock i q mu' p' hc hl =>
    have : j = i := by simpa [takesPart, mine] using ha
    subst this; rw [hj] at hc; cases hc
    exact ⟨p', rfl, hl, upd_self ..⟩
  | stmt i key q b' p' evs hc h =>
    have : j = i := by simpa [takesPart, mine] using ha
    subst this; rw [hj] at hc; cases hc
    rcases hp with ⟨pc', rfl | rfl | rfl⟩ | ⟨pc', rfl, h'⟩ <;> cases h
  | meet x r pc pc' pc1 pc1' evs h1 h2 h3 =>
    have no : ∀ {pc}, sect pc ≠ none → ∀ pc', Broker.meet s.b x r pc pc' = none := by
      intro pc h pc'
      cases pc <;> first | rfl | (simp [sect] at h)
    have no' : ∀ {pc'}, sect pc' ≠ none → ∀ pc, Broker.meet s.b x r pc pc' = none := by
      intro pc' h pc
      cases pc <;> cases pc' <;> first | rfl | (simp [sect] at h)
    have : j = x ∨ j = r := by simpa [takesPart] using ha
    rcases this with rfl | rfl
    · rw [hj] at h1; cases h1; rw [no (nout rfl)] at h3; cases h3
    · rw [hj] at h2; cases h2; rw [no' (nout rfl)] at h3; cases h3
  | ret i r hc =>
    have : j = i := by simpa [takesPart, mine] using ha
    subst this; rw [hj] at hc; cases hc; exact (nout rfl rfl).elim

/-- How much a call has left at most after the critical section it is in. -/
def after : Pos → Nat
  | .rEnd pc => Broker.left pc
  | .wEnd pc => Broker.left pc
  | .chk pc => Broker.left pc - 1
  | .pub1 _ _ _ => 4
  | .pub2 _ _ _ => 4
  | .pub3 _ _ _ _ => 4
  | .del1 _ _ _ => 0
  | .del2 _ _ _ => 0
  | _ => 1

theorem stmt_after {b b' : Mem} {i n : Nat} {key : String} {p p' : Pos} {evs : List Ev} (hw : Wf p)
    (h : stmt b i n key p = some (b', p', evs)) : after p' ≤ after p := by
  cases p <;> simp only [stmt, reduceCtorEq] at h
  case chk pc =>
    cases h
    cases pc <;> simp [Wf, sect] at hw <;> simp only [check, after] <;> split <;> simp [Broker.left]
  case close2 =>
    split at h
    · cases h; simp [after, Broker.left]
    · split at h <;> cases h <;> simp [after, Broker.left]
  case close3 =>
    split at h
    · cases h; simp [after]
    · split at h <;> cases h; simp [after]
  case close4 t =>
    split at h
    · cases h; simp [after]
    · split at h
      · cases h; simp [after]
      · split at h <;> cases h; simp [after]
  case pub1 => split at h <;> cases h <;> simp [after, Broker.left]
  case sub1 => split at h <;> cases h <;> simp [after]
  case sub7 => split at h <;> cases h <;> simp [after, Broker.left]
  case close1 => cases h; split <;> simp [after, Broker.left]
  case sub5 => cases h; split <;> simp [after]
  case del1 => cases h; split <;> simp [after, Broker.left]
  all_goals (cases h; simp [after, Broker.left])

/-- Everybody in a critical section gets to its end. -/
theorem gets_out (hr : Reach cap Any (f 0)) (hf : FairRun f acts) {j : Nat} : ∀ (d n : Nat) {p : Pos}, rank (f n).b p ≤ d →
    (f n).calls j = some p → cls p = .reading ∨ cls p = .writing →
    ∃ m q pc, n ≤ m ∧ (f m).calls j = some q ∧ (q = .rEnd pc ∨ q = .wEnd pc) ∧ cls q = cls p ∧ after q ≤ after p := by
  intro d
  induction d with
  | zero =>
    intro n p hd hj hp
    exfalso
    cases p <;> simp [rank, cls] at hd hp
  | succ d ih =>
    intro n p hd hj hp
    by_cases h1 : ∃ pc, p = .rEnd pc ∨ p = .wEnd pc
    · obtain ⟨pc, h1⟩ := h1
      exact ⟨n, p, pc, Nat.le_refl _, hj, h1, rfl, Nat.le_refl _⟩
    · obtain ⟨k, ht, hk, hl⟩ := moves hr hf hj (forced hr hf hj fun m _ hm => inside_enabled (fair_crashed hf m) hm hp)
      have hjk := hl k (Nat.le_refl _)
      have hrk := fair_reach hr hf (n + k)
      have hrank : rank (f (n + k)).b p = rank (f n).b p := by
        rcases hp with hp | hp
        · cases p <;> simp [cls] at hp <;> rfl
        · have hsubs := still_subs hr hf hj hp k hk
          cases p <;> simp only [rank, hsubs]
      obtain ⟨key, p', evs, hst, hj'⟩ := part_stmt (hf.step (n + k)) hjk ht hp (fun pc e => h1 ⟨pc, .inl e⟩)
        (fun pc e => h1 ⟨pc, .inr e⟩)
      have hlt := stmt_rank hst (by
        rintro t rfl
        obtain ⟨c, _, hsim⟩ := sim_any hrk
        exact (hsim.mid j _ hjk rfl).2.2.2.2)
      have hcls := (stmt_cls hst).1
      obtain ⟨m, q, pc, h2, h3, h4, h5, h6⟩ := ih (n + k + 1) (by omega) hj' (by rw [hcls]; exact hp)
      exact ⟨m, q, pc, by omega, h3, h4, h5.trans hcls, Nat.le_trans h6 (stmt_after (hrk.wf j p hjk) hst)⟩

/-- … and out. -/
theorem unlocks (hr : Reach cap Any (f 0)) (hf : FairRun f acts) {j n : Nat} {p : Pos} (hj : (f n).calls j = some p)
    (hp : cls p = .reading ∨ cls p = .writing) :
    ∃ m q pc, n ≤ m ∧ (f m).calls j = some q ∧ acts m = .lock j ∧ (f (m + 1)).calls j = some (.out pc) ∧
      Broker.left pc ≤ after p ∧ ((cls p = .reading ∧ q = .rEnd pc ∧ (f (m + 1)).mu = { (f m).mu with readers := (f m).mu.readers - 1 }) ∨
        (cls p = .writing ∧ (f (m + 1)).mu.wr = .free)) := by
  obtain ⟨m, q, pc, h1, h2, h3, h4, h5⟩ := gets_out hr hf _ n (Nat.le_refl _) hj hp
  have hen : ∀ k, (f k).calls j = some q → ∃ a, mine j a = true ∧ (step (f k) a).isSome = true := fun k hk =>
    inside_enabled (fair_crashed hf k) hk (by rw [h4]; exact hp)
  obtain ⟨k, ht, _, hl⟩ := moves hr hf h2 (forced hr hf h2 fun k _ hk => hen k hk)
  have hjk := hl k (Nat.le_refl _)
  obtain ⟨p', ha, hlk, hc⟩ := part_lock (hf.step (m + k)) hjk ht (.inl ⟨pc, h3.imp id .inl⟩)
  refine ⟨m + k, q, pc, by omega, hjk, ha, ?_⟩
  rcases h3 with rfl | rfl
  · simp only [lock, Option.some.injEq, Prod.mk.injEq] at hlk
    rw [← hlk.2] at hc
    exact ⟨hc, h5, .inl ⟨h4.symm, rfl, hlk.1.symm⟩⟩
  · simp only [lock, Option.some.injEq, Prod.mk.injEq] at hlk
    rw [← hlk.2] at hc
    exact ⟨hc, h5, .inr ⟨h4.symm, by rw [← hlk.1]⟩⟩

/-- While a writer waits there is no new reader. -/
theorem readers_le {s s' : St} {a : Act} {i : Nat} {pc : PC} (hi : LockInv s) (hs : step s a = some s')
    (hw : s.calls i = some (.wait pc)) (ha : takesPart i a = false) : s'.mu.readers ≤ s.mu.readers := by
  have hci := clsAt_some hw
  have hann : s.mu.wr ≠ .free := fun h => (hi.lock.free h i).1 hci
  cases (step_tr hs).2 with
  | lock k p mu' p' hc h =>
    cases p <;> simp only [lock, reduceCtorEq] at h
    case out =>
      split at h
      · cases h
      all_goals (rw [if_neg hann] at h; cases h)
    case wait => split at h <;> cases h; exact Nat.le_refl _
    case rEnd => cases h; exact Nat.sub_le _ _
    case wEnd => cases h; exact Nat.le_refl _
  | _ => exact Nat.le_refl _

/-- Who waits for readers gets the lock. -/
theorem wait_ends (hr : Reach cap Any (f 0)) (hf : FairRun f acts) {i : Nat} {pc : PC} : ∀ (d n : Nat),
    (f n).mu.readers ≤ d → (f n).calls i = some (.wait pc) → ∃ m, n ≤ m ∧ (f m).calls i = some (enter pc) := by
  have done : ∀ n, (f n).calls i = some (.wait pc) → (∃ m, n ≤ m ∧ takesPart i (acts m) = true) →
      ∃ m, n ≤ m ∧ (f m).calls i = some (enter pc) := by
    intro n hj h
    obtain ⟨k, ht, _, hl⟩ := moves hr hf hj h
    obtain ⟨p', _, hlk, hc⟩ := part_lock (hf.step (n + k)) (hl k (Nat.le_refl _)) ht (.inl ⟨pc, .inr (.inr rfl)⟩)
    simp only [lock] at hlk
    split at hlk
    · simp only [Option.some.injEq, Prod.mk.injEq] at hlk
      exact ⟨n + k + 1, by omega, by rw [hc, ← hlk.2]⟩
    · cases hlk
  intro d
  induction d with
  | zero =>
    intro n hd hj
    have main : (∃ m, n ≤ m ∧ takesPart i (acts m) = true) := by
      refine Classical.byContradiction fun hn => ?_
      have hno : ∀ m, n ≤ m → takesPart i (acts m) = false := fun m hm => by
        rcases Bool.eq_false_or_eq_true (takesPart i (acts m)) with ht | ht
        · exact (hn ⟨m, hm, ht⟩).elim
        · exact ht
      have hrd : ∀ k, (f (n + k)).mu.readers = 0 := by
        intro k
        induction k with
        | zero => exact Nat.le_zero.mp hd
        | succ k ih =>
          have := readers_le (fair_reach hr hf (n + k)).inv (hf.step (n + k)) (still hr hf hj k fun m h1 _ => hno m h1)
            (hno (n + k) (by omega))
          rw [ih] at this
          exact Nat.le_zero.mp this
      refine hn (hf.turn i n fun m hm => ⟨.lock i, by simp [mine], ?_⟩)
      have h1 := hrd (m - n)
      have h2 := still hr hf hj (m - n) fun m h1 _ => hno m h1
      rw [show n + (m - n) = m from by omega] at h1 h2
      simp [step, fair_crashed hf m, h2, lock, h1]
    exact done n hj main
  | succ d ih =>
    intro n hd hj
    by_cases hmv : ∃ m, n ≤ m ∧ takesPart i (acts m) = true
    · exact done n hj hmv
    have hno : ∀ m, n ≤ m → takesPart i (acts m) = false := fun m hm => by
      rcases Bool.eq_false_or_eq_true (takesPart i (acts m)) with ht | ht
      · exact (hmv ⟨m, hm, ht⟩).elim
      · exact ht
    have hst : ∀ m, n ≤ m → (f m).calls i = some (.wait pc) := fun m hm => by
      have := still hr hf hj (m - n) fun m h1 _ => hno m h1
      rwa [show n + (m - n) = m from by omega] at this
    have hle : ∀ k, (f (n + k)).mu.readers ≤ (f n).mu.readers := by
      intro k
      induction k with
      | zero => exact Nat.le_refl _
      | succ k ih =>
        exact Nat.le_trans (readers_le (fair_reach hr hf (n + k)).inv (hf.step (n + k)) (hst _ (by omega))
          (hno (n + k) (by omega))) ih
    obtain ⟨R, _, hlen, hR⟩ := (fair_reach hr hf n).inv.lock.readers
    cases R with
    | nil => exact ih n (by simp at hlen; omega) hj
    | cons j R =>
      have hjr := (hR j).mp List.mem_cons_self
      unfold clsAt at hjr
      split at hjr
      · cases hjr
      next p hp =>
      obtain ⟨m, q, pc', h1, h2, _, _, _, h3⟩ := unlocks hr hf hp (.inl hjr)
      rcases h3 with ⟨_, rfl, hmu⟩ | ⟨h3, _⟩
      · have hpos : 0 < (f m).mu.readers := by
          obtain ⟨R', _, hlen', hR'⟩ := (fair_reach hr hf m).inv.lock.readers
          have : j ∈ R' := (hR' j).mpr (clsAt_some h2)
          have := List.length_pos_of_mem this
          omega
        have hb := hle (m - n)
        rw [show n + (m - n) = m from by omega] at hb
        obtain ⟨m', h4, h5⟩ := ih (m + 1) (by rw [hmu]; dsimp only; omega) (hst (m + 1) (by omega))
        exact ⟨m', by omega, h5⟩
      · rw [hjr] at h3; cases h3

/-- The mutex is not held for ever. -/
theorem gets_free (hr : Reach cap Any (f 0)) (hf : FairRun f acts) (n : Nat) : ∃ m, n ≤ m ∧ (f m).mu.wr = .free := by
  have wr : ∀ n j p, (f n).calls j = some p → cls p = .writing → ∃ m, n ≤ m ∧ (f m).mu.wr = .free := by
    intro n j p hj hp
    obtain ⟨m, q, pc, h1, _, _, _, _, h2⟩ := unlocks hr hf hj (.inr hp)
    rcases h2 with ⟨h2, _⟩ | ⟨_, h2⟩
    · rw [hp] at h2; cases h2
    · exact ⟨m + 1, by omega, h2⟩
  have hinv := (fair_reach hr hf n).inv.lock
  cases hw : (f n).mu.wr with
  | free => exact ⟨n, Nat.le_refl _, hw⟩
  | announced =>
    obtain ⟨j, hj⟩ := hinv.announcer hw
    unfold clsAt at hj
    split at hj
    · cases hj
    next p hp =>
    cases p <;> simp only [cls, reduceCtorEq] at hj
    obtain ⟨m, h1, h2⟩ := wait_ends hr hf _ n (Nat.le_refl _) hp
    obtain ⟨m', h3, h4⟩ := wr m j _ h2 (cls_enter _)
    exact ⟨m', by omega, h4⟩
  | held =>
    obtain ⟨j, hj⟩ := hinv.holder hw
    unfold clsAt at hj
    split at hj
    · cases hj
    next p hp => exact wr n j p hp hj

/-- Who is about to lock does. -/
theorem locks (hr : Reach cap Any (f 0)) (hf : FairRun f acts) {i n : Nat} {pc : PC} {w : Bool}
    (hj : (f n).calls i = some (.out pc)) (hs : sect pc = some w) :
    ∃ m, n ≤ m ∧ (f m).calls i = some (if w then .chk pc else .wait pc) := by
  have main : ∃ m, n ≤ m ∧ takesPart i (acts m) = true := by
    refine Classical.byContradiction fun hn => ?_
    have hno : ∀ m, n ≤ m → takesPart i (acts m) = false := fun m hm => by
      rcases Bool.eq_false_or_eq_true (takesPart i (acts m)) with ht | ht
      · exact (hn ⟨m, hm, ht⟩).elim
      · exact ht
    obtain ⟨k, h1, h2⟩ := hf.mutex i n fun m hm => by
      obtain ⟨k, h1, h2⟩ := gets_free hr hf m
      have h3 := still hr hf hj (k - n) fun m h1 _ => hno m h1
      rw [show n + (k - n) = k from by omega] at h3
      refine ⟨k, h1, ?_⟩
      cases w <;> simp [step, fair_crashed hf k, h3, lock, hs, h2]
    have := hno k h1
    rw [h2] at this
    simp [takesPart, mine] at this
  obtain ⟨k, ht, _, hl⟩ := moves hr hf hj main
  obtain ⟨p', _, hlk, hc⟩ := part_lock (hf.step (n + k)) (hl k (Nat.le_refl _)) ht (.inr ⟨pc, rfl, by rw [hs]; nofun⟩)
  refine ⟨n + k + 1, by omega, ?_⟩
  rw [hc]
  simp only [lock, hs] at hlk
  cases w <;> dsimp only at hlk <;> split at hlk
  · simp only [Option.some.injEq, Prod.mk.injEq] at hlk; rw [← hlk.2]; rfl
  · cases hlk
  · simp only [Option.some.injEq, Prod.mk.injEq] at hlk; rw [← hlk.2]; rfl
  · cases hlk

/-! ## Calls -/

theorem call_left {ops : Nat → Option Op} {b : Mem} {i : Nat} {pc : PC} {op : Op} (hf : Broker.Fits ops b i pc)
    (ho : ops i = some op) : 0 < Broker.left pc := by
  cases pc with
  | run | runCtl | runSel | runDel | runClose => have : ops i = none := hf; rw [ho] at this; cases this
  | notify => have := hf.1; rw [ho] at this; cases this
  | _ => simp [Broker.left]

theorem micro_left {b b' : Mem} {i : Nat} {pc pc' : PC} {alt : Alt} {evs : List Ev} {g : Option PC}
    (hl : 0 < Broker.left pc) (h : Broker.micro b i pc alt = some (b', pc', evs, g)) (hc : b'.crashed = false) :
    Broker.left pc' < Broker.left pc := by
  cases pc <;> simp only [Broker.left, Nat.lt_irrefl] at hl <;> cases alt <;> simp only [Broker.micro, reduceCtorEq] at h <;>
    (repeat' split at h) <;> cases h <;> first | (simp [Broker.left]; done) | (split <;> simp [Broker.left]; done) | (cases hc)

theorem meet_left {b : Mem} {p r : Nat} {pc pc' pc1 pc1' : PC} {evs : List Ev}
    (h : Broker.meet b p r pc pc' = some (pc1, pc1', evs)) : Broker.left pc1 < Broker.left pc ∧ Broker.left pc1' < Broker.left pc' := by
  unfold Broker.meet at h
  split at h
  · split at h
    · cases h
    · split at h <;> cases h; simp [Broker.left]
  · split at h
    · cases h
    · split at h <;> cases h; simp [Broker.left]
  · cases h

/-- The calls of a reachable state. -/
theorem call_at {s : St} (hr : Reach cap Any s) {i : Nat} {op : Op} (ho : s.ops i = some op) :
    ((∃ p, s.calls i = some p ∧ 0 < Broker.left (abs p)) ∨ ∃ r, Ev.ret i r ∈ s.log) := by
  obtain ⟨c, hrc, hsim⟩ := sim_any hr
  have hoc : c.ops i = some op := by rw [hsim.ops]; exact ho
  rcases hrc.pending i op hoc with hp | ⟨r, hp⟩
  · obtain ⟨pc, hpc⟩ := Option.isSome_iff_exists.mp hp
    have hl := call_left (hrc.toInv.fits i pc hpc) hoc
    cases hj : s.calls i with
    | some p =>
      have := hsim.calls.some i p hj
      rw [hpc] at this; cases this
      exact .inl ⟨p, rfl, hl⟩
    | none =>
      exfalso
      have : c.calls i = none := hsim.calls.none i hj fun k q ctx hk hq => by
        have := (hsim.calls.claim k q ctx i hk hq).2
        rw [hpc] at this; cases this
        simp [Broker.left] at hl
      rw [hpc] at this; cases this
  · exact .inr ⟨r, by rw [← hsim.log]; exact hp⟩

/-- Outside of critical sections a call can always go on. -/
theorem out_enabled {s : St} (hr : Reach cap Any s) (hn : s.b.crashed = false) {i : Nat} {op : Op} {pc : PC}
    (ho : s.ops i = some op) (hc : s.calls i = some (.out pc)) (hs : sect pc = none) :
    ∃ a, mine i a = true ∧ (step s a).isSome = true := by
  obtain ⟨c, hrc, hsim⟩ := sim_any hr
  have hoc : c.ops i = some op := by rw [hsim.ops]; exact ho
  have hf := hrc.toInv.fits i _ (hsim.calls.some i _ hc)
  have hb : c.b.sub = s.b.sub := by rw [hsim.b]; rfl
  have one : ∀ alt, alt ≠ .stale → (Broker.micro s.b i pc alt).isSome = true →
      ∃ a, mine i a = true ∧ (step s a).isSome = true := by
    intro alt ha h
    refine ⟨.step i alt, by simp [mine], ?_⟩
    obtain ⟨⟨b', pc', evs, g⟩, hm⟩ := Option.isSome_iff_exists.mp h
    cases g <;> simp [step, hn, hc, hm, hs, ha]
  have sub : ∀ {x}, Broker.about op = some x → ∃ o, s.b.sub x = some o := fun h => by
    rw [← hb]; exact Option.isSome_iff_exists.mp (hrc.toSub.isSome i op _ hoc h)
  cases pc with
  | pubRead => exact one .go nofun rfl
  | pubSel => exact one .timeout nofun rfl
  | recvSel => exact one .timeout nofun rfl
  | handling => exact one (.result none) nofun rfl
  | recvChk x y | unsubChk y | unsubSet y =>
    have h := hf.1; rw [hoc] at h; cases h
    obtain ⟨o, h⟩ := sub rfl
    exact one .go nofun (by simp [Broker.micro, h])
  | recvDrop x =>
    obtain ⟨c, h⟩ := hf.1; rw [hoc] at h; cases h
    obtain ⟨o, h⟩ := sub (x := x) rfl
    refine one .go nofun ?_
    simp only [Broker.micro, h]
    cases s.b.buf o.queue.msg <;> rfl
  | unsubClose x =>
    refine one .go nofun ?_
    simp only [Broker.micro]
    split <;> rfl
  | unsubGo x => exact one .go nofun rfl
  | notify x => have h := hf.1; rw [hoc] at h; cases h
  | run | runCtl | runSel => have : c.ops i = none := hf; rw [hoc] at this; cases this
  | done r => exact ⟨.ret i, by simp [mine], by simp [step, hn, hc]⟩
  | _ => cases hs

/-- What a call does outside of critical sections. -/
theorem part_out {s s' : St} {a : Act} {j : Nat} {pc : PC} (hs : step s a = some s') (hn : s'.b.crashed = false)
    (hi : LockInv s) (hj : s.calls j = some (.out pc))
    (ha : takesPart j a = true) (hp : sect pc = none) (hl : 0 < Broker.left pc) :
    (∃ pc', s'.calls j = some (.out pc') ∧ Broker.left pc' < Broker.left pc) ∨ ∃ r, Ev.ret j r ∈ s'.log := by
  have hne : j ≠ s.next := by
    intro e; rw [hi.num.calls j (by omega)] at hj; cases hj
  cases (step_tr hs).2 with
  | call op h => cases ha
  | cancel => cases ha
  | step i alt pc pc' b' evs hc h1 h2 h3 =>
    have : j = i := by simpa [takesPart, mine] using ha
    subst this; rw [hj] at hc; cases hc
    exact .inl ⟨pc', upd_self .., micro_left hl h3 hn⟩
  | spawn i alt pc pc' g b' evs hc h1 h2 h3 =>
    have : j = i := by simpa [takesPart, mine] using ha
    subst this; rw [hj] at hc; cases hc
    exact .inl ⟨pc', by dsimp only; rw [upd_ne _ _ hne, upd_self], micro_left hl h3 hn⟩
  | lock i q mu' p' hc hl =>
    have : j = i := by simpa [takesPart, mine] using ha
    subst this; rw [hj] at hc; cases hc
    simp only [lock, hp] at hl; cases hl
  | stmt i key q b' p' evs hc h =>
    have : j = i := by simpa [takesPart, mine] using ha
    subst this; rw [hj] at hc; cases hc; cases h
  | meet x r pc pc' pc1 pc1' evs h1 h2 h3 =>
    have hm := meet_left h3
    have : j = x ∨ j = r := by simpa [takesPart] using ha
    by_cases hjr : j = r
    · subst hjr; rw [hj] at h2; cases h2
      exact .inl ⟨pc1', upd_self .., hm.2⟩
    · have hjx := this.resolve_right hjr
      subst hjx; rw [hj] at h1; cases h1
      exact .inl ⟨pc1, by dsimp only; rw [upd_ne _ _ hjr, upd_self], hm.1⟩
  | ret i r hc =>
    have : j = i := by simpa [takesPart, mine] using ha
    subst this
    exact .inr ⟨r, by simp⟩

theorem ops_grow {s s' : St} {a : Act} (hr : Reach cap Any s) {i : Nat} {op : Op} (ho : s.ops i = some op)
    (hs : step s a = some s') : s'.ops i = some op := by
  obtain ⟨c, hrc, hsim⟩ := sim_any hr
  cases (step_tr hs).2 with
  | call op h =>
    have : i ≠ s.next := by
      rintro rfl
      have := hrc.toInv.ops c.next (Nat.le_refl _)
      rw [hsim.next, hsim.ops, ho] at this; cases this
    dsimp only; rw [upd_ne _ _ this]; exact ho
  | _ => exact ho

theorem ops_always (hr : Reach cap Any (f 0)) (hf : FairRun f acts) {i n : Nat} {op : Op} (ho : (f n).ops i = some op) :
    ∀ m, n ≤ m → (f m).ops i = some op := by
  have : ∀ k, (f (n + k)).ops i = some op := by
    intro k
    induction k with
    | zero => exact ho
    | succ k ih => exact ops_grow (fair_reach hr hf (n + k)) ih (hf.step (n + k))
  intro m hm
  have := this (m - n)
  rwa [show n + (m - n) = m from by omega] at this

theorem after_enter {pc : PC} (hs : sect pc = some false) (hl : 0 < Broker.left pc) : after (enter pc) < Broker.left pc := by
  cases pc <;> simp [sect] at hs <;> simp [enter, after, Broker.left] at hl ⊢

/-- A call that is not in a critical section returns. -/
theorem out_returns (hr : Reach cap Any (f 0)) (hf : FairRun f acts) {i : Nat} {op : Op} : ∀ (d n : Nat) {pc : PC},
    Broker.left pc ≤ d → (f n).ops i = some op → (f n).calls i = some (.out pc) → ∃ m r, n ≤ m ∧ Ev.ret i r ∈ (f m).log := by
  intro d
  induction d with
  | zero =>
    intro n pc hd ho hj
    rcases call_at (fair_reach hr hf n) ho with ⟨p, hp, hl⟩ | ⟨r, h⟩
    · rw [hj] at hp; cases hp; have hl : 0 < Broker.left pc := hl; omega
    · exact ⟨n, r, Nat.le_refl _, h⟩
  | succ d ih =>
    intro n pc hd ho hj
    have hl : 0 < Broker.left pc ∨ ∃ r, Ev.ret i r ∈ (f n).log := by
      rcases call_at (fair_reach hr hf n) ho with ⟨p, hp, hl⟩ | h
      · rw [hj] at hp; cases hp; exact .inl hl
      · exact .inr h
    rcases hl with hl | ⟨r, h⟩
    case inr => exact ⟨n, r, Nat.le_refl _, h⟩
    -- from inside of a critical section
    have inside : ∀ m p, n ≤ m → (f m).calls i = some p → cls p = .reading ∨ cls p = .writing → after p < Broker.left pc →
        ∃ m r, n ≤ m ∧ Ev.ret i r ∈ (f m).log := by
      intro m p hm hp hcl haf
      obtain ⟨m', q, pc', h1, _, _, h2, h3, _⟩ := unlocks hr hf hp hcl
      obtain ⟨k, r, h4, h5⟩ := ih (m' + 1) (by omega) (ops_always hr hf ho _ (by omega)) h2
      exact ⟨k, r, by omega, h5⟩
    cases hs : sect pc with
    | none =>
      have hen := forced hr hf hj fun m hm hc =>
        out_enabled (fair_reach hr hf m) (fair_crashed hf m) (ops_always hr hf ho m hm) hc hs
      obtain ⟨k, ht, _, hlk⟩ := moves hr hf hj hen
      rcases part_out (hf.step (n + k)) (fair_crashed hf _) (fair_reach hr hf _).inv (hlk k (Nat.le_refl _)) ht hs hl with
        ⟨pc', h1, h2⟩ | ⟨r, h⟩
      · obtain ⟨m, r, h3, h4⟩ := ih (n + k + 1) (by omega) (ops_always hr hf ho _ (by omega)) h1
        exact ⟨m, r, by omega, h4⟩
      · exact ⟨n + k + 1, r, by omega, h⟩
    | some w =>
      obtain ⟨m, h1, h2⟩ := locks hr hf hj hs
      cases w with
      | true => exact inside m _ h1 h2 (.inl rfl) (by simp only [if_true, after]; omega)
      | false =>
        obtain ⟨m', h3, h4⟩ := wait_ends hr hf _ m (Nat.le_refl _) h2
        exact inside m' _ (by omega) h4 (.inr (cls_enter _)) (after_enter hs hl)

/-- Every call returns. -/
theorem call_returns (hr : Reach cap Any (f 0)) (hf : FairRun f acts) {i n : Nat} {op : Op} (ho : (f n).ops i = some op) :
    ∃ m r, Ev.ret i r ∈ (f m).log := by
  rcases call_at (fair_reach hr hf n) ho with ⟨p, hp, hl⟩ | ⟨r, h⟩
  case inr => exact ⟨n, r, h⟩
  have inside : ∀ m p, n ≤ m → (f m).calls i = some p → cls p = .reading ∨ cls p = .writing →
      ∃ m r, Ev.ret i r ∈ (f m).log := by
    intro m p hm hp hcl
    obtain ⟨m', q, pc', h1, _, _, h2, _⟩ := unlocks hr hf hp hcl
    obtain ⟨k, r, _, h5⟩ := out_returns hr hf _ (m' + 1) (Nat.le_refl _) (ops_always hr hf ho _ (by omega)) h2
    exact ⟨k, r, h5⟩
  cases hcl : cls p with
  | reading => exact inside n p (Nat.le_refl _) hp (.inl hcl)
  | writing => exact inside n p (Nat.le_refl _) hp (.inr hcl)
  | out =>
    cases p <;> simp only [cls, reduceCtorEq] at hcl
    obtain ⟨k, r, _, h⟩ := out_returns hr hf _ n (Nat.le_refl _) ho hp
    exact ⟨k, r, h⟩
  | waiting =>
    cases p <;> simp only [cls, reduceCtorEq] at hcl
    obtain ⟨m, h1, h2⟩ := wait_ends hr hf _ n (Nat.le_refl _) hp
    exact inside m _ h1 h2 (.inr (cls_enter _))

end

end Netscrape.BrokerLock
