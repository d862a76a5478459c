import Verif.Lemmas.BrokerTopic
import Verif.Spec.BrokerCalls

/-!
# Calls end
-/

namespace Netscrape.Broker
open Netscrape.Conc (upd upd_self upd_ne)
open Netscrape.Spec Netscrape.Spec.Broker

/-- How many steps of its own a call has left at most. -/
def left : PC → Nat
  | .openChk _ => 3
  | .openSet _ => 2
  | .closing => 2
  | .pubChk _ _ _ => 6
  | .pubGet _ _ _ => 5
  | .pubRead _ _ _ => 4
  | .pubSel _ _ _ _ => 3
  | .pubClose => 2
  | .subChk _ _ => 3
  | .subMake _ _ => 2
  | .recvChk _ _ => 4
  | .recvSel _ _ => 3
  | .recvDrop _ => 2
  | .handling _ => 2
  | .unsubChk _ => 5
  | .unsubClose _ => 4
  | .unsubSet _ => 3
  | .unsubGo _ => 2
  | .done _ => 1
  | _ => 0

def rest (s : St) (i : Nat) : Nat :=
  if s.b.crashed then 0 else
  match s.calls i with
  | none => 0
  | some pc => left pc

theorem mic_left {ops : Nat → Option Op} {b b' : Mem} {i : Nat} {pc pc' : PC} {a : Alt} {evs : List Ev}
    {g : Option PC} {op : Op} (hf : Fits ops b i pc) (ho : ops i = some op) (h : Mic b i pc a b' pc' evs g) :
    left pc' < left pc ∨ (b'.crashed = true ∧ 0 < left pc) := by
  cases h with
  | unsubCrash x hx => exact .inr ⟨rfl, by simp [left]⟩
  | notifyMsg | notifyExit => have := hf.1; rw [ho] at this; cases this
  | run | runCtl | runWas | runCtx | runExit | runMsg | runNoDel | runDel | runClose =>
    have : ops i = none := hf
    rw [ho] at this; cases this
  | _ => left; simp only [left]; omega

theorem left_step {cap : Int} {s s' : St} {a : Act} {i : Nat} {op : Op} (hr : Reach cap Any s)
    (ho : s.ops i = some op) (hs : Broker.step s a = some s') :
    rest s' i ≤ rest s i ∧ (mine i a = true → rest s' i < rest s i) := by
  have hi := hr.toInv
  obtain ⟨hn, ht⟩ := step_tr hs
  have hne : i ≠ s.next := by rintro rfl; rw [hi.ops _ (Nat.le_refl _)] at ho; cases ho
  have same : s'.calls i = s.calls i → rest s' i ≤ rest s i := by
    intro h
    unfold rest
    rw [h, hn]
    split
    · exact Nat.zero_le _
    · exact Nat.le_refl _
  refine tr_cases hi ht ?_ ?_ ?_ ?_ ?_
  · rintro op' rfl _ rfl
    exact ⟨same (upd_ne _ _ hne), by simp [mine]⟩
  · rintro c rfl rfl
    exact ⟨same rfl, by simp [mine]⟩
  · rintro j alt pc pc' evs g rfl ms
    by_cases hji : i = j
    · subst hji
      have key : rest s' i < rest s i := by
        unfold rest
        rw [hn, ms.here, ms.there]
        rcases mic_left (hi.fits _ _ ms.here) ho ms.mic with h | ⟨h1, h2⟩
        · split
          · simp only [Bool.false_eq_true, if_false]; omega
          · exact h
        · rw [h1]; exact h2
      exact ⟨Nat.le_of_lt key, fun _ => key⟩
    · exact ⟨same (ms.keep i hji hne), by simp [mine, hji]⟩
  · rintro p r ctx q ex m x o pr pr' evs rfl ms
    refine ⟨?_, by simp [mine]⟩
    unfold rest
    rw [ms.b, hn]
    by_cases hp : i = p
    · subst hp; rw [ms.pub, ms.pub']; simp [left]
    · by_cases hrr : i = r
      · subst hrr
        rw [ms.recv, ms.recv']
        rcases ms.kind with ⟨c, rfl, rfl, _⟩ | ⟨rfl, rfl, _⟩ <;> simp [left]
      · rw [ms.keep i hp hrr]; exact Nat.le_refl _
  · rintro j v rfl hc rfl
    by_cases hij : i = j
    · subst hij
      have : rest { s with calls := upd s.calls i none, log := s.log ++ [.ret i v] } i < rest s i := by
        unfold rest
        dsimp only
        rw [hn, upd_self, hc]; simp [left]
      exact ⟨Nat.le_of_lt this, fun _ => this⟩
    · exact ⟨same (upd_ne _ _ hij), by simp [mine, hij]⟩

/-- Numbers are used once. -/
theorem ops_stay {s s' : St} {a : Act} {i : Nat} (hi : Inv s) (hl : i < s.next) (ho : s.ops i = none)
    (hs : Broker.step s a = some s') : i < s'.next ∧ s'.ops i = none := by
  obtain ⟨_, ht⟩ := step_tr hs
  refine tr_cases hi ht ?_ ?_ ?_ ?_ ?_
  · rintro op rfl _ rfl
    exact ⟨Nat.lt_succ_of_lt hl, by dsimp only; rw [upd_ne _ _ (Nat.ne_of_lt hl)]; exact ho⟩
  · rintro c rfl rfl; exact ⟨hl, ho⟩
  · rintro _ _ _ _ _ _ rfl ms; exact ⟨Nat.lt_of_lt_of_le hl ms.num, by rw [ms.ops]; exact ho⟩
  · rintro _ _ _ _ _ _ _ _ _ _ _ rfl ms; exact ⟨by rw [ms.num]; exact hl, by rw [ms.ops]; exact ho⟩
  · rintro j v rfl _ rfl; exact ⟨hl, ho⟩

theorem ops_stay_exec {cap : Int} {acts : List Act} : ∀ {s s' : St} {i : Nat}, Reach cap Any s → i < s.next →
    s.ops i = none → exec s acts = some s' → s'.ops i = none := by
  induction acts with
  | nil => intro s s' i _ _ h he; cases he; exact h
  | cons a as ih =>
    intro s s' i hr hl h he
    unfold exec at he
    cases hs : Broker.step s a with
    | none => rw [hs] at he; cases he
    | some s1 =>
      rw [hs] at he
      obtain ⟨h1, h2⟩ := ops_stay hr.toInv hl h hs
      exact ih (.step _ _ _ hr trivial hs) h1 h2 he

theorem mine_le {cap : Int} {acts : List Act} : ∀ {s s' : St} {i : Nat} {op : Op}, Reach cap Any s →
    s.ops i = some op → exec s acts = some s' → acts.countP (mine i) + rest s' i ≤ rest s i := by
  induction acts with
  | nil => intro s s' i op _ _ he; cases he; simp
  | cons a as ih =>
    intro s s' i op hr ho he
    unfold exec at he
    cases hs : Broker.step s a with
    | none => rw [hs] at he; cases he
    | some s1 =>
      rw [hs] at he
      have h1 := ih (.step _ _ _ hr trivial hs) ((Digest.step_grow hr.toInv hs).1 i op ho) he
      obtain ⟨h2, h3⟩ := left_step hr ho hs
      rw [List.countP_cons]
      split
      · have := h3 ‹_›; omega
      · omega

theorem left_start (op : Op) : left (.start op) = bound op := by cases op <;> rfl

/-- The steps of a call in a whole execution. -/
theorem mine_bound {cap : Int} {acts : List Act} : ∀ {s s' : St} {i : Nat} {op : Op}, Reach cap Any s →
    s.next ≤ i → exec s acts = some s' → s'.ops i = some op → acts.countP (mine i) ≤ bound op := by
  induction acts with
  | nil => intro s s' i op _ _ he _; cases he; simp
  | cons a as ih =>
    intro s s' i op hr hl he ho
    unfold exec at he
    cases hs : Broker.step s a with
    | none => rw [hs] at he; cases he
    | some s1 =>
      rw [hs] at he
      have hr1 : Reach cap Any s1 := .step _ _ _ hr trivial hs
      have hi := hr.toInv
      have hcn : s.calls i = none := hi.calls _ hl
      have hnot : mine i a = false := by
        cases hm : mine i a with
        | false => rfl
        | true =>
          unfold Broker.step at hs
          split at hs
          · cases hs
          · cases a with
            | step j alt =>
              have : i = j := by simpa [mine] using hm
              subst this; simp [hcn] at hs
            | ret j =>
              have : i = j := by simpa [mine] using hm
              subst this; simp [hcn] at hs
            | _ => simp [mine] at hm
      rw [List.countP_cons, hnot]
      simp only [Bool.false_eq_true, if_false, Nat.add_zero]
      by_cases h1 : s1.next ≤ i
      · exact ih hr1 h1 he ho
      · -- `i` got its number in this step
        have hlt : i < s1.next := Nat.lt_of_not_le h1
        cases h2 : s1.ops i with
        | none => rw [ops_stay_exec hr1 hlt h2 he] at ho; cases ho
        | some op' =>
          have h3 : s1.calls i = some (.start op') := by
            obtain ⟨_, ht⟩ := step_tr hs
            have hon : s.ops i = none := hi.ops _ hl
            refine tr_cases hi ht ?_ ?_ ?_ ?_ ?_
            · rintro op'' rfl _ rfl
              dsimp only at h2 ⊢
              by_cases hin : i = s.next
              · subst hin; rw [upd_self] at h2 ⊢; cases h2; rfl
              · rw [upd_ne _ _ hin, hon] at h2; cases h2
            · rintro c rfl rfl; rw [hon] at h2; cases h2
            · rintro _ _ _ _ _ _ rfl ms; rw [ms.ops, hon] at h2; cases h2
            · rintro _ _ _ _ _ _ _ _ _ _ _ rfl ms; rw [ms.ops, hon] at h2; cases h2
            · rintro j v rfl _ rfl; rw [hon] at h2; cases h2
          have h4 : s'.ops i = some op' := by
            have grow : ∀ {acts : List Act} {s s' : St}, Reach cap Any s → exec s acts = some s' →
                s.ops i = some op' → s'.ops i = some op' := by
              intro acts
              induction acts with
              | nil => intro s s' _ he h; cases he; exact h
              | cons a as ih =>
                intro s s' hr he h
                unfold exec at he
                cases hs : Broker.step s a with
                | none => rw [hs] at he; cases he
                | some s1 =>
                  rw [hs] at he
                  exact ih (.step _ _ _ hr trivial hs) he ((Digest.step_grow hr.toInv hs).1 i _ h)
            exact grow hr1 he h2
          rw [ho] at h4; cases h4
          have h5 := mine_le hr1 h2 he
          have h6 : rest s1 i ≤ bound op := by
            unfold rest
            rw [h3, ← left_start]
            split
            · exact Nat.zero_le _
            · exact Nat.le_refl _
          omega

/-- A call in progress can always make a step. -/
theorem can_step {cap : Int} {s : St} {i : Nat} {op : Op} {pc : PC} (hr : Reach cap Any s)
    (hn : s.b.crashed = false) (ho : s.ops i = some op) (hc : s.calls i = some pc) :
    ∃ a, mine i a = true ∧ (Broker.step s a).isSome = true := by
  have hi := hr.toInv
  have hf := hi.fits _ _ hc
  have one : ∀ alt, (micro s.b i pc alt).isSome = true →
      ∃ a, mine i a = true ∧ (Broker.step s a).isSome = true := by
    intro alt h
    refine ⟨.step i alt, by simp [mine], ?_⟩
    obtain ⟨⟨b', pc', evs, g⟩, hm⟩ := Option.isSome_iff_exists.mp h
    cases g <;> simp [Broker.step, hn, hc, hm]
  have sub : ∀ {x}, about op = some x → ∃ o, s.b.sub x = some o := fun h =>
    Option.isSome_iff_exists.mp (hr.toSub.isSome i op _ ho h)
  cases pc with
  | pubSel => exact one .timeout rfl
  | recvSel => exact one .timeout rfl
  | handling => exact one (.result none) rfl
  | recvChk c x | unsubChk x | unsubSet x =>
    have h := hf.1; rw [ho] at h; cases h
    obtain ⟨o, h⟩ := sub (x := x) rfl
    exact one .go (by simp [micro, h])
  | recvDrop x =>
    obtain ⟨c, h⟩ := hf.1; rw [ho] at h; cases h
    obtain ⟨o, h⟩ := sub (x := x) rfl
    refine one .go ?_
    simp only [micro, h]
    cases s.b.buf o.queue.msg <;> rfl
  | unsubClose x =>
    refine one .go ?_
    simp only [micro]
    split <;> rfl
  | notify x => have h := hf.1; rw [ho] at h; cases h
  | run | runCtl | runSel | runDel | runClose =>
    have : s.ops i = none := hf
    rw [ho] at this; cases this
  | done r => exact ⟨.ret i, by simp [mine], by simp [Broker.step, hn, hc]⟩
  | _ => exact one .go rfl

/-- A number cannot get smaller again and again. -/
theorem no_descent (μ : Nat → Nat) (h1 : ∀ n, μ (n + 1) ≤ μ n) (h2 : ∀ n, ∃ m, n ≤ m ∧ μ (m + 1) < μ m) :
    False := by
  have mono : ∀ n k, μ (n + k) ≤ μ n := by
    intro n k
    induction k with
    | zero => exact Nat.le_refl _
    | succ k ih => exact Nat.le_trans (h1 (n + k)) ih
  have key : ∀ k n, μ n ≤ k → False := by
    intro k
    induction k with
    | zero =>
      intro n hn
      obtain ⟨m, hm, hlt⟩ := h2 n
      have := mono n (m - n)
      rw [show n + (m - n) = m from by omega] at this
      omega
    | succ k ih =>
      intro n hn
      obtain ⟨m, hm, hlt⟩ := h2 n
      have := mono n (m - n)
      rw [show n + (m - n) = m from by omega] at this
      exact ih (m + 1) (by omega)
  exact key _ 0 (Nat.le_refl _)

theorem fair_returns {cap : Int} {f : Nat → St} {acts : Nat → Act} {i : Nat} {op : Op}
    (hr : Reach cap Any (f 0)) (ho : (f 0).ops i = some op) (hf : FairTo i f acts) :
    ∃ n r, Ev.ret i r ∈ (f n).log := by
  have hreach : ∀ n, Reach cap Any (f n) := by
    intro n
    induction n with
    | zero => exact hr
    | succ n ih => exact .step _ _ _ ih trivial (hf.step n)
  have hops : ∀ n, (f n).ops i = some op := by
    intro n
    induction n with
    | zero => exact ho
    | succ n ih => exact (Digest.step_grow (hreach n).toInv (hf.step n)).1 i op ih
  by_cases hall : ∀ n, ((f n).calls i).isSome = true
  · exfalso
    refine no_descent (fun n => rest (f n) i) (fun n => (left_step (hreach n) (hops n) (hf.step n)).1) ?_
    intro n
    obtain ⟨m, h1, h2⟩ := hf.fair n (fun m _ => by
      obtain ⟨pc, hpc⟩ := Option.isSome_iff_exists.mp (hall m)
      exact can_step (hreach m) (step_tr (hf.step m)).1 (hops m) hpc)
    exact ⟨m, h1, (left_step (hreach m) (hops m) (hf.step m)).2 h2⟩
  · obtain ⟨n, hn⟩ := Classical.not_forall.mp hall
    rcases (hreach n).pending i op (hops n) with h | ⟨r, h⟩
    · exact (hn h).elim
    · exact ⟨n, r, h⟩

end Netscrape.Broker
