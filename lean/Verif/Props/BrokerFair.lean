import Verif.Lemmas.BrokerFair
import Verif.Props.BrokerLock

/-!
# The in-memory broker, statement by statement: calls return
-/

namespace Netscrape.Props
open Netscrape.BrokerLock Netscrape.Spec.BrokerLock Netscrape.Props.Lock
open Netscrape.Broker (Mem Msg Op Ret PC Ev Alt Queue Sub Loc)

/-! ## C97 -/

/-- C97: in every execution without end in which no goroutine and nobody who wants the mutex is passed over for ever,
every call returns, whatever others do and wherever they are. -/
theorem c97_returns {cap : Int} {f : Nat → St} {acts : Nat → Act} (h : Reach cap Any (f 0)) (hf : FairRun f acts)
    {i n : Nat} {op : Op} (ho : (f n).ops i = some op) : ∃ m r, Ev.ret i r ∈ (f m).log := call_returns h hf ho

/-- C97: so does every goroutine, the broker's own included, get the mutex when it asks for it. -/
theorem c97_locks {cap : Int} {f : Nat → St} {acts : Nat → Act} (h : Reach cap Any (f 0)) (hf : FairRun f acts)
    {i n : Nat} {pc : PC} {w : Bool} (hi : (f n).calls i = some (.out pc)) (hs : sect pc = some w) :
    ∃ m, n ≤ m ∧ (f m).calls i = some (if w then .chk pc else enter pc) := by
  obtain ⟨m, h1, h2⟩ := locks h hf hi hs
  cases w with
  | true => exact ⟨m, h1, h2⟩
  | false =>
    obtain ⟨m', h3, h4⟩ := wait_ends h hf _ m (Nat.le_refl _) h2
    exact ⟨m', Nat.le_trans h1 h3, h4⟩

/-- C97: and lets go of it; from time to time nobody holds it or waits for it to write. -/
theorem c97_unlocks {cap : Int} {f : Nat → St} {acts : Nat → Act} (h : Reach cap Any (f 0)) (hf : FairRun f acts) (n : Nat) :
    (∃ m, n ≤ m ∧ (f m).mu.wr = .free) ∧
    ∀ i p, (f n).calls i = some p → (∀ pc, p ≠ .out pc) → ∃ m pc, n ≤ m ∧ (f m).calls i = some (.out pc) := by
  refine ⟨gets_free h hf n, fun i p hi hp => ?_⟩
  have inside : ∀ m p, n ≤ m → (f m).calls i = some p → cls p = .reading ∨ cls p = .writing →
      ∃ m pc, n ≤ m ∧ (f m).calls i = some (.out pc) := by
    intro m p hm hp hcl
    obtain ⟨m', q, pc, h1, _, _, h2, _⟩ := unlocks h hf hp hcl
    exact ⟨m' + 1, pc, by omega, h2⟩
  cases hcl : cls p with
  | reading => exact inside n p (Nat.le_refl _) hi (.inl hcl)
  | writing => exact inside n p (Nat.le_refl _) hi (.inr hcl)
  | out => cases p <;> simp only [cls, reduceCtorEq] at hcl; exact (hp _ rfl).elim
  | waiting =>
    cases p <;> simp only [cls, reduceCtorEq] at hcl
    obtain ⟨m, h1, h2⟩ := wait_ends h hf _ n (Nat.le_refl _) hi
    exact inside m _ h1 h2 (.inr (cls_enter _))

/-- `Close` asks for the mutex while `Sub` holds it for reading; afterwards a context is cancelled for ever. -/
def Lock.early : List Act := [.lock 1, .lock 0, .stmt 1 "", .lock 1, .lock 0, .stmt 0 "", .lock 0, .ret 1, .ret 0]
def Lock.acts (n : Nat) : Act := early.getD n (.cancel 0)
def Lock.states : Nat → St
  | 0 => run 0 [.call .close, .call (.sub "t" "u")]
  | n + 1 => (step (states n) (acts n)).getD (states n)

theorem Lock.states_succ {n : Nat} (h : (step (states n) (acts n)).isSome = true) :
    step (states n) (acts n) = some (states (n + 1)) := by
  obtain ⟨s', hs⟩ := Option.isSome_iff_exists.mp h
  rw [states, hs]; rfl

theorem Lock.states_early : ∀ n, n < 9 → (step (states n) (acts n)).isSome = true := by decide +kernel

theorem Lock.states_reach : ∀ n, n ≤ 9 → Reach 0 Any (states n)
  | 0, _ => reach_run (by decide)
  | n + 1, h => .step _ _ _ (states_reach n (by omega)) trivial (states_succ (states_early n (by omega)))

theorem Lock.acts_late (n : Nat) : acts (9 + n) = .cancel 0 := by
  unfold acts
  rw [List.getD_eq_getElem?_getD, List.getElem?_eq_none (by rw [show early.length = 9 from rfl]; omega)]
  rfl

theorem Lock.states_late : ∀ n, (∀ j, (states (9 + n)).calls j = none) ∧ (states (9 + n)).b.crashed = false
  | 0 => by
    refine ⟨fun j => ?_, by decide +kernel⟩
    rcases j with _ | _ | j
    · decide +kernel
    · decide +kernel
    · exact (states_reach 9 (Nat.le_refl _)).inv.num.calls (j + 2)
        (by rw [show (states 9).next = 2 from by decide +kernel]; omega)
  | n + 1 => by
    obtain ⟨h1, h2⟩ := states_late n
    rw [show states (9 + (n + 1)) = (step (states (9 + n)) (acts (9 + n))).getD (states (9 + n)) from rfl, acts_late]
    simp only [step, h2, Bool.false_eq_true, if_false, Option.getD_some]
    exact ⟨h1, trivial⟩

theorem Lock.states_stuck {n i : Nat} {a : Act} (ha : mine i a = true) : step (states (9 + n)) a = none := by
  obtain ⟨h1, h2⟩ := states_late n
  cases a <;> first | (cases ha; done) | simp [step, h1, h2]

example : Reach 0 Any (states 0) ∧ FairRun states acts ∧ (states 0).ops 0 = some .close ∧
    (states 0).ops 1 = some (.sub "t" "u") ∧ (states 0).log = [.call 0, .call 1] ∧
    (states 0).calls 0 = some (.out .closing) ∧ (states 0).calls 1 = some (.out (.subChk "t" "u")) ∧
    (states 2).calls 0 = some (.wait .closing) ∧ (states 2).calls 1 = some (.chk (.subChk "t" "u")) := by
  refine ⟨states_reach 0 (by omega), ⟨?_, ?_, ?_⟩, by decide +kernel, by decide +kernel, by decide +kernel,
    by decide +kernel, by decide +kernel, by decide +kernel, by decide +kernel⟩
  · intro n
    refine states_succ ?_
    by_cases hn : n < 9
    · exact states_early n hn
    · obtain ⟨m, rfl⟩ : ∃ m, n = 9 + m := ⟨n - 9, by omega⟩
      rw [acts_late]
      simp [step, (states_late m).2]
  · intro i n h
    obtain ⟨a, ha, hs⟩ := h (9 + n) (by omega)
    rw [states_stuck ha] at hs; cases hs
  · intro i n h
    obtain ⟨k, hk, hs⟩ := h (9 + n) (by omega)
    obtain ⟨m, rfl⟩ : ∃ m, k = 9 + m := ⟨k - 9, by omega⟩
    rw [states_stuck (i := i) (by simp [mine])] at hs; cases hs

end Netscrape.Props
