import Verif.Lemmas.Linearizable

/-!
# A check that refutes linearizability

`couldLin` tries all orders of the calls of a history. It is used on concrete histories only.
-/

namespace Netscrape.Conc
open Netscrape.Spec

variable {σ Op Out : Type}

/-- What call `i` returned. -/
def outOf (i : Nat) : List (Ev Op Out) → Option Out
  | [] => none
  | .res j _ out :: h => if j = i then some out else outOf i h
  | .inv .. :: h => outOf i h

/-- The calls made. -/
def callsOf : List (Ev Op Out) → List (Nat × Op)
  | [] => []
  | .inv i _ op :: h => (i, op) :: callsOf h
  | .res .. :: h => callsOf h

/-- Call `i` returned before call `j` was made. -/
def precedes (i j : Nat) : List (Ev Op Out) → Bool
  | [] => false
  | .res k _ _ :: h => (k == i && (callsOf h).any (fun x => x.1 == j)) || precedes i j h
  | .inv .. :: h => precedes i j h

/-- Can the calls in `rem` be made one at a time from `s` on, with the results of `h`? `eqo` may take different
results for equal, but not conversely. -/
def search (seq : σ → Op → σ × Out) (eqo : Out → Out → Bool) (h : List (Ev Op Out)) :
    Nat → σ → List (Nat × Op) → Bool
  | 0, _, _ => true
  | n + 1, s, rem => rem.all (fun x => (outOf x.1 h).isNone) || rem.any fun x =>
      rem.all (fun y => !precedes y.1 x.1 h) &&
      (match outOf x.1 h with | none => true | some o => eqo (seq s x.2).2 o) &&
      search seq eqo h n (seq s x.2).1 (rem.filter fun y => y.1 != x.1)

def couldLin (seq : σ → Op → σ × Out) (eqo : Out → Out → Bool) (s : σ) (h : List (Ev Op Out)) : Bool :=
  search seq eqo h (callsOf h).length s (callsOf h)

theorem outOf_mem {i : Nat} {o : Out} : ∀ {h : List (Ev Op Out)}, outOf i h = some o → ∃ t, Ev.res i t o ∈ h := by
  intro h
  induction h with
  | nil => intro e; cases e
  | cons a h ih =>
    intro e
    cases a with
    | inv j t op =>
      obtain ⟨t', h'⟩ := ih e
      exact ⟨t', List.mem_cons_of_mem _ h'⟩
    | res j t out =>
      simp only [outOf] at e
      split at e
      · next hj =>
        cases e
        subst hj
        exact ⟨t, List.mem_cons_self⟩
      · obtain ⟨t', h'⟩ := ih e
        exact ⟨t', List.mem_cons_of_mem _ h'⟩

theorem callsOf_mem {i t : Nat} {op : Op} : ∀ {h : List (Ev Op Out)}, Ev.inv i t op ∈ h → (i, op) ∈ callsOf h := by
  intro h
  induction h with
  | nil => intro e; cases e
  | cons a h ih =>
    intro e
    rcases List.mem_cons.mp e with rfl | e'
    · exact List.mem_cons_self
    · cases a with
      | inv j t op => exact List.mem_cons_of_mem _ (ih e')
      | res j t out => exact ih e'

theorem callsOf_inv {i : Nat} {op : Op} : ∀ {h : List (Ev Op Out)}, (i, op) ∈ callsOf h → ∃ t, Ev.inv i t op ∈ h := by
  intro h
  induction h with
  | nil => intro e; cases e
  | cons a h ih =>
    intro e
    cases a with
    | inv j t op' =>
      rcases List.mem_cons.mp e with e | e
      · cases e; exact ⟨t, List.mem_cons_self⟩
      · obtain ⟨t', h'⟩ := ih e
        exact ⟨t', List.mem_cons_of_mem _ h'⟩
    | res j t out =>
      obtain ⟨t', h'⟩ := ih e
      exact ⟨t', List.mem_cons_of_mem _ h'⟩

theorem precedes_before {i j : Nat} : ∀ {h : List (Ev Op Out)}, precedes i j h = true →
    ∃ t out t' op', Before (Ev.res i t out) (Ev.inv j t' op') h := by
  intro h
  induction h with
  | nil => intro e; cases e
  | cons a h ih =>
    intro e
    have later : precedes i j h = true → ∃ t out t' op', Before (Ev.res i t out) (Ev.inv j t' op') (a :: h) := by
      intro e
      obtain ⟨t, out, t', op', x, y, z, e⟩ := ih e
      exact ⟨t, out, t', op', a :: x, y, z, by rw [e]; rfl⟩
    cases a with
    | inv k t op => exact later e
    | res k t out =>
      simp only [precedes, Bool.or_eq_true, Bool.and_eq_true, beq_iff_eq, List.any_eq_true] at e
      rcases e with ⟨rfl, x, hx, rfl⟩ | e
      · obtain ⟨t', h'⟩ := callsOf_inv (i := x.1) (op := x.2) hx
        obtain ⟨l1, l2, rfl⟩ := List.append_of_mem h'
        exact ⟨t, out, t', x.2, [], l1, l2, rfl⟩
      · exact later e

theorem search_of_legal (seq : σ → Op → σ × Out) {eqo : Out → Out → Bool} (heqo : ∀ o, eqo o o = true)
    (h : List (Ev Op Out)) : ∀ (n : Nat) (lin : List (Nat × Op × Out)) (s : σ) (rem : List (Nat × Op)),
    Legal seq s lin → (lin.map fun x => x.1).Nodup → (∀ x ∈ lin, (x.1, x.2.1) ∈ rem) →
    (∀ y ∈ rem, outOf y.1 h ≠ none → ∃ x ∈ lin, x.1 = y.1) →
    (∀ x ∈ lin, ∀ o, outOf x.1 h = some o → x.2.2 = o) →
    (∀ a b, Before a b lin → precedes b.1 a.1 h = false) →
    (∀ a ∈ lin, precedes a.1 a.1 h = false) →
    search seq eqo h n s rem = true := by
  intro n
  induction n with
  | zero => intros; rfl
  | succ n ih =>
    intro lin s rem hl hnd hin hall hout hbef hself
    simp only [search, Bool.or_eq_true]
    cases lin with
    | nil =>
      left
      rw [List.all_eq_true]
      intro y hy
      cases ho : outOf y.1 h with
      | none => rfl
      | some o =>
        obtain ⟨x, hx, _⟩ := hall y hy (by rw [ho]; exact fun e => nomatch e)
        cases hx
    | cons x lin =>
      right
      rw [List.any_eq_true]
      refine ⟨(x.1, x.2.1), hin x List.mem_cons_self, ?_⟩
      rw [List.map_cons, List.nodup_cons] at hnd
      simp only [Bool.and_eq_true]
      refine ⟨⟨?_, ?_⟩, ?_⟩
      · rw [List.all_eq_true]
        intro y hy
        rw [Bool.not_eq_true']
        cases hp : precedes y.1 x.1 h with
        | false => rfl
        | true =>
          obtain ⟨t, out, t', op', hb⟩ := precedes_before hp
          have hres : outOf y.1 h ≠ none := by
            obtain ⟨l1, l2, l3, e⟩ := hb
            rw [e]
            clear e
            induction l1 with
            | nil => simp [outOf]
            | cons a l1 ih2 =>
              cases a with
              | inv => exact ih2
              | res j t2 o =>
                rw [List.cons_append, outOf]
                split
                · exact fun e => nomatch e
                · exact ih2
          obtain ⟨z, hz, hzy⟩ := hall y hy hres
          rcases List.mem_cons.mp hz with rfl | hz
          · have := hself z List.mem_cons_self
            rw [← hzy] at hp
            rw [hp] at this
            cases this
          · obtain ⟨l1, l2, e⟩ := List.append_of_mem hz
            have := hbef x z ⟨[], l1, l2, by rw [e]; rfl⟩
            rw [hzy, hp] at this
            cases this
      · cases ho : outOf x.1 h with
        | none => rfl
        | some o =>
          simp only
          rw [← hout x List.mem_cons_self o ho, hl.1]
          exact heqo _
      · refine ih lin _ _ hl.2 hnd.2 ?_ ?_ ?_ ?_ ?_
        · intro z hz
          rw [List.mem_filter]
          refine ⟨hin z (List.mem_cons_of_mem _ hz), ?_⟩
          simp only [bne_iff_ne]
          intro e
          exact hnd.1 (e ▸ List.mem_map.mpr ⟨z, hz, rfl⟩)
        · intro y hy ho
          rw [List.mem_filter] at hy
          obtain ⟨z, hz, hzy⟩ := hall y hy.1 ho
          rcases List.mem_cons.mp hz with rfl | hz
          · simp [hzy] at hy
          · exact ⟨z, hz, hzy⟩
        · exact fun z hz => hout z (List.mem_cons_of_mem _ hz)
        · rintro a b ⟨l1, l2, l3, e⟩
          exact hbef a b ⟨x :: l1, l2, l3, by rw [e]; rfl⟩
        · exact fun z hz => hself z (List.mem_cons_of_mem _ hz)

private theorem nodup_unique {α β : Type} {f : α → β} {l : List α} (h : (l.map f).Nodup) {x y : α} (hx : x ∈ l)
    (hy : y ∈ l) (e : f x = f y) : x = y := by
  induction l with
  | nil => cases hx
  | cons a l ih =>
    rw [List.map_cons, List.nodup_cons] at h
    rcases List.mem_cons.mp hx with hx | hx <;> rcases List.mem_cons.mp hy with hy | hy
    · rw [hx, hy]
    · exact absurd (List.mem_map.mpr ⟨y, hy, by rw [← e, hx]⟩) h.1
    · exact absurd (List.mem_map.mpr ⟨x, hx, by rw [e, hy]⟩) h.1
    · exact ih h.2 hx hy

private theorem before_asymm {α β : Type} {f : α → β} {l : List α} (h : (l.map f).Nodup) {x y : α}
    (h1 : Before x y l) (h2 : Before y x l) : False := by
  obtain ⟨a, b, d, rfl⟩ := h1
  obtain ⟨a', b', d', e⟩ := h2
  induction a generalizing a' with
  | nil =>
    simp only [List.nil_append, List.map_cons, List.nodup_cons] at h
    cases a' with
    | nil =>
      simp only [List.nil_append, List.cons.injEq] at e
      exact h.1 (by rw [e.1]; simp)
    | cons z a' =>
      simp only [List.nil_append, List.cons_append, List.cons.injEq] at e
      exact h.1 (by rw [e.2]; simp)
  | cons z a ih =>
    simp only [List.cons_append, List.map_cons, List.nodup_cons] at h
    cases a' with
    | nil =>
      simp only [List.nil_append, List.cons_append, List.cons.injEq] at e
      exact h.1 (by rw [e.1]; simp)
    | cons z' a' =>
      simp only [List.cons_append, List.cons.injEq] at e
      exact ih h.2 a' e.2

theorem not_linearizable {seq : σ → Op → σ × Out} {eqo : Out → Out → Bool} (heqo : ∀ o, eqo o o = true) {s : σ}
    {h : List (Ev Op Out)} (hc : couldLin seq eqo s h = false) : ¬ Linearizable seq s h := by
  rintro ⟨lin, hl, he⟩
  have hrt : ∀ x ∈ lin, ∀ i, precedes i x.1 h = true → ∃ y ∈ lin, y.1 = i ∧ Before y x lin := by
    intro x hx i hp
    obtain ⟨t, out, t', op', hb⟩ := precedes_before hp
    exact he.realTime i t out x.1 t' op' hb x hx rfl
  have : couldLin seq eqo s h = true := by
    refine search_of_legal seq heqo h _ lin s _ hl he.once ?_ ?_ ?_ ?_ ?_
    · intro x hx
      obtain ⟨t, hx'⟩ := he.called x.1 x.2.1 x.2.2 hx
      exact callsOf_mem hx'
    · intro y _ ho
      cases ho' : outOf y.1 h with
      | none => exact absurd ho' ho
      | some o =>
        obtain ⟨t, hr⟩ := outOf_mem ho'
        obtain ⟨op, hm⟩ := he.returned y.1 t o hr
        exact ⟨_, hm, rfl⟩
    · intro x hx o ho
      obtain ⟨t, hr⟩ := outOf_mem ho
      obtain ⟨op, hm⟩ := he.returned x.1 t o hr
      have := nodup_unique he.once hx hm rfl
      rw [this]
    · intro a b hab
      have hm := before_mem hab
      cases hp : precedes b.1 a.1 h with
      | false => rfl
      | true =>
        obtain ⟨y, hy, hyb, hby⟩ := hrt a hm.1 b.1 hp
        rw [nodup_unique he.once hy hm.2 hyb] at hby
        exact (before_asymm he.once hab hby).elim
    · intro a ha
      cases hp : precedes a.1 a.1 h with
      | false => rfl
      | true =>
        obtain ⟨y, hy, hyb, hby⟩ := hrt a ha a.1 hp
        rw [nodup_unique he.once hy ha hyb] at hby
        exact (before_asymm he.once hby hby).elim
  rw [hc] at this
  cases this

end Netscrape.Conc
