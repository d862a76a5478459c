import Verif.Model.Plan
import Verif.Spec.Plan

/-!
# C04, C05: the plan is a map
-/

namespace Netscrape.Props
open Netscrape Netscrape.Plan

/-- **C04** (refinement). After any history of calls on a new plan, the index holds under each
string exactly the live resource of the history. -/
theorem c04_plan_refines (hist : List Op) (s : String) :
    (Plan.run new hist).index.get? s = Spec.Plan.live hist s := by
  have key : ∀ rev : List Op, (Plan.run new rev.reverse).index.get? s =
      Spec.Plan.live rev.reverse s := by
    intro rev
    induction rev with
    | nil => rfl
    | cons op rev ih =>
      have hrun : Plan.run new (op :: rev).reverse = (step (Plan.run new rev.reverse) op).1 := by
        simp [Plan.run]
      rw [hrun]
      have hlive : Spec.Plan.live (op :: rev).reverse s =
          match op with
          | .add r => if r.uid.str = s then some r else Spec.Plan.live rev.reverse s
          | .delete u => if u.str = s then none else Spec.Plan.live rev.reverse s
          | _ => Spec.Plan.live rev.reverse s := by
        unfold Spec.Plan.live
        simp only [List.reverse_reverse, List.find?_cons]
        cases op with
        | add r => by_cases h : r.uid.str = s <;> simp [h]
        | delete u => by_cases h : u.str = s <;> simp [h]
        | get u => simp
        | getAll o => simp
      rw [hlive]
      cases op with
      | add r =>
        simp only [step, add, GoMap.get?_set, ih]
        by_cases h : r.uid.str = s
        · simp [h]
        · simp [h, Ne.symm h]
      | delete u =>
        simp only [step, delete, GoMap.get?_del, ih]
        by_cases h : u.str = s
        · simp [h]
        · simp [h, Ne.symm h]
      | get u => simpa [step] using ih
      | getAll o => simpa [step] using ih
  simpa using key hist.reverse

/-- **C04.** After any history, `Get u` returns the live resource under `u`'s string, whichever UID
object carries the string, and `ErrResourceNotFound` when there is none. -/
theorem c04_plan_get (hist : List Op) (u : Uid) :
    (step (Plan.run new hist) (.get u)).2 =
      .got (match Spec.Plan.live hist u.str with
        | some r => .ok r
        | none => .err .resourceNotFound) := by
  simp only [step, Plan.get, c04_plan_refines]
  cases Spec.Plan.live hist u.str <;> rfl

/-- **C04** (absent deletes). Deleting a UID that `Get` does not find changes nothing. -/
theorem c04_plan_delete_absent (p : Simple) (u : Uid)
    (h : (step p (.get u)).2 = .got (.err .resourceNotFound)) : (step p (.delete u)).1 = p := by
  cases hg : p.index.get? u.str with
  | none => simp [step, delete, GoMap.del_of_none _ _ hg]
  | some r => simp [step, Plan.get, hg] at h

/-- Non-vacuity of C04: replaced, deleted and re-read through a different UID object. -/
example :
    let r1 : Resource := ⟨⟨1, "a"⟩, "g", "v", "k"⟩
    let r2 : Resource := ⟨⟨2, "a"⟩, "g2", "v", "k"⟩
    let r3 : Resource := ⟨⟨3, "b"⟩, "g", "v", "k"⟩
    let p := Plan.run new [.add r1, .add r3, .add r2, .delete ⟨9, "b"⟩]
    (step p (.get ⟨7, "a"⟩)).2 = .got (.ok r2) ∧
    (step p (.get ⟨3, "b"⟩)).2 = .got (.err .resourceNotFound) := by decide

/-- **C05.** `GetAll`, in any iteration order, returns a list without repetition whose members are
exactly the live resources, and whose length is the number of UID strings with a live resource
(here: of any duplicate-free list of those strings). -/
theorem c05_plan_getAll (hist : List Op) (o : Order (String × Resource)) :
    ∃ l, (step (Plan.run new hist) (.getAll o)).2 = .all l ∧ l.Nodup ∧
      (∀ r, r ∈ l ↔ Spec.Plan.live hist r.uid.str = some r) ∧
      (∀ ss : List String, ss.Nodup → (∀ s, s ∈ ss ↔ ∃ r, Spec.Plan.live hist s = some r) →
        l.length = ss.length) := by
  refine ⟨_, rfl, ?_, ?_, ?_⟩
  all_goals
    have hkey : ∀ s r, (Plan.run new hist).index.get? s = some r → r.uid.str = s := by
      intro s r h
      rw [c04_plan_refines] at h
      unfold Spec.Plan.live at h
      split at h
      · rename_i r' hf
        cases h
        have := List.find?_some hf
        simpa using this
      · cases h
  · unfold getAll
    rw [((o.perm _).map Prod.snd).nodup_iff]
    apply List.Pairwise.map (R := fun a b => a ∈ (Plan.run new hist).index.entries ∧
      b ∈ (Plan.run new hist).index.entries ∧ a ≠ b)
    · rintro ⟨s, r⟩ ⟨s', r'⟩ ⟨ha, hb, hne⟩ heq
      have h1 := hkey s r ((GoMap.get?_eq_some _ _ _).mpr ha)
      have h2 := hkey s' r' ((GoMap.get?_eq_some _ _ _).mpr hb)
      simp only at heq
      subst heq
      exact hne (by rw [← h1, ← h2])
    · have := (Plan.run new hist).index.entries_nodup
      exact List.Pairwise.imp_of_mem (fun ha hb h => ⟨ha, hb, h⟩) this
  · intro r
    unfold getAll
    rw [((o.perm _).map Prod.snd).mem_iff]
    have : r ∈ (Plan.run new hist).index.entries.map Prod.snd ↔
        ∃ k, (Plan.run new hist).index.get? k = some r := GoMap.mem_vals _ _
    rw [this]
    constructor
    · rintro ⟨k, hk⟩
      rw [hkey k r hk, ← c04_plan_refines]; exact hk
    · intro h
      exact ⟨_, (c04_plan_refines hist _).trans h⟩
  · intro ss hnd hss
    have hp : ss.Perm (Plan.run new hist).index.keys := by
      rw [List.perm_ext_iff_of_nodup hnd (GoMap.keys_nodup _)]
      intro s
      rw [hss, GoMap.mem_keys]
      simp only [c04_plan_refines]
    rw [hp.length_eq]
    simp [getAll, GoMap.keys]

/-- Non-vacuity of C05. -/
example :
    let r1 : Resource := ⟨⟨1, "a"⟩, "g", "v", "k"⟩
    let r3 : Resource := ⟨⟨3, "b"⟩, "g", "v", "k"⟩
    (step (Plan.run new [.add r1, .add r3, .add r1]) (.getAll Order.rev)).2 = .all [r3, r1] := by
  decide

end Netscrape.Props
