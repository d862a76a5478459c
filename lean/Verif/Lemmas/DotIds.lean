import Verif.Lemmas.GraphDisc
import Verif.Lemmas.GraphPtr
import Verif.Spec.DotIds
import Verif.Spec.Linearizable

/-!
# What the calls of `Verif.Model.DotIds` access
-/

namespace Netscrape.Conc
open Netscrape.Spec

variable {μ κ σ ρ α β Op Out : Type} [DecidableEq μ]

/-- `Minds I size P p n`: run from states with `I` of at least size `n`, that others change as well but without
breaking `I` or making them smaller, `p` does not break `I`, makes no state smaller, and accesses what `P` says. -/
def Minds (I : σ → Prop) (size : σ → Nat) (P : κ → Bool → Prop) : Prog μ κ σ ρ → Nat → Prop
  | .ret _, _ => True
  | .lock _ k, n => Minds I size P k n
  | .acquire _ k, n => Minds I size P k n
  | .unlock _ k, n => Minds I size P k n
  | .rlock _ k, n => Minds I size P k n
  | .runlock _ k, n => Minds I size P k n
  | .read l k, n => P l false ∧ ∀ s, I s → n ≤ size s → Minds I size P (k s) (size s)
  | .write l f k, n => P l true ∧ ∀ s, I s → n ≤ size s →
      I (f s) ∧ size s ≤ size (f s) ∧ Minds I size P (k s) (size (f s))

omit [DecidableEq μ] in
/-- The results do not matter. -/
theorem Minds.bind_ret {I : σ → Prop} {size : σ → Nat} {P : κ → Bool → Prop} {f : α → Prog μ κ σ β}
    (hf : ∀ x, ∃ y, f x = .ret y) {p : Prog μ κ σ α} :
    ∀ {n : Nat}, Minds I size P p n → Minds I size P (p.bind f) n := by
  induction p with
  | ret r => intro n _; obtain ⟨y, e⟩ := hf r; show Minds I size P (f r) n; rw [e]; trivial
  | lock m' k ih | acquire m' k ih | unlock m' k ih | rlock m' k ih | runlock m' k ih =>
    exact fun h => ih (show Minds I size P k _ from h)
  | read l k ih => exact fun h => ⟨h.1, fun s hs hn => ih s (h.2 s hs hn)⟩
  | write l g k ih => exact fun h => ⟨h.1, fun s hs hn => ⟨(h.2 s hs hn).1, (h.2 s hs hn).2.1, ih s (h.2 s hs hn).2.2⟩⟩

/-- All calls keep to what they may do, and `I` holds. -/
theorem minds_reach {I : σ → Prop} {size : σ → Nat} {P : Op → κ → Bool → Prop} {prog : Op → Prog μ κ σ Out}
    {allowed : Op → Prop} (hp : ∀ op, allowed op → ∀ n, Minds I size (P op) (prog op) n) {s : σ} (hs : I s)
    {c : Cfg μ κ σ Op Out} (hr : Reach prog allowed s c) :
    I c.data ∧ ∀ t k, c.calls t = some k → allowed k.op ∧ ∃ n, n ≤ size c.data ∧ Minds I size (P k.op) k.prog n := by
  induction hr with
  | init => exact ⟨hs, fun t k hk => by cases hk⟩
  | step c c' a _ ha hst ih =>
    cases a with
    | call t op =>
      unfold Conc.step at hst
      cases hc : c.calls t with
      | some k => simp only [hc, reduceCtorEq] at hst
      | none =>
        simp only [hc, Option.some.injEq] at hst
        subst hst
        refine ⟨ih.1, fun t' k hk => ?_⟩
        by_cases e : t' = t
        · subst e
          simp only [upd_self, Option.some.injEq] at hk
          subst hk
          exact ⟨ha t' op rfl, 0, Nat.zero_le _, hp op (ha t' op rfl) 0⟩
        · simp only [upd_ne _ _ e] at hk
          exact ih.2 t' k hk
    | tau t =>
      unfold Conc.step at hst
      cases hc : c.calls t with
      | none => simp only [hc, reduceCtorEq] at hst
      | some k =>
        obtain ⟨hal, n, hn, hk⟩ := ih.2 t k hc
        simp only [hc] at hst
        cases hm : micro c k with
        | none => rw [hm] at hst; cases hst
        | some r =>
          obtain ⟨k', mus, d⟩ := r
          rw [hm] at hst
          have main : I d ∧ size c.data ≤ size d ∧ k'.op = k.op ∧ ∃ n, n ≤ size d ∧ Minds I size (P k.op) k'.prog n := by
            unfold Conc.micro at hm
            cases hp : k.prog with
            | ret r => simp only [hp, reduceCtorEq] at hm
            | lock m' p | acquire m' p | unlock m' p | rlock m' p | runlock m' p =>
              rw [hp] at hk
              simp only [hp] at hm
              split at hm
              · cases hm; exact ⟨ih.1, Nat.le_refl _, rfl, n, hn, hk⟩
              · cases hm
            | read l p =>
              rw [hp] at hk
              simp only [hp, Option.some.injEq, Prod.mk.injEq] at hm
              obtain ⟨rfl, rfl, rfl⟩ := hm
              exact ⟨ih.1, Nat.le_refl _, rfl, _, Nat.le_refl _, hk.2 _ ih.1 hn⟩
            | write l f p =>
              rw [hp] at hk
              simp only [hp, Option.some.injEq, Prod.mk.injEq] at hm
              obtain ⟨rfl, rfl, rfl⟩ := hm
              obtain ⟨h1, h2, h3⟩ := hk.2 _ ih.1 hn
              exact ⟨h1, h2, rfl, _, Nat.le_refl _, h3⟩
          simp only [Option.some.injEq] at hst
          subst hst
          obtain ⟨h1, h2, h3, h4⟩ := main
          refine ⟨h1, fun t' q hq => ?_⟩
          by_cases e : t' = t
          · subst e
            simp only [upd_self, Option.some.injEq] at hq
            subst hq
            rw [h3]; exact ⟨hal, h4⟩
          · simp only [upd_ne _ _ e] at hq
            obtain ⟨ha', n', hn', hk'⟩ := ih.2 t' q hq
            exact ⟨ha', n', Nat.le_trans hn' h2, hk'⟩
    | ret t =>
      unfold Conc.step at hst
      cases hc : c.calls t with
      | none => simp only [hc, reduceCtorEq] at hst
      | some k =>
        cases hp : k.prog with
        | ret r =>
          simp only [hc, hp, Option.some.injEq] at hst
          subst hst
          refine ⟨ih.1, fun t' q hq => ?_⟩
          by_cases e : t' = t
          · subst e
            simp only [upd_self, reduceCtorEq] at hq
          · simp only [upd_ne _ _ e] at hq
            exact ih.2 t' q hq
        | _ => simp only [hc, hp, reduceCtorEq] at hst

omit [DecidableEq μ] in
/-- What is accessed next is allowed. -/
theorem Minds.access {I : σ → Prop} {size : σ → Nat} {P : κ → Bool → Prop} {k : Call μ κ σ Op Out} {n : Nat}
    (h : Minds I size P k.prog n) {l : κ} {w : Bool} (ha : Spec.access k = some (l, w)) : P l w := by
  unfold Spec.access at ha
  cases hp : k.prog <;> rw [hp] at h <;> simp only [hp, reduceCtorEq, Option.some.injEq, Prod.mk.injEq] at ha
  · obtain ⟨rfl, rfl⟩ := ha; exact h.1
  · obtain ⟨rfl, rfl⟩ := ha; exact h.1

end Netscrape.Conc

namespace Netscrape.DotIds
open Netscrape.Conc Netscrape.GraphPtr Netscrape.Spec.DotIds
open Netscrape.Graph (Opt Err Ent applyAll)

/-- What the mutex protects. -/
def maps (l : Loc) : Prop := l = .nodes ∨ l = .builder

theorem disc_ids {strict flat : Prop} {ρ : Type} (ps : List NPtr) {k : DProg ρ} {h : Hold} (ha : h ≠ .ann)
    (hk : Disc () maps strict flat k h) : Disc () maps strict flat (idsOf ps k) h := by
  induction ps with
  | nil => exact hk
  | cons p ps ih => exact ⟨ha, ⟨fun hl => by (rcases hl with hl | hl <;> cases hl), fun _ => ih⟩⟩

/-- Solves `Disc` goals here. -/
macro "ddisc" : tactic => `(tactic| (
  repeat' first
    | (refine ⟨0, rfl, fun _ => rfl⟩)
    | (intro _)
    | (refine ⟨rfl, ?_⟩)
    | (refine ⟨_, rfl, False.elim, ?_⟩)
    | (refine ⟨_, rfl, ?_⟩)
    | (refine ⟨Hold.noConfusion, by first | exact fun _ => Hold.noConfusion | exact fun _ => rfl
                                          | (intro _ h; cases h; done)
                                          | (intro h; rcases h with h | h <;> cases h), ?_⟩)
    | (dsimp only [Prog.excl, Prog.shared, Prog.bind, Disc, idOf])
    | (rw [if_pos (Subsingleton.elim (α := Unit) _ _)])
    | split))

theorem bind_ids {α β : Type} (ps : List NPtr) (k : DProg α) (f : α → DProg β) :
    (idsOf ps k).bind f = idsOf ps (k.bind f) := by
  induction ps with
  | nil => rfl
  | cons p ps ih => simp only [idsOf, idOf, Prog.bind, ih]

theorem disc_prog (op : DotIds.Op) : Disc () maps True False (prog op) (.rd 0) := by
  cases op with
  | newNode o e opts => unfold prog newNodeP; ddisc
  | addNode p opts => unfold prog addNodeP; ddisc
  | node u => unfold prog nodeP; ddisc
  | nodes o => unfold prog nodesP; ddisc
  | removeNode u => unfold prog removeNodeP; ddisc
  | link fresh a f t opts => unfold prog linkP edgeP linkApplyP; ddisc
  | edge u v => unfold prog edgeP; ddisc
  | edges o =>
    unfold prog edgesP
    simp only [Prog.bind, bind_ids]
    refine ⟨0, rfl, False.elim, Hold.noConfusion, fun _ => nofun, fun s => ?_⟩
    refine disc_ids _ Hold.noConfusion ?_
    ddisc
  | from' o u => unfold prog fromP; ddisc
  | unlink f t => unfold prog unlinkP; ddisc
  | nodeDOT p => unfold prog; ddisc
  | edgeDOT p => unfold prog; ddisc
  | setNodeDOT p x => unfold prog; ddisc
  | setEdgeDOT p x => unfold prog; ddisc

/-- What a call accesses of the DOTIDs. -/
def acc (op : DotIds.Op) (l : Loc) (w : Bool) : Prop :=
  ∀ p, l = .node p ∨ l = .edge p → (w = true → Sets op l) ∧ ¬ Harmless op

theorem acc_maps (op : DotIds.Op) (l : Loc) (w : Bool) (hl : l = .nodes ∨ l = .builder ∨ l = .alloc) : acc op l w := by
  rcases hl with rfl | rfl | rfl <;> rintro p (h | h) <;> cases h

/-- Solves `Minds` goals that do not depend on states. -/
macro "minds" : tactic => `(tactic| (
  repeat' first
    | trivial
    | (refine ⟨acc_maps _ _ _ (by first | exact .inl rfl | exact .inr (.inl rfl) | exact .inr (.inr rfl)), fun _ _ _ => ⟨trivial, Nat.le_refl _, ?_⟩⟩)
    | (refine ⟨acc_maps _ _ _ (by first | exact .inl rfl | exact .inr (.inl rfl) | exact .inr (.inr rfl)), fun _ _ _ => ?_⟩)
    | (refine ⟨by rintro q -; exact ⟨nofun, id⟩, fun _ _ _ => ?_⟩)
    | (dsimp only [Prog.excl, Prog.shared, Prog.bind, Minds, idOf])
    | split))

theorem keeps_acc (op : DotIds.Op) (n : Nat) : Minds (fun _ => True) (fun _ => 0) (acc op) (prog op) n := by
  cases op with
  | newNode o e opts => unfold prog newNodeP; minds
  | addNode p opts => unfold prog addNodeP; minds
  | node u => unfold prog nodeP; minds
  | nodes o => unfold prog nodesP; minds
  | removeNode u => unfold prog removeNodeP; minds
  | link fresh a f t opts => unfold prog linkP edgeP linkApplyP; minds
  | edge u v => unfold prog edgeP; minds
  | edges o =>
    unfold prog edgesP
    simp only [Prog.bind, bind_ids, Minds]
    refine ⟨acc_maps _ _ _ (by first | exact .inl rfl | exact .inr (.inl rfl) | exact .inr (.inr rfl)), fun s _ _ => ?_⟩
    generalize asked s.mem s.g.b o = ps
    induction ps with
    | nil => trivial
    | cons p ps ih => exact ⟨by rintro q -; exact ⟨nofun, id⟩, fun _ _ _ => ih⟩
  | from' o u => unfold prog fromP; minds
  | unlink f t => unfold prog unlinkP; minds
  | nodeDOT p => unfold prog; minds
  | edgeDOT p => unfold prog; minds
  | setNodeDOT p x =>
    exact ⟨fun q h => ⟨fun _ => rfl, id⟩, fun _ _ _ => ⟨trivial, Nat.le_refl _, trivial⟩⟩
  | setEdgeDOT p x =>
    exact ⟨fun q h => ⟨fun _ => rfl, id⟩, fun _ _ _ => ⟨trivial, Nat.le_refl _, trivial⟩⟩

end Netscrape.DotIds
