import Verif.Lemmas.GraphDisc
import Verif.Lemmas.LeakW
import Verif.Lemmas.NilUid

/-!
# Accesses of calls that may keep the lock
-/

namespace Netscrape.Conc
open Netscrape.Spec

variable {μ κ σ ρ α β Op Out : Type} [DecidableEq μ]

/-- `Guarded m prot p h`: as `Disc`, but `p` may return with the mutex held in any way. -/
def Guarded (m : μ) (prot : κ → Prop) : Prog μ κ σ ρ → Hold → Prop
  | .ret _, h => h ≠ .ann
  | .lock m' k, h => if m' = m then h = .rd 0 ∧ Guarded m prot k .wr else h ≠ .ann ∧ Guarded m prot k h
  | .acquire m' k, h => if m' = m then h = .ann ∧ Guarded m prot k .wr else h ≠ .ann ∧ Guarded m prot k h
  | .unlock m' k, h => if m' = m then h = .wr ∧ Guarded m prot k (.rd 0) else h ≠ .ann ∧ Guarded m prot k h
  | .rlock m' k, h =>
    if m' = m then ∃ n, h = .rd n ∧ Guarded m prot k (.rd (n + 1)) else h ≠ .ann ∧ Guarded m prot k h
  | .runlock m' k, h =>
    if m' = m then ∃ n, h = .rd (n + 1) ∧ Guarded m prot k (.rd n) else h ≠ .ann ∧ Guarded m prot k h
  | .read l k, h => h ≠ .ann ∧ (prot l → h ≠ .rd 0) ∧ ∀ s, Guarded m prot (k s) h
  | .write l _ k, h => h ≠ .ann ∧ (prot l → h = .wr) ∧ ∀ s, Guarded m prot (k s) h

theorem Guarded.of_disc {m : μ} {prot : κ → Prop} {strict flat : Prop} {p : Prog μ κ σ ρ} :
    ∀ {h : Hold}, Disc m prot strict flat p h → Guarded m prot p h := by
  induction p with
  | ret r => rintro h ⟨n, rfl, -⟩; exact Hold.noConfusion
  | lock m' k ih | acquire m' k ih | unlock m' k ih =>
    intro h hd
    simp only [Guarded, Disc] at hd ⊢
    split <;> rename_i e
    · rw [if_pos e] at hd; exact ⟨hd.1, ih hd.2⟩
    · rw [if_neg e] at hd; exact ⟨hd.1, ih hd.2⟩
  | rlock m' k ih =>
    intro h hd
    simp only [Guarded, Disc] at hd ⊢
    split <;> rename_i e
    · rw [if_pos e] at hd; obtain ⟨n, h1, -, h2⟩ := hd; exact ⟨n, h1, ih h2⟩
    · rw [if_neg e] at hd; exact ⟨hd.1, ih hd.2⟩
  | runlock m' k ih =>
    intro h hd
    simp only [Guarded, Disc] at hd ⊢
    split <;> rename_i e
    · rw [if_pos e] at hd; obtain ⟨n, h1, h2⟩ := hd; exact ⟨n, h1, ih h2⟩
    · rw [if_neg e] at hd; exact ⟨hd.1, ih hd.2⟩
  | read l k ih | write l f k ih => exact fun h => ⟨h.1, h.2.1, fun s => ih s (h.2.2 s)⟩

theorem Guarded.mono {m : μ} {prot prot' : κ → Prop} (hp : ∀ l, prot' l → prot l) {p : Prog μ κ σ ρ} :
    ∀ {h : Hold}, Guarded m prot p h → Guarded m prot' p h := by
  induction p with
  | ret r => exact id
  | lock m' k ih | acquire m' k ih | unlock m' k ih =>
    intro h hd
    simp only [Guarded] at hd ⊢
    split <;> rename_i e
    · rw [if_pos e] at hd; exact ⟨hd.1, ih hd.2⟩
    · rw [if_neg e] at hd; exact ⟨hd.1, ih hd.2⟩
  | rlock m' k ih | runlock m' k ih =>
    intro h hd
    simp only [Guarded] at hd ⊢
    split <;> rename_i e
    · rw [if_pos e] at hd; obtain ⟨n, h1, h2⟩ := hd; exact ⟨n, h1, ih h2⟩
    · rw [if_neg e] at hd; exact ⟨hd.1, ih hd.2⟩
  | read l k ih | write l f k ih => exact fun h => ⟨h.1, fun hl => h.2.1 (hp l hl), fun s => ih s (h.2.2 s)⟩

/-- The results do not matter. -/
theorem Guarded.bind_ret {m : μ} {prot : κ → Prop} {f : α → Prog μ κ σ β} (hf : ∀ x, ∃ y, f x = .ret y)
    {p : Prog μ κ σ α} : ∀ {h : Hold}, Guarded m prot p h → Guarded m prot (p.bind f) h := by
  induction p with
  | ret r => intro h hd; obtain ⟨y, e⟩ := hf r; show Guarded m prot (f r) h; rw [e]; exact hd
  | lock m' k ih | acquire m' k ih | unlock m' k ih =>
    intro h hd
    simp only [Guarded, Prog.bind] at hd ⊢
    split <;> rename_i e
    · rw [if_pos e] at hd; exact ⟨hd.1, ih hd.2⟩
    · rw [if_neg e] at hd; exact ⟨hd.1, ih hd.2⟩
  | rlock m' k ih | runlock m' k ih =>
    intro h hd
    simp only [Guarded, Prog.bind] at hd ⊢
    split <;> rename_i e
    · rw [if_pos e] at hd; obtain ⟨n, h1, h2⟩ := hd; exact ⟨n, h1, ih h2⟩
    · rw [if_neg e] at hd; exact ⟨hd.1, ih hd.2⟩
  | read l k ih | write l g k ih => exact fun h => ⟨h.1, h.2.1, fun s => ih s (h.2.2 s)⟩

/-- And back. -/
theorem Guarded.of_bind {m : μ} {prot : κ → Prop} {f : α → Prog μ κ σ β} (hf : ∀ x, ∃ y, f x = .ret y)
    {p : Prog μ κ σ α} : ∀ {h : Hold}, Guarded m prot (p.bind f) h → Guarded m prot p h := by
  induction p with
  | ret r => intro h hd; obtain ⟨y, e⟩ := hf r; change Guarded m prot (f r) h at hd; rw [e] at hd; exact hd
  | lock m' k ih | acquire m' k ih | unlock m' k ih =>
    intro h hd
    simp only [Guarded, Prog.bind] at hd ⊢
    split <;> rename_i e
    · rw [if_pos e] at hd; exact ⟨hd.1, ih hd.2⟩
    · rw [if_neg e] at hd; exact ⟨hd.1, ih hd.2⟩
  | rlock m' k ih | runlock m' k ih =>
    intro h hd
    simp only [Guarded, Prog.bind] at hd ⊢
    split <;> rename_i e
    · rw [if_pos e] at hd; obtain ⟨n, h1, h2⟩ := hd; exact ⟨n, h1, ih h2⟩
    · rw [if_neg e] at hd; exact ⟨hd.1, ih hd.2⟩
  | read l k ih | write l g k ih => exact fun h => ⟨h.1, h.2.1, fun s => ih s (h.2.2 s)⟩

/-- A call is guarded from where it is. -/
def GuardedCall (m : μ) (prot : κ → Prop) (k : Call μ κ σ Op Out) : Prop :=
  ∃ h, k.mine m = h.mu ∧ Guarded m prot k.prog h

theorem GuardedCall.micro {m : μ} {prot : κ → Prop} {c : Cfg μ κ σ Op Out}
    {k k' : Call μ κ σ Op Out} {mus : μ → Mu} {d : σ} (hk : GuardedCall m prot k)
    (hm : micro c k = some (k', mus, d)) : GuardedCall m prot k' ∧ k'.op = k.op := by
  obtain ⟨hold, hmine, hd⟩ := hk
  have hlk : ∀ {m' : μ} {w : Mu} {h1 : Hold}, (if m' = m then h1.mu = w else True) →
      ∀ {p : Prog μ κ σ Out}, (if m' = m then Guarded m prot p h1
        else Guarded m prot p hold) →
      GuardedCall m prot ⟨k.id, k.op, p, upd k.mine m' w⟩ := by
    intro m' w h1 hw p hp
    by_cases e : m' = m
    · subst e
      rw [if_pos rfl] at hw hp
      exact ⟨h1, by rw [← hw]; exact upd_self _ _ _, hp⟩
    · rw [if_neg e] at hp
      exact ⟨hold, (upd_ne _ _ (Ne.symm e)).trans hmine, hp⟩
  unfold Conc.micro at hm
  cases hp : k.prog with
  | ret r => simp only [hp, reduceCtorEq] at hm
  | lock m' p =>
    rw [hp] at hd
    simp only [Guarded] at hd
    simp only [hp] at hm
    split at hm
    · cases hm
      refine ⟨hlk (h1 := .ann) ?_ ?_, rfl⟩
      · split
        · next e => rw [if_pos e] at hd; subst e; rw [hmine, hd.1]; rfl
        · trivial
      · split
        · next e => rw [if_pos e] at hd; simp only [Guarded, if_pos e]; exact ⟨trivial, hd.2⟩
        · next e => rw [if_neg e] at hd; simp only [Guarded, if_neg e]; exact hd
    · cases hm
  | acquire m' p =>
    rw [hp] at hd
    simp only [Guarded] at hd
    simp only [hp] at hm
    split at hm
    · cases hm
      refine ⟨hlk (h1 := .wr) ?_ ?_, rfl⟩
      · split
        · next e => rw [if_pos e] at hd; subst e; rw [hmine, hd.1]; rfl
        · trivial
      · split
        · next e => rw [if_pos e] at hd; exact hd.2
        · next e => rw [if_neg e] at hd; exact hd.2
    · cases hm
  | unlock m' p =>
    rw [hp] at hd
    simp only [Guarded] at hd
    simp only [hp] at hm
    split at hm
    · cases hm
      refine ⟨hlk (h1 := .rd 0) ?_ ?_, rfl⟩
      · split
        · next e => rw [if_pos e] at hd; subst e; rw [hmine, hd.1]; rfl
        · trivial
      · split
        · next e => rw [if_pos e] at hd; exact hd.2
        · next e => rw [if_neg e] at hd; exact hd.2
    · cases hm
  | rlock m' p =>
    rw [hp] at hd
    simp only [Guarded] at hd
    simp only [hp] at hm
    split at hm
    · cases hm
      by_cases e : m' = m
      · rw [if_pos e] at hd
        obtain ⟨n, rfl, hd⟩ := hd
        refine ⟨hlk (h1 := .rd (n + 1)) ?_ ?_, rfl⟩
        · rw [if_pos e]; subst e; rw [hmine]; rfl
        · rw [if_pos e]; exact hd
      · rw [if_neg e] at hd
        refine ⟨hlk (h1 := hold) ?_ ?_, rfl⟩
        · rw [if_neg e]; trivial
        · rw [if_neg e]; exact hd.2
    · cases hm
  | runlock m' p =>
    rw [hp] at hd
    simp only [Guarded] at hd
    simp only [hp] at hm
    split at hm
    · cases hm
      by_cases e : m' = m
      · rw [if_pos e] at hd
        obtain ⟨n, rfl, hd⟩ := hd
        refine ⟨hlk (h1 := .rd n) ?_ ?_, rfl⟩
        · rw [if_pos e]; subst e; rw [hmine]; rfl
        · rw [if_pos e]; exact hd
      · rw [if_neg e] at hd
        refine ⟨hlk (h1 := hold) ?_ ?_, rfl⟩
        · rw [if_neg e]; trivial
        · rw [if_neg e]; exact hd.2
    · cases hm
  | read l p =>
    rw [hp] at hd
    simp only [hp, Option.some.injEq, Prod.mk.injEq] at hm
    obtain ⟨rfl, rfl, rfl⟩ := hm
    exact ⟨⟨hold, hmine, hd.2.2 _⟩, rfl⟩
  | write l f p =>
    rw [hp] at hd
    simp only [hp, Option.some.injEq, Prod.mk.injEq] at hm
    obtain ⟨rfl, rfl, rfl⟩ := hm
    exact ⟨⟨hold, hmine, hd.2.2 _⟩, rfl⟩

theorem guardedCall {m : μ} {prot : κ → Prop} {prog : Op → Prog μ κ σ Out} {allowed ops : Op → Prop}
    (hg : ∀ op, allowed op → ops op → Guarded m prot (prog op) (.rd 0)) {s : σ} {c : Cfg μ κ σ Op Out}
    (hr : Reach prog allowed s c) : ∀ t k, c.calls t = some k → ops k.op → GuardedCall m prot k := by
  refine callInv (I := fun k => ops k.op → GuardedCall m prot k) ?_ ?_ hr
  · exact fun n op ha ho => ⟨.rd 0, rfl, hg op ha ho⟩
  · intro c k k' mus d hI hm
    have hop : k'.op = k.op := by
      unfold Conc.micro at hm
      cases hp : k.prog <;> simp only [hp, reduceCtorEq] at hm
      all_goals first
        | (split at hm <;> cases hm <;> rfl)
        | (cases hm; rfl)
    exact fun ho => ((hI (hop ▸ ho)).micro hm).1

/-- Two calls that follow the discipline do not race on the protected locations. -/
theorem no_race_guarded {m : μ} {prot : κ → Prop} {strict' : Prop} {O : Mu} {c : Cfg μ κ σ Op Out}
    (hi : CountInv strict' (c.mus m) (owedW O (mineOf m c))) {l : κ} (hl : prot l) {t t' : Nat}
    {k k' : Call μ κ σ Op Out} {w : Bool} (hne : t ≠ t') (hk : c.calls t = some k)
    (hk' : c.calls t' = some k') (h1 : GuardedCall m prot k)
    (h2 : GuardedCall m prot k') (ha : access k = some (l, true)) (ha' : access k' = some (l, w)) :
    False := by
  obtain ⟨h1, hm1, hd1⟩ := h1
  obtain ⟨h2, hm2, hd2⟩ := h2
  have hw : h1 = .wr := by
    unfold access at ha
    cases hp : k.prog <;> rw [hp] at hd1 <;> simp only [hp, reduceCtorEq, Option.some.injEq,
      Prod.mk.injEq, Bool.false_eq_true, and_false, and_true] at ha
    subst ha
    exact hd1.2.1 hl
  subst hw
  have hheld : (owedW O (mineOf m c) (t + 1)).wr = .held := by show (mineOf m c t).wr = _; rw [mineOf_some hk, hm1]; rfl
  have hfree := (hi.wr_eq (by decide) hheld).2 (t' + 1) (fun e => hne (Nat.succ.inj e).symm)
  have hzero := hi.excl hheld (t' + 1)
  simp only [owedW] at hfree hzero
  rw [mineOf_some hk', hm2] at hfree hzero
  have h0 : h2 = .rd 0 := by
    cases h2 with
    | rd n => exact congrArg Hold.rd hzero
    | ann => cases hfree
    | wr => cases hfree
  subst h0
  unfold access at ha'
  cases hp : k'.prog <;> rw [hp] at hd2 <;> simp only [hp, reduceCtorEq, Option.some.injEq,
    Prod.mk.injEq] at ha'
  · obtain ⟨rfl, _⟩ := ha'
    exact hd2.2.1 hl rfl
  · obtain ⟨rfl, _⟩ := ha'
    exact absurd (hd2.2.1 hl) (by decide)

end Netscrape.Conc

namespace Netscrape.Graph
open Netscrape.Conc Netscrape.Spec

/-- `SubGraph`. -/
def NOp.isSub : NOp → Prop
  | .subGraph .. => True
  | _ => False

/-- Solves `Guarded` goals for loop-free bodies. -/
macro "guarded" : tactic => `(tactic| (
  repeat' first
    | (exact Hold.noConfusion)
    | (intro _)
    | (refine ⟨rfl, ?_⟩)
    | (refine ⟨_, rfl, ?_⟩)
    | (refine ⟨Hold.noConfusion, by first | exact fun _ => Hold.noConfusion | exact fun _ => rfl
                                          | exact fun h => absurd rfl h.1 | exact fun h => absurd rfl h
                                          | (intro _ h; cases h), ?_⟩)
    | (dsimp only [Prog.excl, Prog.shared, Prog.bind, Guarded])
    | (rw [if_pos (Subsingleton.elim (α := Unit) _ _)])
    | split))

/-- A call without nil is guarded if the usual one is. -/
theorem guarded_usual {prot : Loc → Prop} {α : Type} {p : GProg Unit α} {f : α → COut} {g : α → NOut}
    (h : Guarded () prot (p.bind fun r => .ret (f r)) (.rd 0)) : Guarded () prot (p.bind fun r => .ret (g r)) (.rd 0) :=
  .bind_ret (fun _ => ⟨_, rfl⟩) (.of_bind (fun _ => ⟨_, rfl⟩) h)

theorem guarded_progN (op : NOp) (hs : ¬ op.isSub) : Guarded () shared (progN () op) (.rd 0) := by
  have ret : ∀ {α : Type} {p : GProg Unit α} {g : α → NOut}, Guarded () shared p (.rd 0) →
      Guarded () shared (p.bind fun r => .ret (g r)) (.rd 0) := fun h => .bind_ret (fun x => ⟨_, rfl⟩) h
  have us : ∀ (op : COp), ¬ isSubGraph op → Guarded () shared (prog () op) (.rd 0) := fun op h => .of_disc (disc_shared op h)
  cases op with
  | newNode o e opts => exact ret (by unfold newNodeN; guarded)
  | addNode n opts => exact guarded_usual (us (.addNode n opts) id)
  | addNil n => exact ret (by unfold addNilP; guarded)
  | addForeign => exact guarded_usual (us .addForeign id)
  | node u =>
    cases u with
    | none => exact ret (by unfold nodeN; guarded)
    | some u => exact guarded_usual (us (.node u) id)
  | nodes o => exact guarded_usual (us (.nodes o) id)
  | removeNode u =>
    cases u with
    | none => exact ret (by unfold removeNodeN; guarded)
    | some u => exact guarded_usual (us (.removeNode u) id)
  | link fresh a f t opts =>
    cases f with
    | none => exact ret (by unfold linkN edgeN; guarded)
    | some f =>
      cases t with
      | none => exact ret (by unfold linkN edgeN; guarded)
      | some t => exact guarded_usual (us (.link fresh a f t opts) id)
  | edge u v =>
    cases u with
    | none => exact ret (by unfold edgeN; guarded)
    | some u =>
      cases v with
      | none => exact ret (by unfold edgeN; guarded)
      | some v => exact guarded_usual (us (.edge u v) id)
  | edges o => exact guarded_usual (us (.edges o) id)
  | from' o u =>
    refine .bind_ret (fun x => by cases x <;> exact ⟨_, rfl⟩) ?_
    cases u with
    | none => unfold fromN; guarded
    | some u => exact .bind_ret (fun x => ⟨_, rfl⟩) (.of_bind (fun x => ⟨_, rfl⟩) (us (.from' o u) id))
  | unlink f t =>
    cases f with
    | none => exact ret (by unfold unlinkN; guarded)
    | some f =>
      cases t with
      | none => exact ret (by unfold unlinkN; guarded)
      | some t => exact guarded_usual (us (.unlink f t) id)
  | subGraph ora u d opts => exact absurd trivial hs
  | dot => exact guarded_usual (us .dot id)

theorem guarded_lookup (op : NOp) : Guarded () lookup (progN () op) (.rd 0) := by
  by_cases hs : op.isSub
  · cases op with
    | subGraph ora u d opts =>
      cases u with
      | none => exact .bind_ret (fun x => ⟨_, rfl⟩) (by unfold subGraphN; guarded)
      | some u => exact guarded_usual (.of_disc (disc_lookup (.subGraph ora u d opts)))
    | _ => exact absurd hs id
  · exact (guarded_progN op hs).mono (by rintro l rfl; exact Loc.noConfusion)

end Netscrape.Graph
