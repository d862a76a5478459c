import Verif.Lemmas.StoreParts
import Verif.Spec.StoreShared

/-!
# Programs with their mutexes renamed, and stores that share a graph
-/

namespace Netscrape.Conc
open Netscrape.Spec

variable {μ ν κ σ ρ Out : Type} [DecidableEq μ] [DecidableEq ν]

omit [DecidableEq μ] [DecidableEq ν] in
theorem rename_bind {α β : Type} (f : μ → ν) (p : Prog μ κ σ α) (k : α → Prog μ κ σ β) :
    (p.bind k).rename f = (p.rename f).bind fun x => (k x).rename f := by
  induction p with
  | ret r => rfl
  | lock m k ih => simp only [Prog.bind, Prog.rename, ih]
  | acquire m k ih => simp only [Prog.bind, Prog.rename, ih]
  | unlock m k ih => simp only [Prog.bind, Prog.rename, ih]
  | rlock m k ih => simp only [Prog.bind, Prog.rename, ih]
  | runlock m k ih => simp only [Prog.bind, Prog.rename, ih]
  | read l k ih => simp only [Prog.bind, Prog.rename, ih]
  | write l g k ih => simp only [Prog.bind, Prog.rename, ih]

omit [DecidableEq μ] [DecidableEq ν] in
/-- Alone, it does not matter which mutexes are used. -/
theorem rename_eval (f : μ → ν) (p : Prog μ κ σ ρ) : ∀ s, (p.rename f).eval s = p.eval s := by
  induction p with
  | ret r => exact fun _ => rfl
  | lock m k ih => exact ih
  | acquire m k ih => exact ih
  | unlock m k ih => exact ih
  | rlock m k ih => exact ih
  | runlock m k ih => exact ih
  | read l k ih => exact fun s => ih s s
  | write l g k ih => exact fun s => ih s (g s)

theorem Disc.rename {f : μ → ν} (hf : ∀ x y, f x = f y → x = y) {m : μ} {prot : κ → Prop} {strict flat : Prop}
    {p : Prog μ κ σ ρ} : ∀ {h : Hold}, Disc m prot strict flat p h → Disc (f m) prot strict flat (p.rename f) h := by
  have hne : ∀ {m' : μ}, m' ≠ m → f m' ≠ f m := fun h e => h (hf _ _ e)
  induction p with
  | ret r => exact fun h => h
  | lock m' k ih =>
    intro h hd
    simp only [Disc, Prog.rename] at hd ⊢
    split at hd
    · next e => subst e; rw [if_pos rfl]; exact ⟨hd.1, ih hd.2⟩
    · next e => rw [if_neg (hne e)]; exact ⟨hd.1, ih hd.2⟩
  | acquire m' k ih =>
    intro h hd
    simp only [Disc, Prog.rename] at hd ⊢
    split at hd
    · next e => subst e; rw [if_pos rfl]; exact ⟨hd.1, ih hd.2⟩
    · next e => rw [if_neg (hne e)]; exact ⟨hd.1, ih hd.2⟩
  | unlock m' k ih =>
    intro h hd
    simp only [Disc, Prog.rename] at hd ⊢
    split at hd
    · next e => subst e; rw [if_pos rfl]; exact ⟨hd.1, ih hd.2⟩
    · next e => rw [if_neg (hne e)]; exact ⟨hd.1, ih hd.2⟩
  | rlock m' k ih =>
    intro h hd
    simp only [Disc, Prog.rename] at hd ⊢
    split at hd
    · next e => subst e; rw [if_pos rfl]; obtain ⟨n, h1, h2, h3⟩ := hd; exact ⟨n, h1, h2, ih h3⟩
    · next e => rw [if_neg (hne e)]; exact ⟨hd.1, ih hd.2⟩
  | runlock m' k ih =>
    intro h hd
    simp only [Disc, Prog.rename] at hd ⊢
    split at hd
    · next e => subst e; rw [if_pos rfl]; obtain ⟨n, h1, h2⟩ := hd; exact ⟨n, h1, ih h2⟩
    · next e => rw [if_neg (hne e)]; exact ⟨hd.1, ih hd.2⟩
  | read l k ih => exact fun hd => ⟨hd.1, hd.2.1, fun s => ih s (hd.2.2 s)⟩
  | write l g k ih => exact fun hd => ⟨hd.1, hd.2.1, fun s => ih s (hd.2.2 s)⟩

omit [DecidableEq μ] in
/-- A mutex that is not used. -/
theorem disc_unused {f : μ → ν} {m : ν} (hf : ∀ x, f x ≠ m) {flat : Prop} (p : Prog μ κ σ ρ) :
    Disc m (fun _ => False) True flat (p.rename f) (.rd 0) := by
  induction p with
  | ret r => exact ⟨0, rfl, fun _ => rfl⟩
  | lock m' k ih => simp only [Disc, Prog.rename, if_neg (hf m')]; exact ⟨Hold.noConfusion, ih⟩
  | acquire m' k ih => simp only [Disc, Prog.rename, if_neg (hf m')]; exact ⟨Hold.noConfusion, ih⟩
  | unlock m' k ih => simp only [Disc, Prog.rename, if_neg (hf m')]; exact ⟨Hold.noConfusion, ih⟩
  | rlock m' k ih => simp only [Disc, Prog.rename, if_neg (hf m')]; exact ⟨Hold.noConfusion, ih⟩
  | runlock m' k ih => simp only [Disc, Prog.rename, if_neg (hf m')]; exact ⟨Hold.noConfusion, ih⟩
  | read l k ih => exact ⟨Hold.noConfusion, False.elim, fun s => ih s⟩
  | write l g k ih => exact ⟨Hold.noConfusion, False.elim, fun s => ih s⟩

omit [DecidableEq μ] [DecidableEq ν] in
theorem Within.rename {f : μ → ν} {a b : μ} {p : Prog μ κ σ ρ} (h : Within a b p) : Within (f a) (f b) (p.rename f) := by
  have hf : ∀ {m}, m = a ∨ m = b → f m = f a ∨ f m = f b := fun h => h.imp (congrArg f) (congrArg f)
  induction p with
  | ret r => trivial
  | lock m k ih => exact ⟨hf h.1, ih h.2⟩
  | acquire m k ih => exact ⟨hf h.1, ih h.2⟩
  | unlock m k ih => exact ⟨hf h.1, ih h.2⟩
  | rlock m k ih => exact ⟨hf h.1, ih h.2⟩
  | runlock m k ih => exact ⟨hf h.1, ih h.2⟩
  | read l k ih => exact fun s => ih s (h s)
  | write l g k ih => exact fun s => ih s (h s)

theorem Ordered.rename {f : μ → ν} (hf : ∀ x y, f x = f y → x = y) {a b : μ} {p : Prog μ κ σ ρ} :
    ∀ {h : Hold}, Ordered a b p h → Ordered (f a) (f b) (p.rename f) h := by
  have hif : ∀ {m : μ} {x y : Hold}, (if f m = f b then x else y) = if m = b then x else y := by
    intro m x y
    by_cases e : m = b
    · subst e; rw [if_pos rfl, if_pos rfl]
    · rw [if_neg e, if_neg (fun e' => e (hf _ _ e'))]
  induction p with
  | ret r => exact fun _ => trivial
  | lock m k ih => exact fun h => ⟨fun e => h.1 (hf _ _ e), by rw [hif]; exact ih h.2⟩
  | acquire m k ih => exact fun h => ⟨fun e => h.1 (hf _ _ e), by rw [hif]; exact ih h.2⟩
  | unlock m k ih => exact fun h => ⟨fun e => h.1 (hf _ _ e), by rw [hif]; exact ih h.2⟩
  | rlock m k ih => exact fun h => ⟨fun e => h.1 (hf _ _ e), by rw [hif]; exact ih h.2⟩
  | runlock m k ih => exact fun h => ⟨fun e => h.1 (hf _ _ e), by rw [hif]; exact ih h.2⟩
  | read l k ih => exact fun h s => ih s (h s)
  | write l g k ih => exact fun h s => ih s (h s)

omit [DecidableEq μ] [DecidableEq ν] in
theorem Looker.rename {f : μ → ν} (hf : ∀ x y, f x = f y → x = y) {m : μ} {E : σ → σ → Prop} {p : Prog μ κ σ Out} :
    ∀ {ph : Phase}, Looker m E p ph → Looker (f m) E (p.rename f) ph := by
  have hne : ∀ {m' : μ}, m' ≠ m → f m' ≠ f m := fun h e => h (hf _ _ e)
  induction p with
  | ret r => exact fun h => h
  | lock m k ih => exact fun h => h.elim
  | acquire m k ih => exact fun h => h.elim
  | unlock m k ih => exact fun h => h.elim
  | rlock m' k ih =>
    rintro ph (⟨rfl, h2, h⟩ | ⟨h1, h⟩)
    · exact .inl ⟨rfl, h2, ih h⟩
    · exact .inr ⟨hne h1, ih h⟩
  | runlock m' k ih =>
    rintro ph (⟨rfl, h2, h⟩ | ⟨h1, h⟩)
    · exact .inl ⟨rfl, h2, ih h⟩
    · exact .inr ⟨hne h1, ih h⟩
  | read l k ih =>
    rintro ph ⟨h1, h2, h⟩
    exact ⟨h1, fun s s' e => congrArg (Prog.rename f) (h2 s s' e), fun s => ih s (h s)⟩
  | write l g k ih => exact fun h => h.elim

omit [DecidableEq μ] [DecidableEq ν] in
theorem Writer.rename {τ : Type} {f : μ → ν} {a b : μ} {π : σ → τ} {p : Prog μ κ σ Out} :
    ∀ {ph : WPhase} {h : Hold}, Writer a b π p ph h → Writer (f a) (f b) π (p.rename f) ph h := by
  induction p with
  | ret r => exact fun h => h
  | lock m k ih =>
    rintro ph h (⟨rfl, h2, h3, h4⟩ | ⟨rfl, h2, h3, h4⟩)
    · exact .inl ⟨rfl, h2, h3, ih h4⟩
    · exact .inr ⟨rfl, h2, h3, ih h4⟩
  | acquire m k ih =>
    rintro ph h (⟨rfl, h2, h3, h4⟩ | ⟨rfl, h2, h3, h4⟩)
    · exact .inl ⟨rfl, h2, h3, ih h4⟩
    · exact .inr ⟨rfl, h2, h3, ih h4⟩
  | unlock m k ih =>
    rintro ph h (⟨rfl, h2, h3, r, rfl⟩ | ⟨rfl, h2, ⟨h3, h4⟩ | ⟨h3, h4⟩⟩)
    · exact .inl ⟨rfl, h2, h3, r, rfl⟩
    · exact .inr ⟨rfl, h2, .inl ⟨h3, ih h4⟩⟩
    · exact .inr ⟨rfl, h2, .inr ⟨h3, ih h4⟩⟩
  | rlock m k ih => rintro ph h ⟨rfl, h2, n, h3, h4⟩; exact ⟨rfl, h2, n, h3, ih h4⟩
  | runlock m k ih => rintro ph h ⟨rfl, h2, n, h3, h4⟩; exact ⟨rfl, h2, n, h3, ih h4⟩
  | read l k ih => rintro ph h ⟨h1, h2⟩; exact ⟨h1, fun s => ih s (h2 s)⟩
  | write l g k ih =>
    rintro ph h (⟨h1, h2, h3⟩ | ⟨h1, h2, h3⟩)
    · exact .inl ⟨h1, h2, fun s => ih s (h3 s)⟩
    · exact .inr ⟨h1, h2, fun s => ih s (h3 s)⟩

omit [DecidableEq μ] [DecidableEq ν] in
theorem Body.rename {τ : Type} {f : μ → ν} {b : μ} {π : σ → τ} {p : Prog μ κ σ ρ} :
    ∀ {ph : WPhase} {h : Hold}, Body b π p ph h → Body (f b) π (p.rename f) ph h := by
  induction p with
  | ret r => exact fun h => h
  | lock m k ih => rintro ph h ⟨rfl, h2, h3, h4⟩; exact ⟨rfl, h2, h3, ih h4⟩
  | acquire m k ih => rintro ph h ⟨rfl, h2, h3, h4⟩; exact ⟨rfl, h2, h3, ih h4⟩
  | unlock m k ih =>
    rintro ph h ⟨rfl, h2, ⟨h3, h4⟩ | ⟨h3, h4⟩⟩
    · exact ⟨rfl, h2, .inl ⟨h3, ih h4⟩⟩
    · exact ⟨rfl, h2, .inr ⟨h3, ih h4⟩⟩
  | rlock m k ih => rintro ph h ⟨rfl, h2, n, h3, h4⟩; exact ⟨rfl, h2, n, h3, ih h4⟩
  | runlock m k ih => rintro ph h ⟨rfl, h2, n, h3, h4⟩; exact ⟨rfl, h2, n, h3, ih h4⟩
  | read l k ih => rintro ph h ⟨h1, h2⟩; exact ⟨h1, fun s => ih s (h2 s)⟩
  | write l g k ih =>
    rintro ph h (⟨h1, h2, h3⟩ | ⟨h1, h2, h3⟩)
    · exact .inl ⟨h1, h2, fun s => ih s (h3 s)⟩
    · exact .inr ⟨h1, h2, fun s => ih s (h3 s)⟩

omit [DecidableEq μ] [DecidableEq ν] in
theorem Todo.rename {τ Op Op' : Type} {f : μ → ν} {φ : Op → Op'} {a b : μ} {π : σ → τ} {S : Split Op Out}
    {S' : Split Op' Out} {seq : σ → Op → σ × Out} {seq' : σ → Op' → σ × Out} (hgo : S'.goesOn = S.goesOn)
    (hres : ∀ op, S'.result (φ op) = S.result op) (hseq : ∀ d o, seq' d (φ o) = seq d o) {op : Op} (rem : List Op) :
    ∀ {outs : List Out} {p : Prog μ κ σ Out}, Todo a b π S seq op rem outs p →
      Todo (f a) (f b) π S' seq' (φ op) (rem.map φ) outs (p.rename f) := by
  induction rem with
  | nil =>
    rintro outs p ⟨r, rfl, h⟩
    exact ⟨r, rfl, by rw [hres]; exact h⟩
  | cons o rem ih =>
    rintro outs p ⟨ρ, q, g, cont, rfl, h1, h2, h3, h4⟩
    refine ⟨ρ, q.rename f, g, fun x => (cont x).rename f, rename_bind f q cont, h1.rename, ?_, ?_, ?_⟩
    · intro r e
      cases q with
      | ret r => exact h2 r rfl
      | _ => cases e
    · intro d
      rw [hseq, rename_eval]; exact h3 d
    · intro r
      rcases h4 r with ⟨g1, g2⟩ | ⟨r', g1, g2⟩
      · exact .inl ⟨by rw [hgo]; exact g1, ih g2⟩
      · exact .inr ⟨r', congrArg (Prog.rename f) g1, by rw [hres]; exact g2⟩

end Netscrape.Conc

namespace Netscrape.Store.Shared
open Netscrape.Conc Netscrape.Spec.Handle Netscrape.Spec.Shared

theorem of_inj (i : Nat) : ∀ x y, Mtx.of i x = Mtx.of i y → x = y := by
  intro x y h
  cases x <;> cases y <;> first | rfl | cases h

/-- What holds for one store's mutexes, and what holds for a mutex that is not used, holds for all mutexes. -/
theorem disc_all {flat : Prop} {x : Op}
    (h : ∀ m, Disc m (fun _ => False) True flat (Handle.prog x.2) (.rd 0)) (m : Mtx) :
    Disc m (fun _ => False) True flat (prog x) (.rd 0) := by
  cases m with
  | graph => exact (h .graph).rename (of_inj x.1)
  | store i =>
    by_cases e : i = x.1
    · subst e; exact (h .store).rename (of_inj x.1)
    · exact disc_unused (fun y => by cases y <;> simp [Mtx.of, Ne.symm e]) _

/-- The graph's maps are touched only under its mutex. -/
theorem disc_maps (x : Op) (h : NoSub x.2) : Disc Mtx.graph Graph.shared False False (prog x) (.rd 0) :=
  (noSub_disc x.2 h).rename (of_inj x.1)

theorem plain_disc (op : Handle.Op) (h : Plain op) (m : Store.Mtx) :
    Disc m (fun _ => False) True True (Handle.prog op) (.rd 0) := by
  cases m with
  | store =>
    cases op with
    | inl o => exact Disc.tag ((one_prog o).disc.mono (fun _ h => h.elim) id id)
    | inr o => exact Disc.tag ((uses_graph o).disc (by decide))
  | graph =>
    cases op with
    | inl o => exact Disc.tag ((flat_prog o h).mono (fun _ h => h.elim) id id)
    | inr o => exact Disc.tag (flat_graph o h)

theorem handle_ordered (op : Handle.Op) : Ordered Store.Mtx.store Store.Mtx.graph (Handle.prog op) (.rd 0) := by
  cases op with
  | inl o => exact Ordered.tag ((two_prog o).ordered (by decide))
  | inr o => exact Ordered.tag ((uses_graph o).ordered (by decide) _)

theorem within_prog (x : Op) : Within (Mtx.store x.1) Mtx.graph (prog x) :=
  Within.rename (f := Mtx.of x.1) (a := Store.Mtx.store) (b := .graph)
    (within_all (fun m => by cases m <;> simp) (Handle.prog x.2))

theorem ordered_prog (x : Op) : Ordered (Mtx.store x.1) Mtx.graph (prog x) (.rd 0) :=
  Ordered.rename (f := Mtx.of x.1) (of_inj x.1) (handle_ordered x.2)

theorem no_deadlock {s : Graph.St} {c : Cfg Mtx Graph.Loc Graph.St Op Handle.Out}
    (hr : Reach prog (fun x => Plain x.2) s c) : ¬ Spec.Deadlock prog c :=
  no_deadlock_outer (b := Mtx.graph) (outer := fun x : Op => Mtx.store x.1) (fun _ => by simp)
    (fun m x h => disc_all (plain_disc x.2 h) m) (fun x _ => within_prog x) (fun x _ => ordered_prog x) hr

theorem looker_get (u : Uid) :
    Looker Store.Mtx.graph (fun d d' => view d = view d') (Store.prog (.get u)) .pre := by
  refine .inr ⟨by decide, .inl ⟨rfl, rfl, rfl, fun s s' e => ?_, fun s => ?_⟩⟩
  · have e : s.g = s'.g := e
    simp only [e]
  · dsimp only
    split <;> exact .inl ⟨rfl, rfl, .inr ⟨by decide, rfl⟩⟩

/-- The kinds of methods. -/
theorem oneWriter_kind {w : Nat} (x : Op) (h : OneWriter w x) :
    Writer (Mtx.store w) Mtx.graph view (prog x) .pre (.rd 0) ∨ Looker (Mtx.store w) Eq (prog x) .pre ∨
      Looker Mtx.graph (fun d d' => view d = view d') (prog x) .pre := by
  obtain ⟨i, op⟩ := x
  cases op with
  | inr o => exact .inr (.inr (((looker_graph o h).tag _).rename (of_inj i)))
  | inl o =>
    rcases h with ⟨rfl, h⟩ | ⟨u, rfl⟩
    · rcases single_kind (.inl o) h with h | h | h
      · exact (.inl (h.rename (f := Mtx.of i)))
      · exact .inr (.inl (h.rename (of_inj i)))
      · exact .inr (.inr (h.rename (of_inj i)))
    · exact .inr (.inr (((looker_get u).tag _).rename (of_inj i)))

theorem oneWriter_quiet {w : Nat} {x : Op} (h : OneWriter w x) : Quiet x.2 := by
  obtain ⟨i, op⟩ := x
  cases op with
  | inl o => trivial
  | inr o => exact h

theorem eval_prog (x : Op) (d : Graph.St) : (prog x).eval d = seq d x :=
  (rename_eval _ _ d).trans (eval_handle x.2 d)

theorem oneWriter_linearizable {w : Nat} {s : Graph.St} {c : Cfg Mtx Graph.Loc Graph.St Op Handle.Out}
    (hr : Reach prog (OneWriter w) s c) : Spec.Linearizable seq s c.hist :=
  commit_linearizable (a := Mtx.store w) (b := .graph) (by simp)
    (fun m x h => disc_all (fun m => handle_disc m x.2 (oneWriter_quiet h)) m) oneWriter_kind
    (fun x _ => eval_prog x) hr

/-- The kinds of methods. -/
theorem bulkWriter_kind {w : Nat} (x : Op) (h : OneBulkWriter w x) :
    (∃ p, prog x = .lock (Mtx.store w) p ∧
      Todo (Mtx.store w) Mtx.graph view (Spec.Shared.inParts w) seq x ((Spec.Shared.inParts w).parts x) [] p) ∨
    ((Spec.Shared.inParts w).parts x = [x] ∧ (∀ r, (Spec.Shared.inParts w).result x [r] r) ∧
      (∀ d, (prog x).eval d = seq d x) ∧
      (Looker (Mtx.store w) Eq (prog x) .pre ∨
        (¬ (Spec.Shared.inParts w).main x ∧ Looker Mtx.graph (fun d d' => view d = view d') (prog x) .pre))) := by
  obtain ⟨i, op⟩ := x
  cases op with
  | inr o =>
    refine .inr ⟨rfl, fun _ => rfl, eval_prog _, .inr ⟨?_, ((looker_graph o h).tag _).rename (of_inj i)⟩⟩
    rintro ⟨_, e⟩; cases e
  | inl o =>
    by_cases hw : i = w
    · subst hw
      rcases quiet_kind (.inl o) trivial with ⟨p, h1, h2⟩ | ⟨h1, h2, _, h4⟩
      · refine .inl ⟨p.rename (Mtx.of i), ?_, ?_⟩
        · show (Handle.prog (.inl o)).rename _ = _
          rw [h1]; rfl
        · exact Todo.rename (f := Mtx.of i) (φ := fun o => (i, o)) (S := Spec.Handle.inParts)
            (S' := Spec.Shared.inParts i) (seq := Handle.seq) (seq' := seq) rfl (fun _ => rfl) (fun _ _ => rfl) _ h2
      · refine .inr ⟨congrArg (List.map fun o => (i, o)) h1, h2, eval_prog _, ?_⟩
        rcases h4 with h4 | ⟨hm, h4⟩
        · exact .inl (h4.rename (of_inj i))
        · exact absurd ⟨o, rfl⟩ hm
    · rcases h with h | ⟨u, rfl⟩
      · exact absurd h hw
      · exact .inr ⟨rfl, fun _ => rfl, eval_prog _, .inr ⟨fun h => hw h.1, ((looker_get u).tag _).rename (of_inj i)⟩⟩

theorem bulkWriter_quiet {w : Nat} {x : Op} (h : OneBulkWriter w x) : Quiet x.2 := by
  obtain ⟨i, op⟩ := x
  cases op with
  | inl o => trivial
  | inr o => exact h

theorem bulkWriter_parts {w : Nat} {s : Graph.St} {c : Cfg Mtx Graph.Loc Graph.St Op Handle.Out}
    (hr : Reach prog (OneBulkWriter w) s c) : Spec.LinearizableInParts (Spec.Shared.inParts w) seq s c.hist :=
  parts_commit_linearizable (a := Mtx.store w) (b := .graph) (by simp)
    (fun m x h => disc_all (fun m => handle_disc m x.2 (bulkWriter_quiet h)) m) bulkWriter_kind hr

end Netscrape.Store.Shared
