import Verif.Lemmas.Conc

/-!
# One critical section per method gives linearizability
-/

namespace Netscrape.Conc
open Netscrape.Spec

variable {μ κ σ Op Out : Type} [DecidableEq μ]

/-- Where a call is relative to its one critical section. -/
inductive Phase where
  | pre
  | ann
  | inW
  | inR
  | post
deriving DecidableEq

def Phase.mu : Phase → Mu
  | .pre => ⟨0, .free⟩
  | .ann => ⟨0, .announced⟩
  | .inW => ⟨0, .held⟩
  | .inR => ⟨1, .free⟩
  | .post => ⟨0, .free⟩

/-- `One m p ph`: from phase `ph` on, `p` takes `m` once, accesses shared state only in between, writes
only if it took `m` for writing, and returns right after releasing `m`. Other mutexes may be used inside
the section. -/
def One (m : μ) : Prog μ κ σ Out → Phase → Prop
  | .ret _, ph => ph = .post
  | .lock m' k, ph =>
    if m' = m then ph = .pre ∧ One m k .inW else (ph = .inW ∨ ph = .inR) ∧ One m k ph
  | .acquire m' k, ph =>
    if m' = m then ph = .ann ∧ One m k .inW else (ph = .inW ∨ ph = .inR) ∧ One m k ph
  | .unlock m' k, ph =>
    if m' = m then ph = .inW ∧ One m k .post else (ph = .inW ∨ ph = .inR) ∧ One m k ph
  | .rlock m' k, ph =>
    if m' = m then ph = .pre ∧ One m k .inR else (ph = .inW ∨ ph = .inR) ∧ One m k ph
  | .runlock m' k, ph =>
    if m' = m then ph = .inR ∧ One m k .post else (ph = .inW ∨ ph = .inR) ∧ One m k ph
  | .read _ k, ph => (ph = .inW ∨ ph = .inR) ∧ ∀ s, One m (k s) ph
  | .write _ _ k, ph => ph = .inW ∧ ∀ s, One m (k s) ph

/-- The hold that goes with a phase. -/
def Phase.hold : Phase → Hold
  | .pre => .rd 0
  | .ann => .ann
  | .inW => .wr
  | .inR => .rd 1
  | .post => .rd 0

theorem One.disc {m : μ} {p : Prog μ κ σ Out} : ∀ {ph : Phase}, One m p ph →
    Disc m (fun _ => True) True True p ph.hold := by
  induction p with
  | ret r => intro ph h; cases h; exact ⟨0, rfl, fun _ => rfl⟩
  | lock m' k ih =>
    intro ph h
    simp only [One] at h
    simp only [Disc]
    split at h
    · next e => obtain ⟨rfl, h⟩ := h; rw [if_pos e]; exact ⟨rfl, ih h⟩
    · next e => rw [if_neg e]; rcases h with ⟨rfl | rfl, h⟩ <;> exact ⟨by decide, ih h⟩
  | acquire m' k ih =>
    intro ph h
    simp only [One] at h
    simp only [Disc]
    split at h
    · next e => obtain ⟨rfl, h⟩ := h; rw [if_pos e]; exact ⟨rfl, ih h⟩
    · next e => rw [if_neg e]; rcases h with ⟨rfl | rfl, h⟩ <;> exact ⟨by decide, ih h⟩
  | unlock m' k ih =>
    intro ph h
    simp only [One] at h
    simp only [Disc]
    split at h
    · next e => obtain ⟨rfl, h⟩ := h; rw [if_pos e]; exact ⟨rfl, ih h⟩
    · next e => rw [if_neg e]; rcases h with ⟨rfl | rfl, h⟩ <;> exact ⟨by decide, ih h⟩
  | rlock m' k ih =>
    intro ph h
    simp only [One] at h
    simp only [Disc]
    split at h
    · next e => obtain ⟨rfl, h⟩ := h; rw [if_pos e]; exact ⟨0, rfl, fun _ => rfl, ih h⟩
    · next e => rw [if_neg e]; rcases h with ⟨rfl | rfl, h⟩ <;> exact ⟨by decide, ih h⟩
  | runlock m' k ih =>
    intro ph h
    simp only [One] at h
    simp only [Disc]
    split at h
    · next e => obtain ⟨rfl, h⟩ := h; rw [if_pos e]; exact ⟨0, rfl, ih h⟩
    · next e => rw [if_neg e]; rcases h with ⟨rfl | rfl, h⟩ <;> exact ⟨by decide, ih h⟩
  | read l k ih =>
    intro ph h
    simp only [One] at h
    simp only [Disc]
    rcases h with ⟨rfl | rfl, h⟩ <;> exact ⟨by decide, fun _ => by decide, fun s => ih s (h s)⟩
  | write l f k ih =>
    intro ph h
    simp only [One] at h
    simp only [Disc]
    obtain ⟨rfl, h⟩ := h
    exact ⟨by decide, fun _ => rfl, fun s => ih s (h s)⟩

/-- A program in its read section does not change the state. -/
theorem One.eval_inR {m : μ} {p : Prog μ κ σ Out} : ∀ {ph : Phase}, One m p ph → (ph = .inR ∨ ph = .post) →
    ∀ s, (p.eval s).1 = s := by
  induction p with
  | ret r => intro ph _ _ s; rfl
  | lock m' k ih =>
    intro ph h hp s
    simp only [One] at h
    split at h
    · obtain ⟨rfl, h⟩ := h; rcases hp with hp | hp <;> cases hp
    · exact ih h.2 hp s
  | acquire m' k ih =>
    intro ph h hp s
    simp only [One] at h
    split at h
    · obtain ⟨rfl, h⟩ := h; rcases hp with hp | hp <;> cases hp
    · exact ih h.2 hp s
  | unlock m' k ih =>
    intro ph h hp s
    simp only [One] at h
    split at h
    · obtain ⟨rfl, h⟩ := h; rcases hp with hp | hp <;> cases hp
    · exact ih h.2 hp s
  | rlock m' k ih =>
    intro ph h hp s
    simp only [One] at h
    split at h
    · obtain ⟨rfl, h⟩ := h; rcases hp with hp | hp <;> cases hp
    · exact ih h.2 hp s
  | runlock m' k ih =>
    intro ph h hp s
    simp only [One] at h
    split at h
    · exact ih h.2 (.inr rfl) s
    · exact ih h.2 hp s
  | read l k ih =>
    intro ph h hp s
    exact ih s (h.2 s) hp s
  | write l f k ih =>
    intro ph h hp s
    obtain ⟨rfl, h⟩ := h
    rcases hp with hp | hp <;> cases hp

/-! ## Sequential runs -/

/-- The state after a sequential run. -/
def final (seq : σ → Op → σ × Out) : σ → List (Nat × Op × Out) → σ
  | s, [] => s
  | s, (_, op, _) :: l => final seq (seq s op).1 l

theorem final_append (seq : σ → Op → σ × Out) (x : Nat × Op × Out) :
    ∀ (l : List (Nat × Op × Out)) (s : σ),
      final seq s (l ++ [x]) = (seq (final seq s l) x.2.1).1 := by
  intro l
  induction l with
  | nil => intro s; rfl
  | cons y l ih => intro s; exact ih _

theorem legal_append (seq : σ → Op → σ × Out) (x : Nat × Op × Out) :
    ∀ (l : List (Nat × Op × Out)) (s : σ), Legal seq s l →
      (seq (final seq s l) x.2.1).2 = x.2.2 → Legal seq s (l ++ [x]) := by
  intro l
  induction l with
  | nil => intro s _ h; exact ⟨h, trivial⟩
  | cons y l ih => intro s hl h; exact ⟨hl.1, ih _ hl.2 h⟩

/-! ## Histories -/

theorem before_append {α : Type} {x y : α} {l : List α} (h : Before x y l) (l' : List α) :
    Before x y (l ++ l') := by
  obtain ⟨a, b, d, rfl⟩ := h
  exact ⟨a, b, d ++ l', by simp⟩

theorem before_last {α : Type} {x y : α} {l : List α} (h : x ∈ l) : Before x y (l ++ [y]) := by
  obtain ⟨a, b, rfl⟩ := List.append_of_mem h
  exact ⟨a, b, [], by simp⟩

theorem before_mem {α : Type} {x y : α} {l : List α} (h : Before x y l) : x ∈ l ∧ y ∈ l := by
  obtain ⟨a, b, d, rfl⟩ := h
  simp

/-- Splitting a pair off a list that was extended by one. -/
theorem before_of_append {α : Type} {x y z : α} {l : List α} (h : Before x y (l ++ [z])) :
    Before x y l ∨ (x ∈ l ∧ y = z) := by
  obtain ⟨a, b, d, e⟩ := h
  rcases List.eq_nil_or_concat d with rfl | ⟨d', z', rfl⟩
  · right
    have e' : l ++ [z] = (a ++ x :: b) ++ [y] := by rw [e]; simp
    obtain ⟨h1, h2⟩ := List.append_inj' e' rfl
    simp only [List.cons.injEq, and_true] at h2
    exact ⟨by rw [h1]; simp, h2.symm⟩
  · left
    have e' : l ++ [z] = (a ++ x :: (b ++ y :: d')) ++ [z'] := by rw [e]; simp
    obtain ⟨h1, _⟩ := List.append_inj' e' rfl
    exact ⟨a, b, d', h1⟩

/-- The linearization invariant. `lin` has every call that has entered its critical section, in the
order of entering, with the result it is going to have. -/
structure LinInv (m : μ) (prog : Op → Prog μ κ σ Out) (seq : σ → Op → σ × Out) (s : σ)
    (c : Cfg μ κ σ Op Out) (lin : List (Nat × Op × Out)) : Prop where
  legal : Legal seq s lin
  explains : Explains lin c.hist
  fresh : ∀ i t op, Ev.inv i t op ∈ c.hist → i < c.next
  invoked : ∀ t k, c.calls t = some k → Ev.inv k.id t k.op ∈ c.hist
  distinct : ∀ t t' k k', c.calls t = some k → c.calls t' = some k' → k.id = k'.id → t = t'
  pending : ∀ t k, c.calls t = some k → ∀ t' out, Ev.res k.id t' out ∉ c.hist
  data : (∀ t, (mineOf m c t).wr ≠ .held) → c.data = final seq s lin
  phase : ∀ t k, c.calls t = some k → ∃ ph, One m k.prog ph ∧ k.mine m = ph.mu ∧
    ((ph = .pre ∨ ph = .ann) → (∀ x ∈ lin, x.1 ≠ k.id) ∧ ∀ s, k.prog.eval s = seq s k.op) ∧
    (ph = .inW → ∃ out, (k.id, k.op, out) ∈ lin ∧ k.prog.eval c.data = (final seq s lin, out)) ∧
    ((ph = .inR ∨ ph = .post) → ∃ out, (k.id, k.op, out) ∈ lin ∧ (k.prog.eval c.data).2 = out)

/-- The section of a call that is about to run its micro-step. Used to treat all cases of a micro-step
uniformly: `enter` says that the step enters the critical section. -/
theorem lin_tau {m : μ} {prog : Op → Prog μ κ σ Out} {seq : σ → Op → σ × Out} {s : σ}
    {c : Cfg μ κ σ Op Out} {lin : List (Nat × Op × Out)} (hi : LinInv m prog seq s c lin)
    (hl : LockInv m (fun _ => True) True True c) {t : Nat} {k k' : Call μ κ σ Op Out} {mus : μ → Mu} {d : σ}
    (hk : c.calls t = some k) (hm : micro c k = some (k', mus, d)) :
    ∃ lin', LinInv m prog seq s { c with data := d, mus := mus, calls := upd c.calls t (some k') } lin' := by
  obtain ⟨ph, hone, hmine, hpre, hinW, hinR⟩ := hi.phase t k hk
  have hft : mineOf m c t = ph.mu := (mineOf_some hk).trans hmine
  -- other calls
  have others : ∀ t' q, t' ≠ t → upd c.calls t (some k') t' = some q → c.calls t' = some q := by
    intro t' q e h
    rwa [upd_ne _ _ e] at h
  -- the call's identity does not change
  have hid : k'.id = k.id ∧ k'.op = k.op := by
    unfold micro at hm
    cases hp : k.prog <;> simp only [hp] at hm
    case ret => cases hm
    case read => cases hm; exact ⟨rfl, rfl⟩
    case write => cases hm; exact ⟨rfl, rfl⟩
    all_goals
      split at hm
      · cases hm; exact ⟨rfl, rfl⟩
      · cases hm
  have mk : ∀ lin', Legal seq s lin' → Explains lin' c.hist →
      ((∀ t', (upd (mineOf m c) t (k'.mine m) t').wr ≠ .held) → d = final seq s lin') →
      (∀ t' q, t' ≠ t → c.calls t' = some q → ∃ ph, One m q.prog ph ∧ q.mine m = ph.mu ∧
        ((ph = .pre ∨ ph = .ann) → (∀ x ∈ lin', x.1 ≠ q.id) ∧ ∀ s, q.prog.eval s = seq s q.op) ∧
        (ph = .inW → ∃ out, (q.id, q.op, out) ∈ lin' ∧ q.prog.eval d = (final seq s lin', out)) ∧
        ((ph = .inR ∨ ph = .post) → ∃ out, (q.id, q.op, out) ∈ lin' ∧ (q.prog.eval d).2 = out)) →
      (∃ ph, One m k'.prog ph ∧ k'.mine m = ph.mu ∧
        ((ph = .pre ∨ ph = .ann) → (∀ x ∈ lin', x.1 ≠ k.id) ∧ ∀ s, k'.prog.eval s = seq s k.op) ∧
        (ph = .inW → ∃ out, (k.id, k.op, out) ∈ lin' ∧ k'.prog.eval d = (final seq s lin', out)) ∧
        ((ph = .inR ∨ ph = .post) → ∃ out, (k.id, k.op, out) ∈ lin' ∧ (k'.prog.eval d).2 = out)) →
      LinInv m prog seq s { c with data := d, mus := mus, calls := upd c.calls t (some k') } lin' := by
    intro lin' h1 h2 h3 h4 h5
    refine ⟨h1, h2, hi.fresh, ?_, ?_, ?_, ?_, ?_⟩
    · intro t' q hq
      by_cases e : t' = t
      · subst e
        simp only [upd_self, Option.some.injEq] at hq
        subst hq
        rw [hid.1, hid.2]
        exact hi.invoked t' k hk
      · exact hi.invoked t' q (others t' q e hq)
    · intro t1 t2 q1 q2 h1 h2 he
      have g1 : ∃ p, c.calls t1 = some p ∧ p.id = q1.id := by
        by_cases e : t1 = t
        · subst e
          simp only [upd_self, Option.some.injEq] at h1
          subst h1
          exact ⟨k, hk, hid.1.symm⟩
        · exact ⟨q1, others t1 q1 e h1, rfl⟩
      have g2 : ∃ p, c.calls t2 = some p ∧ p.id = q2.id := by
        by_cases e : t2 = t
        · subst e
          simp only [upd_self, Option.some.injEq] at h2
          subst h2
          exact ⟨k, hk, hid.1.symm⟩
        · exact ⟨q2, others t2 q2 e h2, rfl⟩
      obtain ⟨p1, g1, e1⟩ := g1
      obtain ⟨p2, g2, e2⟩ := g2
      exact hi.distinct t1 t2 p1 p2 g1 g2 (by rw [e1, e2, he])
    · intro t' q hq
      by_cases e : t' = t
      · subst e
        simp only [upd_self, Option.some.injEq] at hq
        subst hq
        rw [hid.1]
        exact hi.pending t' k hk
      · exact hi.pending t' q (others t' q e hq)
    · rw [mineOf_upd]; exact h3
    · intro t' q hq
      by_cases e : t' = t
      · subst e
        simp only [upd_self, Option.some.injEq] at hq
        subst hq
        rw [hid.1, hid.2]
        exact h5
      · exact h4 t' q e (others t' q e hq)
  -- a step that neither enters the section nor changes data
  have quiet : d = c.data → ((k'.mine m).wr = .held ↔ (k.mine m).wr = .held) →
      (∃ ph', One m k'.prog ph' ∧ k'.mine m = ph'.mu ∧
        ((ph' = .pre ∨ ph' = .ann) → (∀ x ∈ lin, x.1 ≠ k.id) ∧ ∀ s, k'.prog.eval s = seq s k.op) ∧
        (ph' = .inW → ∃ out, (k.id, k.op, out) ∈ lin ∧ k'.prog.eval d = (final seq s lin, out)) ∧
        ((ph' = .inR ∨ ph' = .post) → ∃ out, (k.id, k.op, out) ∈ lin ∧ (k'.prog.eval d).2 = out)) →
      ∃ lin', LinInv m prog seq s { c with data := d, mus := mus, calls := upd c.calls t (some k') } lin' := by
    intro hd hw h5
    refine ⟨lin, mk lin hi.legal hi.explains ?_ ?_ h5⟩
    · intro h
      rw [hd]
      refine hi.data (fun t' => ?_)
      by_cases e : t' = t
      · subst e
        have := h t'
        rw [upd_self] at this
        rw [mineOf_some hk]
        exact fun hh => this (hw.mpr hh)
      · have := h t'
        rwa [upd_ne _ _ e] at this
    · intro t' q e hq
      rw [hd]
      exact hi.phase t' q hq
  -- entering the critical section: the call takes effect now
  have enter : ∀ ph' : Phase, d = c.data → (∀ t', (mineOf m c t').wr ≠ .held) →
      (ph = .pre ∨ ph = .ann) → (ph' = .inW ∨ ph' = .inR) →
      k'.mine m = ph'.mu → One m k'.prog ph' → (∀ s, k'.prog.eval s = k.prog.eval s) →
      ∃ lin', LinInv m prog seq s { c with data := d, mus := mus, calls := upd c.calls t (some k') } lin' := by
    intro ph' hd hnone hph hph' hmine' hone' hev
    have hdata := hi.data hnone
    obtain ⟨hnot, heval⟩ := hpre hph
    have hstate : ph' = .inR → (seq c.data k.op).1 = c.data := by
      rintro rfl
      rw [← heval, ← hev]
      exact hone'.eval_inR (.inl rfl) _
    refine ⟨lin ++ [(k.id, k.op, (seq c.data k.op).2)], mk _ ?_ ?_ ?_ ?_ ?_⟩
    · exact legal_append seq _ lin s hi.legal (by rw [← hdata])
    · refine ⟨?_, ?_, ?_, ?_⟩
      · rw [List.map_append, List.nodup_append]
        refine ⟨hi.explains.once, by simp, ?_⟩
        intro a ha b hb
        obtain ⟨x, hx, rfl⟩ := List.mem_map.mp ha
        simp only [List.map_cons, List.map_nil, List.mem_singleton] at hb
        rw [hb]
        exact hnot x hx
      · intro i op out hx
        rcases List.mem_append.mp hx with hx | hx
        · exact hi.explains.called i op out hx
        · simp only [List.mem_singleton, Prod.mk.injEq] at hx
          obtain ⟨rfl, rfl, _⟩ := hx
          exact ⟨t, hi.invoked t k hk⟩
      · intro i t' out hx
        obtain ⟨op, h⟩ := hi.explains.returned i t' out hx
        exact ⟨op, List.mem_append_left _ h⟩
      · intro i t' out i' t'' op' hb x' hx' he
        rcases List.mem_append.mp hx' with hx' | hx'
        · obtain ⟨x, h1, h2, h3⟩ := hi.explains.realTime i t' out i' t'' op' hb x' hx' he
          exact ⟨x, List.mem_append_left _ h1, h2, before_append h3 _⟩
        · obtain ⟨op, h⟩ := hi.explains.returned i t' out (before_mem hb).1
          simp only [List.mem_singleton] at hx'
          refine ⟨_, List.mem_append_left _ h, rfl, ?_⟩
          rw [hx']
          exact before_last h
    · intro h
      rw [final_append, ← hdata, hd]
      rcases hph' with rfl | rfl
      · exact absurd (by rw [upd_self, hmine']; rfl) (h t)
      · exact (hstate rfl).symm
    · intro t' q e hq
      obtain ⟨phq, g1, g2, g3, g4, g5⟩ := hi.phase t' q hq
      refine ⟨phq, g1, g2, ?_, ?_, ?_⟩
      · intro hp
        refine ⟨fun x hx => ?_, (g3 hp).2⟩
        rcases List.mem_append.mp hx with hx | hx
        · exact (g3 hp).1 x hx
        · simp only [List.mem_singleton] at hx
          rw [hx]
          exact fun he => e (hi.distinct t' t q k hq hk he.symm)
      · rintro rfl
        exact absurd (by rw [mineOf_some hq, g2]; rfl) (hnone t')
      · intro hp
        obtain ⟨out, h1, h2⟩ := g5 hp
        exact ⟨out, List.mem_append_left _ h1, by rw [hd]; exact h2⟩
    · refine ⟨ph', hone', hmine', ?_, ?_, ?_⟩
      · intro hp; rcases hph' with rfl | rfl <;> rcases hp with hp | hp <;> cases hp
      · rintro rfl
        refine ⟨_, List.mem_append_right _ (List.mem_singleton.mpr rfl), ?_⟩
        rw [final_append, ← hdata, hd, hev, heval]
      · intro _
        refine ⟨_, List.mem_append_right _ (List.mem_singleton.mpr rfl), ?_⟩
        rw [hd, hev, heval]
  -- a step inside the section on another mutex, or an access that does not write
  have inside : ∀ p, k'.prog = p → d = c.data → k'.mine m = k.mine m → One m p ph →
      (ph = .inW ∨ ph = .inR) → p.eval c.data = k.prog.eval c.data →
      ∃ lin', LinInv m prog seq s { c with data := d, mus := mus, calls := upd c.calls t (some k') } lin' := by
    intro p e1 e2 e3 e4 e5 e6
    refine quiet e2 (by rw [e3]) ⟨ph, e1 ▸ e4, e3.trans hmine, ?_, ?_, ?_⟩
    · intro hp; rcases e5 with rfl | rfl <;> rcases hp with hp | hp <;> cases hp
    · rintro rfl
      obtain ⟨out, h1, h2⟩ := hinW rfl
      exact ⟨out, h1, by rw [e1, e2, e6]; exact h2⟩
    · intro hp
      obtain ⟨out, h1, h2⟩ := hinR hp
      exact ⟨out, h1, by rw [e1, e2, e6]; exact h2⟩
  have hm0 := hm
  unfold micro at hm
  cases hp : k.prog with
  | ret r => simp only [hp, reduceCtorEq] at hm
  | lock m' p =>
    rw [hp] at hone
    simp only [hp] at hm
    split at hm
    · next hfree =>
      cases hm
      simp only [One] at hone
      by_cases e : m' = m
      · subst e
        rw [if_pos rfl] at hone
        obtain ⟨rfl, hone⟩ := hone
        refine quiet rfl ?_ ⟨.ann, ?_, ?_, ?_, ?_, ?_⟩
        · simp only [upd_self, hmine, Phase.mu, reduceCtorEq]
        · simp only [One, if_true]; exact ⟨trivial, hone⟩
        · simp only [upd_self, hmine]; rfl
        · intro _
          refine ⟨(hpre (.inl rfl)).1, fun s => ?_⟩
          have := (hpre (.inl rfl)).2 s
          rw [hp] at this
          exact this
        · intro h; cases h
        · intro h; rcases h with h | h <;> cases h
      · rw [if_neg e] at hone
        refine inside (.acquire m' p) rfl rfl (upd_ne _ _ (Ne.symm e)) ?_ hone.1 (by rw [hp]; rfl)
        simp only [One, if_neg e]; exact hone
    · cases hm
  | acquire m' p =>
    rw [hp] at hone
    simp only [hp] at hm
    split at hm
    · next hfree =>
      cases hm
      simp only [One] at hone
      by_cases e : m' = m
      · subst e
        rw [if_pos rfl] at hone
        obtain ⟨rfl, hone⟩ := hone
        refine enter .inW rfl ?_ (.inr rfl) (.inl rfl) ?_ hone (fun s => by rw [hp]; rfl)
        · intro t' hh
          have hf : (mineOf m' c t).wr = .announced := by rw [hft]; rfl
          by_cases e : t' = t
          · subst e; rw [hf] at hh; cases hh
          · have := (hl.count.wr_eq (by decide) hf).2 t' e
            rw [hh] at this; cases this
        · simp only [upd_self, hmine]; rfl
      · rw [if_neg e] at hone
        exact inside p rfl rfl (upd_ne _ _ (Ne.symm e)) hone.2 hone.1 (by rw [hp]; rfl)
    · cases hm
  | unlock m' p =>
    rw [hp] at hone
    simp only [hp] at hm
    split at hm
    · next hfree =>
      cases hm
      simp only [One] at hone
      by_cases e : m' = m
      · subst e
        rw [if_pos rfl] at hone
        obtain ⟨rfl, hone⟩ := hone
        obtain ⟨out, hmem, hev⟩ := hinW rfl
        rw [hp] at hev
        have hev' : p.eval c.data = (final seq s lin, out) := hev
        have hst : c.data = final seq s lin := by
          have := hone.eval_inR (.inr rfl) c.data
          rw [hev'] at this
          exact this.symm
        have hheld : (mineOf m' c t).wr = .held := by rw [hft]; rfl
        refine ⟨lin, mk lin hi.legal hi.explains (fun _ => hst) ?_ ⟨.post, hone, ?_, ?_, ?_, ?_⟩⟩
        · intro t' q e hq
          exact hi.phase t' q hq
        · simp only [upd_self, hmine]; rfl
        · intro h; rcases h with h | h <;> cases h
        · intro h; cases h
        · intro _
          refine ⟨out, hmem, ?_⟩
          show (p.eval c.data).2 = out
          rw [hev']
      · rw [if_neg e] at hone
        exact inside p rfl rfl (upd_ne _ _ (Ne.symm e)) hone.2 hone.1 (by rw [hp]; rfl)
    · cases hm
  | rlock m' p =>
    rw [hp] at hone
    simp only [hp] at hm
    split at hm
    · next hfree =>
      cases hm
      simp only [One] at hone
      by_cases e : m' = m
      · subst e
        rw [if_pos rfl] at hone
        obtain ⟨rfl, hone⟩ := hone
        refine enter .inR rfl ?_ (.inl rfl) (.inr rfl) ?_ hone (fun s => by rw [hp]; rfl)
        · intro t' hh
          have := hl.count.free hfree t'
          rw [hh] at this; cases this
        · simp only [upd_self, hmine]; rfl
      · rw [if_neg e] at hone
        exact inside p rfl rfl (upd_ne _ _ (Ne.symm e)) hone.2 hone.1 (by rw [hp]; rfl)
    · cases hm
  | runlock m' p =>
    rw [hp] at hone
    simp only [hp] at hm
    split at hm
    · next hfree =>
      cases hm
      simp only [One] at hone
      by_cases e : m' = m
      · subst e
        rw [if_pos rfl] at hone
        obtain ⟨rfl, hone⟩ := hone
        obtain ⟨out, hmem, hev⟩ := hinR (.inl rfl)
        rw [hp] at hev
        refine quiet rfl ?_ ⟨.post, hone, ?_, ?_, ?_, ?_⟩
        · simp only [upd_self, hmine, Phase.mu]
        · simp only [upd_self, hmine]; rfl
        · intro h; rcases h with h | h <;> cases h
        · intro h; cases h
        · intro _; exact ⟨out, hmem, hev⟩
      · rw [if_neg e] at hone
        exact inside p rfl rfl (upd_ne _ _ (Ne.symm e)) hone.2 hone.1 (by rw [hp]; rfl)
    · cases hm
  | read l p =>
    rw [hp] at hone
    simp only [hp, Option.some.injEq, Prod.mk.injEq] at hm
    obtain ⟨rfl, rfl, rfl⟩ := hm
    exact inside _ rfl rfl rfl (hone.2 _) hone.1 (by rw [hp]; rfl)
  | write l f p =>
    rw [hp] at hone
    simp only [hp, Option.some.injEq, Prod.mk.injEq] at hm
    obtain ⟨rfl, rfl, rfl⟩ := hm
    obtain ⟨rfl, hone⟩ := hone
    have hheld : (mineOf m c t).wr = .held := by rw [hft]; rfl
    refine ⟨lin, mk lin hi.legal hi.explains ?_ ?_ ⟨.inW, hone _, hmine, ?_, ?_, ?_⟩⟩
    · intro h
      exact absurd (by rw [upd_self, ← mineOf_some (m := m) hk]; exact hheld) (h t)
    · intro t' q e hq
      obtain ⟨phq, g1, g2, g3, g4, g5⟩ := hi.phase t' q hq
      refine ⟨phq, g1, g2, g3, ?_, ?_⟩
      · rintro rfl
        have := (hl.count.wr_eq (by decide) hheld).2 t' e
        rw [mineOf_some hq, g2] at this
        cases this
      · intro hp
        obtain ⟨out, h1, h2⟩ := g5 hp
        refine ⟨out, h1, ?_⟩
        rcases hp with rfl | rfl
        · have := hl.count.excl hheld t'
          rw [mineOf_some hq, g2] at this
          cases this
        · have hp : ∃ r, q.prog = .ret r := by
            cases hq : q.prog <;> rw [hq] at g1
            case ret r => exact ⟨r, rfl⟩
            all_goals
              simp only [One] at g1
              repeat' split at g1
              all_goals simp at g1
          obtain ⟨r, hp⟩ := hp
          rw [hp] at h2 ⊢
          exact h2
    · intro h; rcases h with h | h <;> cases h
    · intro _
      obtain ⟨out, h1, h2⟩ := hinW rfl
      rw [hp] at h2
      exact ⟨out, h1, h2⟩
    · intro h; rcases h with h | h <;> cases h

/-- Methods that run in one critical section and compute, run alone, what the sequential specification
says, are linearizable. -/
theorem linearizable {m : μ} {prog : Op → Prog μ κ σ Out} {seq : σ → Op → σ × Out}
    {allowed : Op → Prop} (hone : ∀ op, allowed op → One m (prog op) .pre)
    (hseq : ∀ op, allowed op → ∀ s, (prog op).eval s = seq s op) {s : σ} {c : Cfg μ κ σ Op Out}
    (hr : Reach prog allowed s c) : Linearizable seq s c.hist := by
  suffices h : ∃ lin, LinInv m prog seq s c lin by
    obtain ⟨lin, h⟩ := h
    exact ⟨lin, h.legal, h.explains⟩
  induction hr with
  | init =>
    refine ⟨[], trivial, ⟨List.nodup_nil, ?_, ?_, ?_⟩, ?_, ?_, ?_, ?_, fun _ => rfl, ?_⟩
    · intro _ _ _ h; cases h
    · intro _ _ _ h; cases h
    · intro _ _ _ _ _ _ _ x h; cases h
    · intro _ _ _ h; cases h
    · intro _ _ h; cases h
    · intro _ _ _ _ h; cases h
    · intro _ _ h; cases h
    · intro _ _ h; cases h
  | step c c' a hrc ha hst ih =>
    obtain ⟨lin, hi⟩ := ih
    cases a with
    | tau t =>
      unfold Conc.step at hst
      cases hc : c.calls t with
      | none => simp only [hc, reduceCtorEq] at hst
      | some k =>
        simp only [hc] at hst
        cases hm : Conc.micro c k with
        | none => simp only [hm, reduceCtorEq] at hst
        | some r =>
          obtain ⟨k', mus, d⟩ := r
          simp only [hm, Option.some.injEq] at hst
          subst hst
          exact lin_tau hi (lockInv (fun op h => (hone op h).disc) hrc) hc hm
    | call t op =>
      unfold Conc.step at hst
      cases hc : c.calls t with
      | some k => simp only [hc, reduceCtorEq] at hst
      | none =>
        simp only [hc, Option.some.injEq] at hst
        subst hst
        have hin : ∀ {e : Ev Op Out}, e ∈ c.hist ++ [Ev.inv c.next t op] →
            e ∈ c.hist ∨ e = Ev.inv c.next t op := fun h => by simpa using h
        have hidlt : ∀ t' k, c.calls t' = some k → k.id < c.next := fun t' k hk =>
          hi.fresh _ _ _ (hi.invoked t' k hk)
        have hlinlt : ∀ x ∈ lin, x.1 < c.next := by
          rintro ⟨i, op', out⟩ hx
          obtain ⟨t', h⟩ := hi.explains.called i op' out hx
          exact hi.fresh _ _ _ h
        have hreslt : ∀ i t' out, Ev.res i t' out ∈ c.hist → i < c.next := by
          intro i t' out h
          obtain ⟨op', hx⟩ := hi.explains.returned i t' out h
          exact hlinlt _ hx
        refine ⟨lin, hi.legal, ⟨hi.explains.once, ?_, ?_, ?_⟩, ?_, ?_, ?_, ?_, ?_, ?_⟩
        · intro i op' out hx
          obtain ⟨t', h⟩ := hi.explains.called i op' out hx
          exact ⟨t', List.mem_append_left _ h⟩
        · intro i t' out hx
          rcases hin hx with hx | hx
          · exact hi.explains.returned i t' out hx
          · cases hx
        · intro i t1 out i' t2 op' hb x' hx' he
          rcases before_of_append hb with hb | ⟨_, hb⟩
          · exact hi.explains.realTime i t1 out i' t2 op' hb x' hx' he
          · cases hb
            exact absurd he (Nat.ne_of_lt (hlinlt x' hx'))
        · intro i t' op' hx
          rcases hin hx with hx | hx
          · exact Nat.lt_succ_of_lt (hi.fresh i t' op' hx)
          · cases hx; exact Nat.lt_succ_self _
        · intro t' k hk
          by_cases e : t' = t
          · subst e
            simp only [upd_self, Option.some.injEq] at hk
            subst hk
            exact List.mem_append_right _ (List.mem_singleton.mpr rfl)
          · simp only [upd_ne _ _ e] at hk
            exact List.mem_append_left _ (hi.invoked t' k hk)
        · intro t1 t2 k1 k2 h1 h2 he
          by_cases e1 : t1 = t
          · subst e1
            simp only [upd_self, Option.some.injEq] at h1
            subst h1
            by_cases e2 : t2 = t1
            · exact e2.symm
            · simp only [upd_ne _ _ e2] at h2
              exact absurd he.symm (Nat.ne_of_lt (hidlt t2 k2 h2))
          · simp only [upd_ne _ _ e1] at h1
            by_cases e2 : t2 = t
            · subst e2
              simp only [upd_self, Option.some.injEq] at h2
              subst h2
              exact absurd he (Nat.ne_of_lt (hidlt t1 k1 h1))
            · simp only [upd_ne _ _ e2] at h2
              exact hi.distinct t1 t2 k1 k2 h1 h2 he
        · intro t' k hk t2 out hx
          rcases hin hx with hy | hy
          · by_cases e : t' = t
            · subst e
              simp only [upd_self, Option.some.injEq] at hk
              subst hk
              exact absurd (hreslt _ _ _ hy) (Nat.lt_irrefl _)
            · simp only [upd_ne _ _ e] at hk
              exact hi.pending t' k hk t2 out hy
          · cases hy
        · intro h
          refine hi.data (fun t' hh => ?_)
          by_cases e : t' = t
          · subst e
            unfold mineOf at hh
            simp only [hc] at hh
            cases hh
          · refine h t' ?_
            unfold mineOf at hh ⊢
            simp only [upd_ne _ _ e]
            exact hh
        · intro t' k hk
          by_cases e : t' = t
          · subst e
            simp only [upd_self, Option.some.injEq] at hk
            subst hk
            refine ⟨.pre, hone op (ha t' op rfl), rfl, ?_, ?_, ?_⟩
            · intro _
              exact ⟨fun x hx => Nat.ne_of_lt (hlinlt x hx), hseq op (ha t' op rfl)⟩
            · intro h; cases h
            · intro h; rcases h with h | h <;> cases h
          · simp only [upd_ne _ _ e] at hk
            exact hi.phase t' k hk
    | ret t =>
      unfold Conc.step at hst
      cases hc : c.calls t with
      | none => simp only [hc, reduceCtorEq] at hst
      | some k =>
        cases hp : k.prog with
        | ret r =>
          simp only [hc, hp, Option.some.injEq] at hst
          subst hst
          obtain ⟨ph, h1, h2, _, _, h5⟩ := hi.phase t k hc
          rw [hp] at h1
          have hph : ph = .post := h1
          subst hph
          obtain ⟨out, hmem, hev⟩ := h5 (.inr rfl)
          rw [hp] at hev
          have hro : r = out := hev
          subst hro
          have old : ∀ t' q, upd c.calls t none t' = some q → t' ≠ t ∧ c.calls t' = some q := by
            intro t' q h
            by_cases e : t' = t
            · subst e; rw [upd_self] at h; cases h
            · rw [upd_ne _ _ e] at h; exact ⟨e, h⟩
          have hin : ∀ {e : Ev Op Out}, e ∈ c.hist ++ [Ev.res k.id t r] →
              e ∈ c.hist ∨ e = Ev.res k.id t r := fun h => by simpa using h
          refine ⟨lin, hi.legal, ⟨hi.explains.once, ?_, ?_, ?_⟩, ?_, ?_, ?_, ?_, ?_, ?_⟩
          · intro i op' out hx
            obtain ⟨t', h⟩ := hi.explains.called i op' out hx
            exact ⟨t', List.mem_append_left _ h⟩
          · intro i t' out hx
            rcases hin hx with hx | hx
            · exact hi.explains.returned i t' out hx
            · cases hx; exact ⟨k.op, hmem⟩
          · intro i t1 out i' t2 op' hb x' hx' he
            rcases before_of_append hb with hb | ⟨_, hb⟩
            · exact hi.explains.realTime i t1 out i' t2 op' hb x' hx' he
            · cases hb
          · intro i t' op' hx
            rcases hin hx with hx | hx
            · exact hi.fresh i t' op' hx
            · cases hx
          · intro t' q hq
            exact List.mem_append_left _ (hi.invoked t' q (old t' q hq).2)
          · intro t1 t2 k1 k2 h1 h2 he
            exact hi.distinct t1 t2 k1 k2 (old t1 k1 h1).2 (old t2 k2 h2).2 he
          · intro t' q hq t2 out hx
            rcases hin hx with hx | hx
            · exact hi.pending t' q (old t' q hq).2 t2 out hx
            · simp only [Ev.res.injEq] at hx
              exact (old t' q hq).1 (hi.distinct t' t q k (old t' q hq).2 hc hx.1)
          · intro h
            refine hi.data (fun t' hh => ?_)
            by_cases e : t' = t
            · subst e
              rw [mineOf_some hc, h2] at hh
              cases hh
            · refine h t' ?_
              unfold mineOf at hh ⊢
              simp only [upd_ne _ _ e]
              exact hh
          · intro t' q hq
            exact hi.phase t' q (old t' q hq).2
        | _ => simp only [hc, hp, reduceCtorEq] at hst

/-! ## Bodies between `Lock` and `defer Unlock` -/

omit [DecidableEq μ] in
theorem eval_bind {α β : Type} (f : α → Prog μ κ σ β) (p : Prog μ κ σ α) :
    ∀ s, (p.bind f).eval s = (f (p.eval s).2).eval (p.eval s).1 := by
  induction p with
  | ret r => intro s; rfl
  | lock m k ih => exact ih
  | acquire m k ih => exact ih
  | unlock m k ih => exact ih
  | rlock m k ih => exact ih
  | runlock m k ih => exact ih
  | read l k ih => exact fun s => ih s s
  | write l f k ih => exact fun s => ih _ _

omit [DecidableEq μ] in
theorem eval_excl (m : μ) (p : Prog μ κ σ Out) (s : σ) : (p.excl m).eval s = p.eval s := by
  unfold Prog.excl
  exact eval_bind _ p s

omit [DecidableEq μ] in
theorem eval_shared (m : μ) (p : Prog μ κ σ Out) (s : σ) : (p.shared m).eval s = p.eval s := by
  unfold Prog.shared
  exact eval_bind _ p s

/-- The program does not use mutex `m`, and writes only if `w`. -/
def Inside {ρ : Type} (m : μ) (w : Prop) : Prog μ κ σ ρ → Prop
  | .ret _ => True
  | .lock m' k => m' ≠ m ∧ Inside m w k
  | .acquire m' k => m' ≠ m ∧ Inside m w k
  | .unlock m' k => m' ≠ m ∧ Inside m w k
  | .rlock m' k => m' ≠ m ∧ Inside m w k
  | .runlock m' k => m' ≠ m ∧ Inside m w k
  | .read _ k => ∀ s, Inside m w (k s)
  | .write _ _ k => w ∧ ∀ s, Inside m w (k s)

omit [DecidableEq μ] in
theorem Inside.bind {α β : Type} {m : μ} {w : Prop} {f : α → Prog μ κ σ β}
    (hf : ∀ a, Inside m w (f a)) {p : Prog μ κ σ α} : Inside m w p → Inside m w (p.bind f) := by
  induction p with
  | ret r => exact fun _ => hf r
  | lock m k ih => exact fun h => ⟨h.1, ih h.2⟩
  | acquire m k ih => exact fun h => ⟨h.1, ih h.2⟩
  | unlock m k ih => exact fun h => ⟨h.1, ih h.2⟩
  | rlock m k ih => exact fun h => ⟨h.1, ih h.2⟩
  | runlock m k ih => exact fun h => ⟨h.1, ih h.2⟩
  | read l k ih => exact fun h s => ih s (h s)
  | write l f k ih => exact fun h => ⟨h.1, fun s => ih s (h.2 s)⟩

private theorem one_inside {m : μ} {w : Prop} {ph : Phase} (hph : ph = .inW ∨ ph = .inR)
    (hw : w → ph = .inW) {α : Type} {f : α → Prog μ κ σ Out} (hf : ∀ a, One m (f a) ph)
    {p : Prog μ κ σ α} : Inside m w p → One m (p.bind f) ph := by
  induction p with
  | ret r => exact fun _ => hf r
  | lock m' k ih => intro h; simp only [Prog.bind, One, if_neg h.1]; exact ⟨hph, ih h.2⟩
  | acquire m' k ih => intro h; simp only [Prog.bind, One, if_neg h.1]; exact ⟨hph, ih h.2⟩
  | unlock m' k ih => intro h; simp only [Prog.bind, One, if_neg h.1]; exact ⟨hph, ih h.2⟩
  | rlock m' k ih => intro h; simp only [Prog.bind, One, if_neg h.1]; exact ⟨hph, ih h.2⟩
  | runlock m' k ih => intro h; simp only [Prog.bind, One, if_neg h.1]; exact ⟨hph, ih h.2⟩
  | read l k ih => exact fun h => ⟨hph, fun s => ih s (h s)⟩
  | write l f k ih => exact fun h => ⟨hw h.1, fun s => ih s (h.2 s)⟩

theorem one_excl {m : μ} {p : Prog μ κ σ Out} (h : Inside m True p) : One m (p.excl m) .pre := by
  unfold Prog.excl
  simp only [One, if_true, true_and]
  exact one_inside (.inl rfl) (fun _ => rfl) (fun a => by simp [One]) h

theorem one_shared {m : μ} {p : Prog μ κ σ Out} (h : Inside m False p) : One m (p.shared m) .pre := by
  unfold Prog.shared
  simp only [One, if_true, true_and]
  exact one_inside (.inr rfl) (fun h => h.elim) (fun a => by simp [One]) h

end Netscrape.Conc
