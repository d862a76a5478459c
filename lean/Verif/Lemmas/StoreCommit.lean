import Verif.Lemmas.Commit
import Verif.Lemmas.StoreHandle

/-!
# The store's methods change the graph in at most one critical section of its mutex
-/

namespace Netscrape.Conc
variable {μ κ σ ρ Out : Type}

/-- The body of a method that reads: no locks of `m`, only read locks of others, no writes. -/
def Peek (m : μ) : Prog μ κ σ ρ → Prop
  | .ret _ => True
  | .rlock m' k => m' ≠ m ∧ Peek m k
  | .runlock m' k => m' ≠ m ∧ Peek m k
  | .read _ k => ∀ s, Peek m (k s)
  | _ => False

theorem Peek.bind {α β : Type} {m : μ} {f : α → Prog μ κ σ β} (hf : ∀ x, Peek m (f x)) {p : Prog μ κ σ α}
    (h : Peek m p) : Peek m (p.bind f) := by
  induction p with
  | ret r => exact hf r
  | lock m k ih => exact h.elim
  | acquire m k ih => exact h.elim
  | unlock m k ih => exact h.elim
  | rlock m k ih => exact ⟨h.1, ih h.2⟩
  | runlock m k ih => exact ⟨h.1, ih h.2⟩
  | read l k ih => exact fun s => ih s (h s)
  | write l f k ih => exact h.elim

theorem looker_shared {m : μ} {p : Prog μ κ σ Out} (h : Peek m p) : Looker m Eq (p.shared m) .pre := by
  refine .inl ⟨rfl, rfl, ?_⟩
  induction p with
  | ret r => exact .inl ⟨rfl, rfl, rfl⟩
  | lock m k ih => exact h.elim
  | acquire m k ih => exact h.elim
  | unlock m k ih => exact h.elim
  | rlock m k ih => exact .inr ⟨h.1, ih h.2⟩
  | runlock m k ih => exact .inr ⟨h.1, ih h.2⟩
  | read l k ih => exact ⟨rfl, fun s s' e => by rw [e], fun s => ih s (h s)⟩
  | write l f k ih => exact h.elim

theorem Looker.tag {α β : Type} {m : μ} {E : σ → σ → Prop} (f : α → β) {p : Prog μ κ σ α} :
    ∀ {ph : Phase}, Looker m E p ph → Looker m E (p.bind fun r => .ret (f r)) ph := by
  induction p with
  | ret r => exact fun h => h
  | lock m k ih => exact fun h => h.elim
  | acquire m k ih => exact fun h => h.elim
  | unlock m k ih => exact fun h => h.elim
  | rlock m k ih =>
    rintro ph (⟨h1, h2, h⟩ | ⟨h1, h⟩)
    · exact .inl ⟨h1, h2, ih h⟩
    · exact .inr ⟨h1, ih h⟩
  | runlock m k ih =>
    rintro ph (⟨h1, h2, h⟩ | ⟨h1, h⟩)
    · exact .inl ⟨h1, h2, ih h⟩
    · exact .inr ⟨h1, ih h⟩
  | read l k ih =>
    rintro ph ⟨h1, h2, h⟩
    exact ⟨h1, fun s s' e => congrArg (fun q => Prog.bind q fun r => .ret (f r)) (h2 s s' e), fun s => ih s (h s)⟩
  | write l f k ih => exact fun h => h.elim

theorem Writer.tag {ν α β : Type} {a b : μ} {π : σ → ν} (f : α → β) {p : Prog μ κ σ α} :
    ∀ {ph : WPhase} {h : Hold}, Writer a b π p ph h → Writer a b π (p.bind fun r => .ret (f r)) ph h := by
  induction p with
  | ret r => exact fun h => h
  | lock m k ih =>
    rintro ph h (⟨h1, h2, h3, h4⟩ | ⟨h1, h2, h3, h4⟩)
    · exact .inl ⟨h1, h2, h3, ih h4⟩
    · exact .inr ⟨h1, h2, h3, ih h4⟩
  | acquire m k ih =>
    rintro ph h (⟨h1, h2, h3, h4⟩ | ⟨h1, h2, h3, h4⟩)
    · exact .inl ⟨h1, h2, h3, ih h4⟩
    · exact .inr ⟨h1, h2, h3, ih h4⟩
  | unlock m k ih =>
    rintro ph h (⟨h1, h2, h3, r, rfl⟩ | ⟨h1, h2, ⟨h3, h4⟩ | ⟨h3, h4⟩⟩)
    · exact .inl ⟨h1, h2, h3, f r, rfl⟩
    · exact .inr ⟨h1, h2, .inl ⟨h3, ih h4⟩⟩
    · exact .inr ⟨h1, h2, .inr ⟨h3, ih h4⟩⟩
  | rlock m k ih => rintro ph h ⟨h1, h2, n, h3, h4⟩; exact ⟨h1, h2, n, h3, ih h4⟩
  | runlock m k ih => rintro ph h ⟨h1, h2, n, h3, h4⟩; exact ⟨h1, h2, n, h3, ih h4⟩
  | read l k ih => rintro ph h ⟨h1, h2⟩; exact ⟨h1, fun s => ih s (h2 s)⟩
  | write l g k ih =>
    rintro ph h (⟨h1, h2, h3⟩ | ⟨h1, h2, h3⟩)
    · exact .inl ⟨h1, h2, fun s => ih s (h3 s)⟩
    · exact .inr ⟨h1, h2, fun s => ih s (h3 s)⟩

end Netscrape.Conc

namespace Netscrape.Store
open Netscrape.Conc Netscrape.Spec.Handle
open Netscrape.Graph (Ent Node Edge WG St Opt GProg newNodeP addNodeP nodeP removeNodeP linkP unlinkP
  edgeP linkApplyP nodesP edgesP fromP)

/-- What is protected by the graph's mutex. -/
def view (s : St) : WG := s.g

/-- Solves `Writer` goals for loop-free bodies. -/
macro "writer" : tactic => `(tactic| (
  repeat' first
    | (refine ⟨rfl, rfl⟩)
    | (refine ⟨.inl rfl, fun _ => ?_⟩)
    | (refine ⟨.inr (.inl rfl), fun _ => ?_⟩)
    | (refine ⟨.inr (.inr rfl), fun _ => ?_⟩)
    | (refine .inl ⟨rfl, fun _ => rfl, fun _ => ?_⟩)
    | (refine .inr ⟨.inl rfl, rfl, fun _ => ?_⟩)
    | (refine .inr ⟨.inr rfl, rfl, fun _ => ?_⟩)
    | (refine .inl ⟨rfl, rfl, rfl, ?_⟩)
    | (refine .inl ⟨rfl, .inl rfl, rfl, _, rfl⟩)
    | (refine .inl ⟨rfl, .inr rfl, rfl, _, rfl⟩)
    | (refine .inr ⟨rfl, .inl rfl, rfl, ?_⟩)
    | (refine .inr ⟨rfl, .inr rfl, rfl, ?_⟩)
    | (refine .inr ⟨rfl, rfl, .inl ⟨rfl, ?_⟩⟩)
    | (refine .inr ⟨rfl, rfl, .inr ⟨.inl rfl, ?_⟩⟩)
    | (refine .inr ⟨rfl, rfl, .inr ⟨.inr rfl, ?_⟩⟩)
    | (refine ⟨rfl, .inl rfl, _, rfl, ?_⟩)
    | (refine ⟨rfl, .inr rfl, _, rfl, ?_⟩)
    | (dsimp only [Prog.excl, Prog.shared, Prog.bind, out])
    | split))

theorem writer_add (o : Order (Int × Unit)) (e : Ent) (opts : List SOpt) :
    Writer Mtx.store Mtx.graph view (prog (.add o e opts)) .pre (.rd 0) := by
  unfold prog addP newNodeP addNodeP; writer

theorem writer_delete (u : Uid) : Writer Mtx.store Mtx.graph view (prog (.delete u)) .pre (.rd 0) := by
  unfold prog deleteP removeNodeP; writer

theorem writer_link (fresh : Uid) (a : Nat) (f t : Uid) (opts : List SOpt) :
    Writer Mtx.store Mtx.graph view (prog (.link fresh a f t opts)) .pre (.rd 0) := by
  unfold prog storeLinkP linkP edgeP linkApplyP; writer

theorem writer_unlink (f t : Uid) : Writer Mtx.store Mtx.graph view (prog (.unlink f t)) .pre (.rd 0) := by
  unfold prog storeUnlinkP unlinkP; writer

theorem peek_get (u : Uid) : Peek Mtx.store (getP u) := by
  refine Peek.bind (fun r => by split <;> trivial) ?_
  refine ⟨by decide, fun s => ?_⟩
  dsimp only
  split <;> exact ⟨by decide, trivial⟩

theorem peek_bulkGet (us : List Uid) : ∀ ents, Peek Mtx.store (bulkGetP us ents) := by
  induction us with
  | nil => exact fun _ => trivial
  | cons u us ih =>
    intro ents
    refine Peek.bind (fun r => ?_) (peek_get u)
    split
    · exact ih _
    · trivial
    · trivial

theorem looker_graph (op : Graph.COp) (h : Looks op) :
    Looker Mtx.graph (fun d d' => view d = view d') (Graph.prog Mtx.graph op) .pre := by
  cases op with
  | node u =>
    refine .inl ⟨rfl, rfl, rfl, fun s s' e => ?_, fun s => ?_⟩
    · have e : s.g = s'.g := e
      simp only [e]
    · dsimp only
      split <;> exact .inl ⟨rfl, rfl, rfl⟩
  | nodes o =>
    refine .inl ⟨rfl, rfl, rfl, fun s s' e => ?_, fun s => .inl ⟨rfl, rfl, rfl⟩⟩
    have e : s.g = s'.g := e
    simp only [e]
  | edges o =>
    refine .inl ⟨rfl, rfl, rfl, fun s s' e => ?_, fun s => .inl ⟨rfl, rfl, rfl⟩⟩
    have e : s.g = s'.g := e
    simp only [e]
  | edge u v =>
    refine .inl ⟨rfl, rfl, rfl, fun s s' e => ?_, fun s => ?_⟩
    · have e : s.g = s'.g := e
      simp only [e]
    · dsimp only
      split
      · exact .inl ⟨rfl, rfl, rfl⟩
      · refine ⟨rfl, fun s s' e => ?_, fun s => ?_⟩
        · have e : s.g = s'.g := e
          simp only [e]
        · dsimp only
          split
          · exact .inl ⟨rfl, rfl, rfl⟩
          · refine ⟨rfl, fun s s' e => ?_, fun s => ?_⟩
            · have e : s.g = s'.g := e
              simp only [e]
            · dsimp only
              split <;> exact .inl ⟨rfl, rfl, rfl⟩
  | from' o u =>
    refine .inl ⟨rfl, rfl, rfl, fun s s' e => ?_, fun s => ?_⟩
    · have e : s.g = s'.g := e
      simp only [e]
    · dsimp only
      split
      · exact .inl ⟨rfl, rfl, rfl⟩
      · refine ⟨rfl, fun s s' e => ?_, fun s => .inl ⟨rfl, rfl, rfl⟩⟩
        have e : s.g = s'.g := e
        simp only [e]
  | _ => exact h.elim

theorem single_quiet {op : Handle.Op} (h : Single op) : Quiet op := by
  cases op with
  | inl o => trivial
  | inr o => exact h

/-- The kinds of methods. -/
theorem single_kind (op : Handle.Op) (h : Single op) :
    Writer Mtx.store Mtx.graph view (Handle.prog op) .pre (.rd 0) ∨ Looker Mtx.store Eq (Handle.prog op) .pre ∨
      Looker Mtx.graph (fun d d' => view d = view d') (Handle.prog op) .pre := by
  cases op with
  | inr o => exact .inr (.inr ((looker_graph o h).tag _))
  | inl o =>
    cases o with
    | add o e opts => exact .inl ((writer_add o e opts).tag _)
    | delete u => exact .inl ((writer_delete u).tag _)
    | link fresh a f t opts => exact .inl ((writer_link fresh a f t opts).tag _)
    | unlink f t => exact .inl ((writer_unlink f t).tag _)
    | get u => exact .inr (.inl (Looker.tag _ (looker_shared (Peek.bind (f := fun r => .ret (COut.ent r)) (fun _ => trivial) (peek_get u)))))
    | bulkGet us =>
      exact .inr (.inl (Looker.tag _ (looker_shared (Peek.bind (f := fun r => .ret (COut.ents r))
        (fun _ => trivial) (peek_bulkGet us _)))))
    | _ => exact h.elim

theorem eval_handle (op : Handle.Op) (d : St) : (Handle.prog op).eval d = Handle.seq d op := by
  cases op with
  | inl o => simp only [Handle.prog, both, Handle.seq, eval_bind, eval_prog, Prog.eval]
  | inr o => simp only [Handle.prog, both, Handle.seq, eval_bind, Graph.eval_prog, Prog.eval]

/-- Without bulk writes everything is linearizable together. -/
theorem single_linearizable {s : St} {c : Cfg Mtx Graph.Loc St Handle.Op Handle.Out}
    (hr : Reach Handle.prog Single s c) : Spec.Linearizable Handle.seq s c.hist :=
  commit_linearizable (by decide) (fun m op h => handle_disc m op (single_quiet h)) single_kind
    (fun op _ => eval_handle op) hr

end Netscrape.Store
