import Verif.Lemmas.PartsCommit
import Verif.Lemmas.StoreCommit

/-!
# The store's bulk calls change the graph in one critical section of its mutex for each part
-/

namespace Netscrape.Conc
variable {μ κ σ α β γ : Type}

theorem bind_assoc (f : α → Prog μ κ σ β) (g : β → Prog μ κ σ γ) (p : Prog μ κ σ α) :
    (p.bind f).bind g = p.bind fun x => (f x).bind g := by
  induction p with
  | ret r => rfl
  | lock m k ih => exact congrArg _ ih
  | acquire m k ih => exact congrArg _ ih
  | unlock m k ih => exact congrArg _ ih
  | rlock m k ih => exact congrArg _ ih
  | runlock m k ih => exact congrArg _ ih
  | read l k ih => exact congrArg _ (funext ih)
  | write l f k ih => exact congrArg _ (funext ih)

end Netscrape.Conc

namespace Netscrape.Store
open Netscrape.Conc Netscrape.Spec.Handle
open Netscrape.Graph (Ent Node Edge WG St Opt GProg newNodeP addNodeP nodeP removeNodeP linkP unlinkP
  edgeP linkApplyP)

/-- Solves `Body` goals for loop-free bodies. -/
macro "body" : tactic => `(tactic| (
  repeat' first
    | (refine ⟨.inl rfl, rfl⟩)
    | (refine ⟨.inr rfl, rfl⟩)
    | (refine ⟨.inl rfl, fun _ => ?_⟩)
    | (refine ⟨.inr (.inl rfl), fun _ => ?_⟩)
    | (refine ⟨.inr (.inr rfl), fun _ => ?_⟩)
    | (refine .inl ⟨rfl, fun _ => rfl, fun _ => ?_⟩)
    | (refine .inr ⟨.inl rfl, rfl, fun _ => ?_⟩)
    | (refine .inr ⟨.inr rfl, rfl, fun _ => ?_⟩)
    | (refine ⟨rfl, .inl rfl, rfl, ?_⟩)
    | (refine ⟨rfl, .inr rfl, rfl, ?_⟩)
    | (refine ⟨rfl, rfl, .inl ⟨rfl, ?_⟩⟩)
    | (refine ⟨rfl, rfl, .inr ⟨.inl rfl, ?_⟩⟩)
    | (refine ⟨rfl, rfl, .inr ⟨.inr rfl, ?_⟩⟩)
    | (refine ⟨rfl, .inl rfl, _, rfl, ?_⟩)
    | (refine ⟨rfl, .inr rfl, _, rfl, ?_⟩)
    | (dsimp only [Prog.excl, Prog.shared, Prog.bind])
    | split))

theorem body_add (o : Order (Int × Unit)) (e : Ent) (opts : List SOpt) :
    Body Mtx.graph view (addP o e opts) .pend (.rd 0) := by
  unfold addP newNodeP addNodeP; body

theorem body_delete (u : Uid) : Body Mtx.graph view (deleteP u) .pend (.rd 0) := by
  unfold deleteP removeNodeP; body

theorem body_link (fresh : Uid) (a : Nat) (f t : Uid) (opts : List SOpt) :
    Body Mtx.graph view (storeLinkP fresh a f t opts) .pend (.rd 0) := by
  unfold storeLinkP linkP edgeP linkApplyP; body

theorem body_unlink (f t : Uid) : Body Mtx.graph view (storeUnlinkP f t) .pend (.rd 0) := by
  unfold storeUnlinkP unlinkP; body

/-- The end of a method that writes. -/
def closeP (r : Res Err Unit) : SProg Handle.Out := .unlock .store (.ret (.inl (.unit r)))

theorem prog_excl (p : SProg (Res Err Unit)) :
    ((Prog.excl Mtx.store (out .unit p)).bind fun r => .ret (Sum.inl r) : SProg Handle.Out) = .lock .store (p.bind closeP) := by
  show Prog.lock _ _ = Prog.lock _ _
  unfold out
  rw [bind_assoc, bind_assoc]
  rfl

/-- A call with one part. -/
theorem todo_single {op : Handle.Op} {q : SProg (Res Err Unit)} (hq : Body Mtx.graph view q .pend (.rd 0))
    (hnr : ∀ r, q ≠ .ret r) (hev : ∀ d, Handle.seq d op = ((q.eval d).1, .inl (.unit (q.eval d).2)))
    (hres : ∀ r, inParts.result op [r] r) :
    Todo Mtx.store Mtx.graph view inParts Handle.seq op [op] [] (q.bind closeP) :=
  ⟨_, q, fun r => .inl (.unit r), closeP, rfl, hq, hnr, hev, fun _ => .inr ⟨_, rfl, hres _⟩⟩

/-- The loop of a bulk call. -/
theorem todo_loop {α : Type} {op : Handle.Op} {f : α → SProg (Res Err Unit)} {part : α → Handle.Op} {n : Nat}
    (hq : ∀ x, Body Mtx.graph view (f x) .pend (.rd 0)) (hnr : ∀ x r, f x ≠ .ret r)
    (hev : ∀ x d, Handle.seq d (part x) = (((f x).eval d).1, .inl (.unit ((f x).eval d).2)))
    (hres : ∀ outs r, BulkResult n outs r → inParts.result op outs r) (xs : List α) :
    ∀ outs, (∀ o ∈ outs, o = success) → outs.length + xs.length = n →
    Todo Mtx.store Mtx.graph view inParts Handle.seq op (xs.map part) outs ((loopP f xs).bind closeP) := by
  induction xs with
  | nil =>
    intro outs hok hn
    exact ⟨success, rfl, hres _ _ (.inl ⟨hn, hok, rfl⟩)⟩
  | cons x xs ih =>
    intro outs hok hn
    refine ⟨_, f x, fun r => .inl (.unit r), _, bind_assoc _ _ _, hq x, hnr x, hev x, fun r => ?_⟩
    cases r with
    | ok u =>
      refine .inl ⟨rfl, ih _ ?_ ?_⟩
      · intro o ho
        rcases List.mem_append.mp ho with ho | ho
        · exact hok o ho
        · rw [List.mem_singleton.mp ho]; rfl
      · simp only [List.length_append, List.length_cons, List.length_nil] at hn ⊢
        omega
    | err e => exact .inr ⟨_, rfl, hres _ _ (.inr ⟨by simp [success], by simp⟩)⟩
    | panic => exact .inr ⟨_, rfl, hres _ _ (.inr ⟨by simp [success], by simp⟩)⟩

theorem add_ne (o : Order (Int × Unit)) (e : Ent) (opts : List SOpt) (r : Res Err Unit) : addP o e opts ≠ .ret r := by
  unfold addP newNodeP
  intro h; cases h

theorem delete_ne (u : Uid) (r : Res Err Unit) : deleteP u ≠ .ret r := by
  unfold deleteP removeNodeP
  intro h; cases h

theorem link_ne (fresh : Uid) (a : Nat) (f t : Uid) (opts : List SOpt) (r : Res Err Unit) :
    storeLinkP fresh a f t opts ≠ .ret r := by
  unfold storeLinkP linkP
  intro h; cases h

theorem unlink_ne (f t : Uid) (r : Res Err Unit) : storeUnlinkP f t ≠ .ret r := by
  unfold storeUnlinkP unlinkP
  intro h; cases h

/-- The kinds of methods. -/
theorem quiet_kind (op : Handle.Op) (h : Quiet op) :
    (∃ p, Handle.prog op = .lock .store p ∧
      Todo Mtx.store Mtx.graph view inParts Handle.seq op (inParts.parts op) [] p) ∨
    (inParts.parts op = [op] ∧ (∀ r, inParts.result op [r] r) ∧ (∀ d, (Handle.prog op).eval d = Handle.seq d op) ∧
      (Looker Mtx.store Eq (Handle.prog op) .pre ∨
        (¬ inParts.main op ∧ Looker Mtx.graph (fun d d' => view d = view d') (Handle.prog op) .pre))) := by
  cases op with
  | inr o =>
    refine .inr ⟨rfl, fun _ => rfl, eval_handle _, .inr ⟨?_, (looker_graph o h).tag _⟩⟩
    rintro ⟨o, e⟩; cases e
  | inl o =>
    cases o with
    | add o e opts =>
      exact .inl ⟨_, prog_excl _, todo_single (body_add o e opts) (add_ne o e opts) (fun d => by
        rw [eval_add]; rfl) (fun _ => rfl)⟩
    | delete u =>
      exact .inl ⟨_, prog_excl _, todo_single (body_delete u) (delete_ne u) (fun d => by
        rw [eval_delete]; rfl) (fun _ => rfl)⟩
    | link fresh a f t opts =>
      exact .inl ⟨_, prog_excl _, todo_single (body_link fresh a f t opts) (link_ne fresh a f t opts) (fun d => by
        rw [eval_link]; rfl) (fun _ => rfl)⟩
    | unlink f t =>
      exact .inl ⟨_, prog_excl _, todo_single (body_unlink f t) (unlink_ne f t) (fun d => by
        rw [eval_unlink]; rfl) (fun _ => rfl)⟩
    | get u =>
      exact .inr ⟨rfl, fun _ => rfl, eval_handle _, .inl (Looker.tag _ (looker_shared (Peek.bind
        (f := fun r => .ret (COut.ent r)) (fun _ => trivial) (peek_get u))))⟩
    | bulkGet us =>
      exact .inr ⟨rfl, fun _ => rfl, eval_handle _, .inl (Looker.tag _ (looker_shared (Peek.bind
        (f := fun r => .ret (COut.ents r)) (fun _ => trivial) (peek_bulkGet us _))))⟩
    | bulkAdd es opts =>
      refine .inl ⟨_, prog_excl _, todo_loop (op := .inl (.bulkAdd es opts)) (n := es.length)
        (part := fun x : Order (Int × Unit) × Ent => .inl (.add x.1 x.2 opts)) (fun x => body_add x.1 x.2 opts)
        (fun x => add_ne x.1 x.2 opts) (fun x d => ?_) (fun _ _ h => h) es [] (fun o ho => by cases ho) (by simp)⟩
      rw [eval_add]; rfl
    | bulkDelete us =>
      refine .inl ⟨_, prog_excl _, todo_loop (op := .inl (.bulkDelete us)) (n := us.length)
        (part := fun u => .inl (.delete u)) body_delete
        delete_ne (fun x d => ?_) (fun _ _ h => h) us [] (fun o ho => by cases ho) (by simp)⟩
      rw [eval_delete]; rfl
    | bulkLink f us opts =>
      refine .inl ⟨_, prog_excl _, todo_loop (op := .inl (.bulkLink f us opts)) (n := us.length)
        (part := fun x : Uid × Nat × Uid => .inl (.link x.1 x.2.1 f x.2.2 opts))
        (fun x => body_link x.1 x.2.1 f x.2.2 opts) (fun x => link_ne x.1 x.2.1 f x.2.2 opts) (fun x d => ?_)
        (fun _ _ h => h) us [] (fun o ho => by cases ho) (by simp)⟩
      rw [eval_link]; rfl
    | bulkUnlink f us =>
      refine .inl ⟨_, prog_excl _, todo_loop (op := .inl (.bulkUnlink f us)) (n := us.length)
        (part := fun u => .inl (.unlink f u)) (body_unlink f)
        (unlink_ne f) (fun x d => ?_) (fun _ _ h => h) us [] (fun o ho => by cases ho) (by simp)⟩
      rw [eval_unlink]; rfl

/-- All calls on the store and calls that look at the graph are linearizable together, in parts. -/
theorem quiet_parts {s : St} {c : Cfg Mtx Graph.Loc St Handle.Op Handle.Out} (hr : Reach Handle.prog Quiet s c) :
    Spec.LinearizableInParts inParts Handle.seq s c.hist :=
  parts_commit_linearizable (by decide) (fun m op h => handle_disc m op h) quiet_kind hr

end Netscrape.Store
