import Verif.Lemmas.GraphConc
import Verif.Lemmas.TwoLocks
import Verif.Model.StoreConc

/-!
# The store's method bodies, run alone, compute what the sequential model says
-/

namespace Netscrape.Store
open Netscrape.Conc
open Netscrape.Graph (Ent Node Edge WG St Opt GProg newNodeP addNodeP nodeP removeNodeP linkP unlinkP
  edgeP linkApplyP)

theorem eval_add (o : Order (Int × Unit)) (e : Ent) (opts : List SOpt) (s : St) :
    (addP o e opts).eval s = ((add s o e opts).2, (add s o e opts).1) := by
  simp only [addP, add, eval_bind, Graph.eval_newNode]
  generalize Graph.newNode s.heap s.g o e [.withAttrs (applyAll opts).attrs] = r
  obtain ⟨r, h⟩ := r
  cases r with
  | panic => rfl
  | err x => rfl
  | ok n =>
    simp only
    split
    · simp only [eval_bind, Graph.eval_addNode]
      generalize Graph.addNode s.g n [] = q
      obtain ⟨q, g⟩ := q
      cases q with
      | ok u => rfl
      | err x => cases x <;> rfl
      | panic => rfl
    · simp only [eval_bind, Graph.eval_addNode]
      generalize Graph.addNode s.g n [.withUpsert] = q
      obtain ⟨q, g⟩ := q
      cases q <;> rfl

theorem eval_get (u : Uid) (s : St) : (getP u).eval s = (s, get s u) := by
  simp only [getP, get, eval_bind, Graph.eval_node]
  cases Graph.node s.g u with
  | ok n => rfl
  | err x => cases x <;> rfl
  | panic => rfl

theorem eval_delete (u : Uid) (s : St) : (deleteP u).eval s = ((delete s u).2, (delete s u).1) := by
  simp only [deleteP, delete, eval_bind, Graph.eval_removeNode]
  rfl

theorem eval_link (fresh : Uid) (a : Nat) (f t : Uid) (opts : List SOpt) (s : St) :
    (storeLinkP fresh a f t opts).eval s = ((link s fresh a f t opts).2, (link s fresh a f t opts).1) := by
  simp only [storeLinkP, link, eval_bind, Graph.eval_link]
  generalize Graph.link s.heap s.g fresh a f t [.withAttrs (applyAll opts).attrs] = r
  obtain ⟨r, g, h⟩ := r
  cases r with
  | ok n => rfl
  | err x => cases x <;> rfl
  | panic => rfl

theorem eval_unlink (f t : Uid) (s : St) :
    (storeUnlinkP f t).eval s = ((unlink s f t).2, (unlink s f t).1) := by
  simp only [storeUnlinkP, unlink, eval_bind, Graph.eval_unlink]
  rfl

theorem eval_loop {α : Type} (f : α → SProg (Res Err Unit)) (g : St → α → Res Err Unit × St)
    (hf : ∀ x s, (f x).eval s = ((g s x).2, (g s x).1)) (xs : List α) :
    ∀ s, (loopP f xs).eval s = ((loop g s xs).2, (loop g s xs).1) := by
  induction xs with
  | nil => intro s; rfl
  | cons x xs ih =>
    intro s
    simp only [loopP, loop, eval_bind, hf]
    generalize g s x = r
    obtain ⟨r, s'⟩ := r
    cases r with
    | ok u => exact ih s'
    | err e => rfl
    | panic => rfl

theorem eval_bulkGet (us : List Uid) : ∀ ents s,
    (bulkGetP us ents).eval s = (s, bulkGetLoop s us ents) := by
  induction us with
  | nil => intro ents s; rfl
  | cons u us ih =>
    intro ents s
    simp only [bulkGetP, bulkGetLoop, eval_bind, eval_get]
    cases get s u with
    | ok n => exact ih _ s
    | err x => rfl
    | panic => rfl

theorem eval_prog (op : COp) (s : St) : (prog op).eval s = seq s op := by
  cases op with
  | add o e opts => simp only [prog, seq, out, eval_excl, eval_bind, eval_add, Prog.eval]
  | get u => simp only [prog, seq, out, eval_shared, eval_bind, eval_get, Prog.eval]
  | delete u => simp only [prog, seq, out, eval_excl, eval_bind, eval_delete, Prog.eval]
  | link fresh a f t opts => simp only [prog, seq, out, eval_excl, eval_bind, eval_link, Prog.eval]
  | unlink f t => simp only [prog, seq, out, eval_excl, eval_bind, eval_unlink, Prog.eval]
  | bulkAdd es opts =>
    simp only [prog, seq, out, eval_excl, eval_bind, Prog.eval, bulkAdd]
    rw [eval_loop _ (fun s x => add s x.1 x.2 opts) (fun x s => eval_add _ _ _ s)]
  | bulkGet us => simp only [prog, seq, out, eval_shared, eval_bind, eval_bulkGet, Prog.eval, bulkGet]
  | bulkDelete us =>
    simp only [prog, seq, out, eval_excl, eval_bind, Prog.eval, bulkDelete]
    rw [eval_loop _ delete (fun x s => eval_delete _ s)]
  | bulkLink f us opts =>
    simp only [prog, seq, out, eval_excl, eval_bind, Prog.eval, bulkLink]
    rw [eval_loop _ (fun s x => link s x.1 x.2.1 f x.2.2 opts) (fun x s => eval_link _ _ _ _ _ s)]
  | bulkUnlink f us =>
    simp only [prog, seq, out, eval_excl, eval_bind, Prog.eval, bulkUnlink]
    rw [eval_loop _ (fun s u => unlink s f u) (fun x s => eval_unlink _ _ s)]

/-! ## The bodies stay inside the store's critical section -/

/-- Solves `Inside` goals for loop-free bodies. -/
macro "inside" : tactic => `(tactic| (
  repeat' first
    | trivial
    | (intro _)
    | (refine ⟨by decide, ?_⟩)
    | (refine ⟨trivial, ?_⟩)
    | (dsimp only [Prog.excl, Prog.shared, Prog.bind, Inside])
    | split))

theorem inside_edge (u v : Uid) : Inside Mtx.store False (edgeP Mtx.graph u v) := by
  unfold edgeP; inside

theorem inside_node (u : Uid) : Inside Mtx.store False (nodeP Mtx.graph u) := by
  unfold nodeP; inside

theorem inside_newNode (o : Order (Int × Unit)) (e : Ent) (opts : List Opt) :
    Inside Mtx.store True (newNodeP Mtx.graph o e opts) := by
  unfold newNodeP; inside

theorem inside_addNode (n : Node) (opts : List Opt) :
    Inside Mtx.store True (addNodeP Mtx.graph n opts) := by
  unfold addNodeP; inside

theorem inside_removeNode (u : Uid) : Inside Mtx.store True (removeNodeP Mtx.graph u) := by
  unfold removeNodeP; inside

theorem inside_mono {ρ : Type} {p : SProg ρ} (h : Inside Mtx.store False p) : Inside Mtx.store True p := by
  induction p with
  | ret r => trivial
  | lock m k ih => exact ⟨h.1, ih h.2⟩
  | acquire m k ih => exact ⟨h.1, ih h.2⟩
  | unlock m k ih => exact ⟨h.1, ih h.2⟩
  | rlock m k ih => exact ⟨h.1, ih h.2⟩
  | runlock m k ih => exact ⟨h.1, ih h.2⟩
  | read l k ih => exact fun s => ih s (h s)
  | write l f k ih => exact h.1.elim

theorem inside_linkApply (fresh : Uid) (a : Nat) (f t : Node) (opts : List Opt) :
    Inside Mtx.store True (linkApplyP Mtx.graph fresh a f t opts) := by
  unfold linkApplyP; inside

theorem inside_link (fresh : Uid) (a : Nat) (f t : Uid) (opts : List Opt) :
    Inside Mtx.store True (linkP Mtx.graph fresh a f t opts) := by
  refine ⟨by decide, Inside.bind ?_ (inside_mono (inside_edge f t))⟩
  intro r
  split
  · inside
  · intro s
    dsimp only
    split
    · inside
    · intro s
      dsimp only
      split
      · inside
      · exact ⟨by decide, inside_linkApply _ _ _ _ _⟩
  · inside
  · inside

theorem inside_unlink (f t : Uid) : Inside Mtx.store True (unlinkP Mtx.graph f t) := by
  unfold unlinkP; inside

theorem inside_get (u : Uid) : Inside Mtx.store False (getP u) :=
  Inside.bind (fun r => by split <;> trivial) (inside_node u)

theorem inside_add (o : Order (Int × Unit)) (e : Ent) (opts : List SOpt) :
    Inside Mtx.store True (addP o e opts) := by
  refine Inside.bind (fun r => ?_) (inside_newNode _ _ _)
  split
  · trivial
  · trivial
  · split <;> exact Inside.bind (fun r => by split <;> trivial) (inside_addNode _ _)

theorem inside_delete (u : Uid) : Inside Mtx.store True (deleteP u) :=
  Inside.bind (fun r => by split <;> trivial) (inside_removeNode u)

theorem inside_storeLink (fresh : Uid) (a : Nat) (f t : Uid) (opts : List SOpt) :
    Inside Mtx.store True (storeLinkP fresh a f t opts) :=
  Inside.bind (fun r => by split <;> trivial) (inside_link _ _ _ _ _)

theorem inside_storeUnlink (f t : Uid) : Inside Mtx.store True (storeUnlinkP f t) :=
  Inside.bind (fun r => by split <;> trivial) (inside_unlink f t)

theorem inside_loop {α : Type} (f : α → SProg (Res Err Unit)) (hf : ∀ x, Inside Mtx.store True (f x))
    (xs : List α) : Inside Mtx.store True (loopP f xs) := by
  induction xs with
  | nil => trivial
  | cons x xs ih =>
    refine Inside.bind (fun r => ?_) (hf x)
    split
    · exact ih
    · trivial
    · trivial

theorem inside_bulkGet (us : List Uid) : ∀ ents, Inside Mtx.store False (bulkGetP us ents) := by
  induction us with
  | nil => exact fun _ => trivial
  | cons u us ih =>
    intro ents
    refine Inside.bind (fun r => ?_) (inside_get u)
    split
    · exact ih _
    · trivial
    · trivial

theorem inside_out {ρ : Type} {w : Prop} (f : ρ → COut) {p : SProg ρ} (h : Inside Mtx.store w p) :
    Inside Mtx.store w (out f p) := by
  refine Inside.bind ?_ h
  exact fun _ => trivial

theorem one_prog (op : COp) : One Mtx.store (prog op) .pre := by
  cases op with
  | add o e opts => exact one_excl (inside_out _ (inside_add _ _ _))
  | get u => exact one_shared (inside_out _ (inside_get _))
  | delete u => exact one_excl (inside_out _ (inside_delete _))
  | link fresh a f t opts => exact one_excl (inside_out _ (inside_storeLink _ _ _ _ _))
  | unlink f t => exact one_excl (inside_out _ (inside_storeUnlink _ _))
  | bulkAdd es opts => exact one_excl (inside_out _ (inside_loop _ (fun _ => inside_add _ _ _) _))
  | bulkGet us => exact one_shared (inside_out _ (inside_bulkGet _ _))
  | bulkDelete us => exact one_excl (inside_out _ (inside_loop _ inside_delete _))
  | bulkLink f us opts =>
    exact one_excl (inside_out _ (inside_loop _ (fun _ => inside_storeLink _ _ _ _ _) _))
  | bulkUnlink f us => exact one_excl (inside_out _ (inside_loop _ (inside_storeUnlink f) _))

/-! ## The bodies use the graph's mutex properly -/

/-- Solves `Nests` goals for loop-free bodies. -/
macro "subl" : tactic => `(tactic| (
  repeat' first
    | rfl
    | (intro _)
    | (refine ⟨rfl, rfl, rfl, ?_⟩)
    | (refine ⟨rfl, _, rfl, ?_⟩)
    | (refine ⟨rfl, by decide, ?_⟩)
    | (refine ⟨Hold.noConfusion, ?_⟩)
    | (dsimp only [Prog.excl, Prog.shared, Prog.bind, Nests])
    | split))

theorem sub_edge (ph : Phase) (n : Nat) (u v : Uid) :
    Nests Mtx.graph ph n (edgeP Mtx.graph u v) (.rd n) := by
  unfold edgeP; subl

theorem sub_node (ph : Phase) (u : Uid) : Nests Mtx.graph ph 0 (nodeP Mtx.graph u) (.rd 0) := by
  unfold nodeP; subl

theorem sub_newNode (o : Order (Int × Unit)) (e : Ent) (opts : List Opt) :
    Nests Mtx.graph .inW 0 (newNodeP Mtx.graph o e opts) (.rd 0) := by
  unfold newNodeP; subl

theorem sub_addNode (n : Node) (opts : List Opt) :
    Nests Mtx.graph .inW 0 (addNodeP Mtx.graph n opts) (.rd 0) := by
  unfold addNodeP; subl

theorem sub_removeNode (u : Uid) : Nests Mtx.graph .inW 0 (removeNodeP Mtx.graph u) (.rd 0) := by
  unfold removeNodeP; subl

theorem sub_linkApply (fresh : Uid) (a : Nat) (f t : Node) (opts : List Opt) :
    Nests Mtx.graph .inW 0 (linkApplyP Mtx.graph fresh a f t opts) (.rd 0) := by
  unfold linkApplyP; subl

theorem sub_unlink (f t : Uid) : Nests Mtx.graph .inW 0 (unlinkP Mtx.graph f t) (.rd 0) := by
  unfold unlinkP; subl

theorem sub_link (fresh : Uid) (a : Nat) (f t : Uid) (opts : List Opt) :
    Nests Mtx.graph .inW 0 (linkP Mtx.graph fresh a f t opts) (.rd 0) := by
  refine ⟨rfl, 0, rfl, Nests.bind ?_ (sub_edge .inW 1 f t)⟩
  intro r
  split
  · subl
  · refine ⟨Hold.noConfusion, fun s => ?_⟩
    dsimp only
    split
    · subl
    · refine ⟨Hold.noConfusion, fun s => ?_⟩
      dsimp only
      split
      · subl
      · exact ⟨rfl, 0, rfl, sub_linkApply _ _ _ _ _⟩
  · subl
  · subl

theorem sub_get (ph : Phase) (u : Uid) : Nests Mtx.graph ph 0 (getP u) (.rd 0) :=
  Nests.bind (fun r => by split <;> rfl) (sub_node ph u)

theorem sub_add (o : Order (Int × Unit)) (e : Ent) (opts : List SOpt) :
    Nests Mtx.graph .inW 0 (addP o e opts) (.rd 0) := by
  refine Nests.bind (fun r => ?_) (sub_newNode _ _ _)
  split
  · rfl
  · rfl
  · split <;> exact Nests.bind (fun r => by split <;> rfl) (sub_addNode _ _)

theorem sub_delete (u : Uid) : Nests Mtx.graph .inW 0 (deleteP u) (.rd 0) :=
  Nests.bind (fun r => by split <;> rfl) (sub_removeNode u)

theorem sub_storeLink (fresh : Uid) (a : Nat) (f t : Uid) (opts : List SOpt) :
    Nests Mtx.graph .inW 0 (storeLinkP fresh a f t opts) (.rd 0) :=
  Nests.bind (fun r => by split <;> rfl) (sub_link _ _ _ _ _)

theorem sub_storeUnlink (f t : Uid) : Nests Mtx.graph .inW 0 (storeUnlinkP f t) (.rd 0) :=
  Nests.bind (fun r => by split <;> rfl) (sub_unlink f t)

theorem sub_loop {α : Type} (f : α → SProg (Res Err Unit)) (hf : ∀ x, Nests Mtx.graph .inW 0 (f x) (.rd 0))
    (xs : List α) : Nests Mtx.graph .inW 0 (loopP f xs) (.rd 0) := by
  induction xs with
  | nil => rfl
  | cons x xs ih =>
    refine Nests.bind (fun r => ?_) (hf x)
    split
    · exact ih
    · rfl
    · rfl

theorem sub_bulkGet (us : List Uid) : ∀ ents, Nests Mtx.graph .inR 0 (bulkGetP us ents) (.rd 0) := by
  induction us with
  | nil => exact fun _ => rfl
  | cons u us ih =>
    intro ents
    refine Nests.bind (fun r => ?_) (sub_get .inR u)
    split
    · exact ih _
    · rfl
    · rfl

theorem sub_out {ρ : Type} {ph : Phase} (f : ρ → COut) {p : SProg ρ} (h : Nests Mtx.graph ph 0 p (.rd 0)) :
    Nests Mtx.graph ph 0 (out f p) (.rd 0) := by
  refine Nests.bind ?_ h
  exact fun _ => rfl

theorem two_prog (op : COp) : Two Mtx.store Mtx.graph (prog op) .pre (.rd 0) := by
  cases op with
  | add o e opts => exact two_excl (sub_out _ (sub_add _ _ _))
  | get u => exact two_shared (sub_out _ (sub_get _ _))
  | delete u => exact two_excl (sub_out _ (sub_delete _))
  | link fresh a f t opts => exact two_excl (sub_out _ (sub_storeLink _ _ _ _ _))
  | unlink f t => exact two_excl (sub_out _ (sub_storeUnlink _ _))
  | bulkAdd es opts => exact two_excl (sub_out _ (sub_loop _ (fun _ => sub_add _ _ _) _))
  | bulkGet us => exact two_shared (sub_out _ (sub_bulkGet _ _))
  | bulkDelete us => exact two_excl (sub_out _ (sub_loop _ sub_delete _))
  | bulkLink f us opts => exact two_excl (sub_out _ (sub_loop _ (fun _ => sub_storeLink _ _ _ _ _) _))
  | bulkUnlink f us => exact two_excl (sub_out _ (sub_loop _ (sub_storeUnlink f) _))

end Netscrape.Store
