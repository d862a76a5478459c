import Verif.Lemmas.Linearizable
import Verif.Spec.NilUid

/-!
# Without nil the calls are those of `GraphConc` and `StoreConc`
-/

namespace Netscrape.Graph
open Netscrape.Conc

variable {μ : Type}

theorem eval_newNodeN (m : μ) (o : Order (Int × Unit)) (e : Ent) (opts : List Opt) (s : St) :
    (newNodeN m o (.ent e) opts).eval s = (newNodeP m o e opts).eval s := by
  simp only [newNodeN, newNodeP, Prog.eval]
  cases s.g.b.newNodeID o <;> rfl

theorem eval_wrap {α : Type} (p p' : GProg μ (Res Err α)) (f : Res Err α → COut) (s : St) (h : p'.eval s = p.eval s)
    (hf : ∀ r, NOut.of f r = (f r).toN) :
    (p'.bind fun r => .ret (NOut.of f r)).eval s =
      (((p.bind fun r => .ret (f r)).eval s).1, ((p.bind fun r => .ret (f r)).eval s).2.toN) := by
  simp only [eval_bind, Prog.eval, h, hf]

theorem eval_progN (m : μ) (op : COp) (s : St) :
    (progN m op.toN).eval s = (((prog m op).eval s).1, ((prog m op).eval s).2.toN) := by
  cases op with
  | newNode o e opts => exact eval_wrap _ _ .node s (eval_newNodeN m o e opts s) (fun r => by cases r <;> rfl)
  | addNode n opts => exact eval_wrap _ _ .unit s rfl (fun r => by cases r <;> rfl)
  | addForeign => rfl
  | node u => exact eval_wrap _ _ .node s rfl (fun r => by cases r <;> rfl)
  | nodes o => rfl
  | removeNode u => exact eval_wrap _ _ .unit s rfl (fun r => by cases r <;> rfl)
  | link fresh a f t opts => exact eval_wrap _ _ .edge s rfl (fun r => by cases r <;> rfl)
  | edge u v => exact eval_wrap _ _ .edge s rfl (fun r => by cases r <;> rfl)
  | edges o => rfl
  | from' o u =>
    show (((fromP m o u).bind fun l => .ret (some l)).bind fun
      | some l => .ret (NOut.ret (COut.nodes l))
      | none => .ret .panic).eval s = ((((fromP m o u).bind fun l => .ret (COut.nodes l)).eval s).1,
        (((fromP m o u).bind fun l => .ret (COut.nodes l)).eval s).2.toN)
    simp only [eval_bind, Prog.eval]
    rfl
  | unlink f t => exact eval_wrap _ _ .unit s rfl (fun r => by cases r <;> rfl)
  | subGraph ora u d opts => exact eval_wrap _ _ .graph s rfl (fun r => by cases r <;> rfl)
  | dot => rfl

end Netscrape.Graph

namespace Netscrape.Store
open Netscrape.Conc
open Netscrape.Graph (St)

theorem eval_addN (o : Order (Int × Unit)) (e : Graph.Ent) (opts : List SOpt) (s : St) :
    (addN o (.ent e) opts).eval s = (addP o e opts).eval s := by
  unfold addN addP
  rw [eval_bind, eval_bind, Graph.eval_newNodeN]
  generalize Prog.eval (Graph.newNodeP Mtx.graph o e _) s = r
  obtain ⟨s1, r⟩ := r
  cases r <;> rfl

theorem evalN_loop {α β : Type} (f : α → SProg (Res Err Unit)) (g : β → SProg (Res Err Unit)) (c : α → β)
    (h : ∀ x s, (g (c x)).eval s = (f x).eval s) (l : List α) :
    ∀ s, (loopP g (l.map c)).eval s = (loopP f l).eval s := by
  induction l with
  | nil => intro s; rfl
  | cons x l ih =>
    intro s
    simp only [List.map_cons, loopP, eval_bind, h]
    generalize Prog.eval (f x) s = r
    obtain ⟨s1, r⟩ := r
    cases r
    · exact ih _
    · rfl
    · rfl

theorem evalN_bulkGet (us : List Uid) : ∀ l s, (bulkGetN (us.map some) l).eval s = (bulkGetP us l).eval s := by
  induction us with
  | nil => intro l s; rfl
  | cons u us ih =>
    intro l s
    simp only [List.map_cons, bulkGetN, bulkGetP, eval_bind]
    rw [show (getN (some u)).eval s = (getP u).eval s from rfl]
    generalize Prog.eval (getP u) s = r
    obtain ⟨s1, r⟩ := r
    cases r
    · exact ih _ _
    · rfl
    · rfl

theorem evalN_excl {ρ : Type} {p p' : SProg ρ} (f : ρ → COut) (s : St) (h : p'.eval s = p.eval s) :
    (Prog.excl Mtx.store (out f p')).eval s = (Prog.excl Mtx.store (out f p)).eval s := by
  simp only [Prog.excl, out, Prog.eval, eval_bind, h]

theorem evalN_shared {ρ : Type} {p p' : SProg ρ} (f : ρ → COut) (s : St) (h : p'.eval s = p.eval s) :
    (Prog.shared Mtx.store (out f p')).eval s = (Prog.shared Mtx.store (out f p)).eval s := by
  simp only [Prog.shared, out, Prog.eval, eval_bind, h]

theorem eval_progN (op : COp) (s : St) : (progN op.toN).eval s = (prog op).eval s := by
  cases op with
  | add o e opts => exact evalN_excl _ s (eval_addN o e opts s)
  | get u => rfl
  | delete u => rfl
  | link fresh a f t opts => rfl
  | unlink f t => rfl
  | bulkAdd es opts => exact evalN_excl _ s (evalN_loop _ _ _ (fun x s => eval_addN x.1 x.2 opts s) es s)
  | bulkGet us =>
    refine evalN_shared _ s ?_
    rw [List.length_map]
    exact evalN_bulkGet us _ s
  | bulkDelete us => exact evalN_excl _ s (evalN_loop _ _ _ (fun _ _ => rfl) us s)
  | bulkLink f us opts => exact evalN_excl _ s (evalN_loop _ _ _ (fun _ _ => rfl) us s)
  | bulkUnlink f us => exact evalN_excl _ s (evalN_loop _ _ _ (fun _ _ => rfl) us s)

end Netscrape.Store
