import Verif.Lemmas.Graph

/-!
# Concrete graphs for the non-vacuity examples
-/

namespace Netscrape.Graph
open Netscrape.Spec.Graph

theorem fits_of_entries {g : WG} {n : Node}
    (h : ∀ e ∈ g.nodes.entries, (e.2.uid.str = n.uid.str ↔ e.2.id = n.id)) : Fits g n := by
  intro u m hm
  unfold node at hm
  split at hm
  · rename_i n' hn'
    cases hm
    exact h (u.str, m) ((GoMap.get?_eq_some _ _ _).mp hn')
  · cases hm

/-- Boolean check sufficient for a call to be allowed by `NoReplace`. -/
def okOp (s : St) : Op → Bool
  | .addNode n opts => decide (∀ e ∈ s.g.nodes.entries, (e.2.uid.str = n.uid.str ↔ e.2.id = n.id)) &&
      decide (Opt.withUpsert ∉ opts)
  | _ => true

def okRun : St → List Op → Bool
  | _, [] => true
  | s, op :: ops => okOp s op && okRun (step s op).1 ops

theorem reach_run {d : Bool} {s : St} (ops : List Op) (hr : Reach NoReplace d s)
    (hok : okRun s ops = true) : Reach NoReplace d (run s ops) := by
  induction ops generalizing s with
  | nil => exact hr
  | cons op ops ih =>
    rw [okRun, Bool.and_eq_true] at hok
    refine ih (s := (step s op).1) (Reach.step s op hr ?_) hok.2
    cases op with
    | addNode n opts =>
      simp only [okOp, Bool.and_eq_true, decide_eq_true_eq] at hok
      exact ⟨fits_of_entries hok.1.1, fun hup => absurd hup hok.1.2⟩
    | _ => trivial

theorem reach_run_any {d : Bool} {s : St} (ops : List Op) (hr : Reach Any d s) :
    Reach Any d (run s ops) := by
  induction ops generalizing s with
  | nil => exact hr
  | cons op ops ih => exact ih (s := (step s op).1) (Reach.step s op hr trivial)

/-- A new graph. -/
def exInit (d : Bool) : St := ⟨Heap.empty, new d ⟨0, "graph"⟩ []⟩

theorem reach_exInit (P : St → Op → Prop) (d : Bool) : Reach P d (exInit d) :=
  Reach.init Heap.empty ⟨0, "graph"⟩ []

def exEnt (i : Nat) (name : String) : Ent := ⟨⟨i, name⟩, "entity", 0, none⟩
def exNode (id : Int) (name : String) : Node := ⟨exEnt id.toNat name, id, name, 0⟩
def uA : Uid := ⟨1, "a"⟩
def uB : Uid := ⟨2, "b"⟩
def uC : Uid := ⟨3, "c"⟩

/-- Nodes a, b, c, then a–b (weight 7) and b–c (weight 9) linked. -/
def exOps : List Op :=
  [.addNode (exNode 0 "a") [], .addNode (exNode 1 "b") [], .addNode (exNode 2 "c") [],
   .link ⟨100, "e1"⟩ 200 uA uB [.withWeight 7], .link ⟨101, "e2"⟩ 201 uB uC [.withWeight 9]]

def exSt (d : Bool) : St := run (exInit d) exOps

theorem reach_exSt (d : Bool) : Reach NoReplace d (exSt d) := by
  refine reach_run exOps (reach_exInit _ d) ?_
  cases d <;> decide

theorem reach_exSt' (d : Bool) : Reach Disciplined d (exSt d) :=
  (reach_exSt d).mono NoReplace.disciplined

end Netscrape.Graph
