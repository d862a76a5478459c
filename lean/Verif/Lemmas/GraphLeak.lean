import Verif.Lemmas.GraphDisc
import Verif.Lemmas.Leak

/-!
# The read locks that `DOT` leaves behind
-/

namespace Netscrape.Graph
open Netscrape.Conc Netscrape.Spec

abbrev CCfg := Cfg Unit Loc St COp COut

/-- `DOT` keeps two read locks. -/
def dotLeft : COp → COut → Nat → Prop
  | .dot, _, n => n = 2
  | _, _, n => n = 0

theorem leaves_prog (op : COp) (_ : True) : Leaves () (dotLeft op) (prog () op) (.rd 0) := by
  cases op
  case dot =>
    unfold prog dotP
    simp only [Prog.bind, Leaves, if_true]
    exact ⟨0, rfl, Hold.noConfusion, fun _ => ⟨1, rfl, 2, rfl, rfl⟩⟩
  all_goals exact Leaves.of_disc (disc_strict _ (by exact id))

/-- A call of `DOT` has returned. -/
def DotDone (h : List (Ev COp COut)) : Prop := ∃ i t t' out, Ev.inv i t .dot ∈ h ∧ Ev.res i t' out ∈ h

theorem DotDone.left {h : List (Ev COp COut)} (hd : DotDone h) : Left dotLeft h := by
  obtain ⟨i, t, t', out, h1, h2⟩ := hd
  exact ⟨i, t, .dot, t', out, h1, h2, by show ¬ 0 = 2; decide⟩

theorem mustLock_newNode (o : Order (Int × Unit)) (e : Ent) (opts : List Opt) :
    MustLock () (prog () (.newNode o e opts)) := .inl rfl

theorem mustLock_addNode (n : Node) (opts : List Opt) : MustLock () (prog () (.addNode n opts)) := .inl rfl

theorem mustUse (op : COp) (h : op ≠ .addForeign) : MustUse () (prog () op) := by
  cases op <;> first | exact .inl rfl | exact absurd rfl h

end Netscrape.Graph
