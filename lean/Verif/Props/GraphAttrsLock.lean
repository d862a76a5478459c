import Verif.Lemmas.GraphAttrsLock
import Verif.Props.GraphAttrs
import Verif.Props.NilUid

/-!
# C100: the lock of a graph whose attributes are in use
-/

namespace Netscrape.Props
open Netscrape Netscrape.Conc Netscrape.Graph Netscrape.GraphAttrs Netscrape.Spec

/-- The call is `DOT`. -/
def IsDot : GraphAttrs.Op → Prop
  | .graph .dot => True
  | .dot _ => True
  | _ => False

/-- **C100, what holds**: unless `DOT` has come to its end, the graph is not locked when no call is under way, and any
call that is made then, and left alone, comes to its end. So `SubGraph` leaves nothing locked, also if it
panics in `Keys`. -/
theorem c100_unlocked_partial {s : St} {c : ACfg} (hr : Conc.Reach prog (fun _ => True) s c) (hidle : Idle c)
    (hdot : ∀ op out, IsDot op → ¬ Did c.hist op out) :
    c.mus () = .init ∧ ∀ t op, EndsAlone prog c t op := by
  have hfree : c.mus () = .init := by
    refine idle_unlocked (leakInv (fun op _ => GraphAttrs.leaves_prog op) hr) ?_ hidle
    intro i t op t' out n h1 h2 h3
    by_cases hd : IsDot op
    · exact absurd ⟨i, t, t', h1, h2⟩ (hdot op out hd)
    · cases op with
      | dot o => exact absurd trivial hd
      | attrs a => exact h3
      | graph op => cases op <;> first | exact h3 | exact absurd trivial hd
  exact ⟨hfree, fun t op => ends_alone (post := fun _ => kept op) (hidle t) (fun _ => hfree) fun _ => GraphAttrs.leaves_prog op⟩

/-- **C100, how far that goes**: after `DOT` has come to its end, returning or panicking, the graph stays locked for
reading. -/
theorem c100_dot_keeps_partial {s : St} {c : ACfg} (hr : Conc.Reach prog (fun _ => True) s c) {op : GraphAttrs.Op}
    {out : GraphAttrs.Out} (hop : IsDot op) (hdid : Did c.hist op out) : (c.mus ()).readers ≠ 0 := by
  obtain ⟨i, t, t', h1, h2⟩ := hdid
  refine left_readers (leakInv (fun op _ => GraphAttrs.leaves_prog op) hr) ⟨i, t, op, t', out, h1, h2, ?_⟩
  cases op with
  | dot o => exact fun h => absurd (show (0 : Nat) = 2 from h) (by decide)
  | attrs a => exact absurd hop id
  | graph op => cases op <;> first | exact absurd hop id | exact fun h => absurd (show (0 : Nat) = 2 from h) (by decide)

/-- Non-vacuity: `SubGraph` has panicked in `Keys`; nobody is left, the graph is not locked. -/
example : (exec prog (.init gaSt) (.call 0 gaSub :: List.replicate 11 (.tau 0) ++
    [.call 1 (gaSet "z" "1"), .tau 1, .tau 0, .ret 0, .ret 1])).map
    (fun c => (c.mus (), match outOf 0 c.hist with | some .index => true | _ => false, (c.calls 0).isNone,
      (c.calls 1).isNone)) = some (.init, true, true, true) := by decide +kernel

/-- `DOT` has panicked in `Keys` and keeps two read locks. -/
example : (exec prog (.init gaSt) (.call 0 (.dot .id) :: List.replicate 7 (.tau 0) ++
    [.call 1 (gaSet "z" "1"), .tau 1, .tau 0, .tau 0, .ret 0, .ret 1])).map
    (fun c => (c.mus (), match outOf 0 c.hist with | some .index => true | _ => false)) =
    some (⟨2, .free⟩, true) := by decide +kernel

end Netscrape.Props
