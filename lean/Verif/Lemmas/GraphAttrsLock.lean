import Verif.Lemmas.GraphLeak
import Verif.Lemmas.NilUid
import Verif.Model.GraphAttrs
import Verif.Spec.GraphAttrs

/-!
# The lock of a graph whose attributes are in use
-/

namespace Netscrape.GraphAttrs
open Netscrape.Conc Netscrape.Graph
open Netscrape.Gonum (Builder)

/-- What is kept. -/
abbrev Kept := Out → Nat → Prop

theorem leaves_ofGraph {post : Kept} {ρ : Type} {post' : ρ → Nat → Prop} {k : ρ → AProg Out}
    (hk : ∀ r n, post' r n → Leaves () post (k r) (.rd n)) {p : GProg Unit ρ} :
    ∀ {h : Hold}, Leaves () post' p h → Leaves () post (ofGraph p k) h := by
  induction p with
  | ret r => rintro h ⟨n, hn, rfl⟩; exact hk r n hn
  | lock m p ih | acquire m p ih | unlock m p ih =>
    intro h hl
    simp only [Leaves, ofGraph, if_true] at hl ⊢
    exact ⟨hl.1, ih hl.2⟩
  | rlock m p ih | runlock m p ih =>
    intro h hl
    simp only [Leaves, ofGraph, if_true] at hl ⊢
    obtain ⟨n, h1, h2⟩ := hl
    exact ⟨n, h1, ih h2⟩
  | read l p ih | write l f p ih => exact fun h => ⟨h.1, fun s => ih s (h.2 s)⟩

theorem leaves_ofAttrs {post : Kept} {k : Attrs.COut → AProg Out} {n : Nat} (hk : ∀ r, Leaves () post (k r) (.rd n))
    (p : Attrs.CProg) : Leaves () post (ofAttrs p k) (.rd n) := by
  induction p with
  | ret r => exact hk r
  | read r p ih | write r f p ih => exact ⟨Hold.noConfusion, fun s => ih _⟩
  | lock m p ih | acquire m p ih | unlock m p ih | rlock m p ih | runlock m p ih => exact m.elim

theorem leaves_copyThen {post : Kept} (o : Order (String × String)) (r : Ref) {bad : AProg Out}
    {k : List (String × String) → AProg Out} {n : Nat} (hb : Leaves () post bad (.rd n))
    (hk : ∀ l, Leaves () post (k l) (.rd n)) : Leaves () post (copyThen o r bad k) (.rd n) := by
  refine leaves_ofAttrs (fun out => ?_) _
  split
  · exact hk _
  · exact hb

/-- Nothing is kept. -/
abbrev Nothing : Kept := fun _ n => n = 0

theorem leaves_linkAllA (ora : SubOracle) (x y : Uid) {k : WG → AProg Out} (hk : ∀ sg, Leaves () Nothing (k sg) (.rd 0))
    (es : List Edge) : ∀ sg, Leaves () Nothing (linkAllA ora x y es sg k) (.rd 0) := by
  induction es with
  | nil => exact hk
  | cons e es ih =>
    intro sg
    refine ⟨Hold.noConfusion, fun s => leaves_copyThen _ _ ⟨0, rfl, rfl⟩ fun l => ⟨Hold.noConfusion, fun s => ?_⟩⟩
    dsimp only
    split
    · exact ih _
    · exact ⟨0, rfl, rfl⟩
    · exact ⟨0, rfl, rfl⟩

theorem leaves_linkPeersA (ora : SubOracle) (sgNodes : GoMap Int Node) (id : Int) (x : Node) {k : WG → AProg Out}
    (hk : ∀ sg, Leaves () Nothing (k sg) (.rd 0)) (ps : List Node) :
    ∀ sg, Leaves () Nothing (linkPeersA ora sgNodes id x ps sg k) (.rd 0) := by
  induction ps with
  | nil => exact hk
  | cons p ps ih =>
    intro sg
    unfold linkPeersA
    split
    · exact ih sg
    · exact ⟨Hold.noConfusion, fun s => leaves_linkAllA ora _ _ ih _ sg⟩

theorem leaves_linkNodesA (ora : SubOracle) (sgNodes : GoMap Int Node) (l : List (Int × Node)) :
    ∀ sg, Leaves () Nothing (linkNodesA ora sgNodes l sg) (.rd 0) := by
  induction l with
  | nil => exact fun _ => ⟨0, rfl, rfl⟩
  | cons a l ih => exact fun sg => ⟨Hold.noConfusion, fun s => leaves_linkPeersA ora sgNodes a.1 a.2 ih _ sg⟩

theorem leaves_subGraphA (ora : SubOracle) (u : Uid) (d : Int) (opts : List Opt) :
    Leaves () Nothing (subGraphA ora u d opts) (.rd 0) := by
  refine ⟨0, rfl, Hold.noConfusion, fun s => ?_⟩
  dsimp only
  split
  · exact ⟨0, rfl, 0, rfl, rfl⟩
  · refine ⟨0, rfl, 0, rfl, Hold.noConfusion, fun s => ⟨0, rfl, ?_⟩⟩
    split
    · exact ⟨0, rfl, rfl⟩
    · split
      · exact ⟨0, rfl, rfl⟩
      · exact leaves_linkNodesA _ _ _ _

theorem leaves_nodeStmts {post : Kept} {n : Nat} (o : DotOrder) {bad : AProg Out} (hb : Leaves () post bad (.rd n))
    {k : List (String × DotAttrs) → AProg Out} (hk : ∀ l, Leaves () post (k l) (.rd n)) (ns : List Node) :
    ∀ acc, Leaves () post (nodeStmts o bad ns acc k) (.rd n) := by
  induction ns with
  | nil => exact hk
  | cons a ns ih => exact fun acc => leaves_copyThen _ _ hb fun l => ih _

theorem leaves_edgeStmts {post : Kept} {n : Nat} (o : DotOrder) {bad : AProg Out} (hb : Leaves () post bad (.rd n))
    (b : Builder) {k : List ((String × String) × DotAttrs) → AProg Out} (hk : ∀ l, Leaves () post (k l) (.rd n))
    (ps : List (Node × Node)) : ∀ acc, Leaves () post (edgeStmts o bad b ps acc k) (.rd n) := by
  induction ps with
  | nil => exact hk
  | cons p ps ih =>
    intro acc
    unfold edgeStmts
    split
    · exact ih _
    · exact leaves_copyThen _ _ hb fun l => ih _

theorem leaves_dotA (o : DotOrder) : Leaves () (fun _ n => n = 2) (dotA o) (.rd 0) := by
  refine ⟨0, rfl, Hold.noConfusion, fun s => ?_⟩
  have hb : ∀ out, Leaves () (fun _ n => n = 2) (.rlock () <| .ret out : AProg Out) (.rd 1) :=
    fun _ => ⟨1, rfl, 2, rfl, rfl⟩
  refine leaves_nodeStmts o (hb _) (fun ns => ?_) _ _
  exact leaves_edgeStmts o (hb _) _ (fun es => hb _) _ _

/-- `DOT` keeps two read locks, also if it panics. -/
def kept : Op → Kept
  | .graph .dot, _, n => n = 2
  | .dot _, _, n => n = 2
  | _, _, n => n = 0

theorem leaves_prog (op : Op) : Leaves () (kept op) (prog op) (.rd 0) := by
  cases op with
  | dot o => exact leaves_dotA o
  | attrs a => exact leaves_ofAttrs (post := kept (.attrs a)) (k := fun r => .ret (.attrs r)) (n := 0) (fun r => ⟨0, rfl, rfl⟩) _
  | graph op =>
    cases op
    case dot => exact leaves_dotA _
    case subGraph ora u d opts => exact leaves_subGraphA ora u d opts
    all_goals
      refine leaves_ofGraph (fun r n hn => ?_) (Graph.leaves_prog _ trivial)
      exact ⟨n, hn, rfl⟩

end Netscrape.GraphAttrs
