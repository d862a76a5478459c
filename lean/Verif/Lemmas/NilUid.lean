import Verif.Lemmas.Graph
import Verif.Lemmas.LeakW
import Verif.Spec.NilUid

/-!
# What the methods keep locked when they panic
-/

namespace Netscrape.Conc

variable {μ κ σ α β ρ : Type} [DecidableEq μ]

/-- The program does not touch mutex `m`. -/
def Avoids (m : μ) : Prog μ κ σ ρ → Prop
  | .ret _ => True
  | .lock m' k => m' ≠ m ∧ Avoids m k
  | .acquire m' k => m' ≠ m ∧ Avoids m k
  | .unlock m' k => m' ≠ m ∧ Avoids m k
  | .rlock m' k => m' ≠ m ∧ Avoids m k
  | .runlock m' k => m' ≠ m ∧ Avoids m k
  | .read _ k => ∀ s, Avoids m (k s)
  | .write _ _ k => ∀ s, Avoids m (k s)

omit [DecidableEq μ] in
theorem Avoids.bind {m : μ} {f : α → Prog μ κ σ β} (hf : ∀ x, Avoids m (f x)) {p : Prog μ κ σ α} (h : Avoids m p) :
    Avoids m (p.bind f) := by
  induction p with
  | ret r => exact hf r
  | lock m' k ih => exact ⟨h.1, ih h.2⟩
  | acquire m' k ih => exact ⟨h.1, ih h.2⟩
  | unlock m' k ih => exact ⟨h.1, ih h.2⟩
  | rlock m' k ih => exact ⟨h.1, ih h.2⟩
  | runlock m' k ih => exact ⟨h.1, ih h.2⟩
  | read l k ih => exact fun s => ih s (h s)
  | write l g k ih => exact fun s => ih s (h s)

theorem Avoids.leaves {m : μ} {post : β → Nat → Prop} {f : α → Prog μ κ σ β} {hold : Hold} (hh : hold ≠ .ann)
    (hf : ∀ x, Leaves m post (f x) hold) {p : Prog μ κ σ α} (h : Avoids m p) : Leaves m post (p.bind f) hold := by
  induction p with
  | ret r => exact hf r
  | lock m' k ih => simp only [Prog.bind, Leaves, if_neg h.1]; exact ⟨hh, ih h.2⟩
  | acquire m' k ih => simp only [Prog.bind, Leaves, if_neg h.1]; exact ⟨hh, ih h.2⟩
  | unlock m' k ih => simp only [Prog.bind, Leaves, if_neg h.1]; exact ⟨hh, ih h.2⟩
  | rlock m' k ih => simp only [Prog.bind, Leaves, if_neg h.1]; exact ⟨hh, ih h.2⟩
  | runlock m' k ih => simp only [Prog.bind, Leaves, if_neg h.1]; exact ⟨hh, ih h.2⟩
  | read l k ih => exact ⟨hh, fun s => ih s (h s)⟩
  | write l g k ih => exact ⟨hh, fun s => ih s (h s)⟩

theorem leaves_excl {m : μ} {p : Prog μ κ σ ρ} (h : Avoids m p) : Leaves m (fun _ n => n = 0) (p.excl m) (.rd 0) := by
  unfold Prog.excl
  simp only [Leaves, if_true, true_and]
  refine h.leaves Hold.noConfusion fun x => ?_
  simp only [Leaves, if_true, true_and]
  exact ⟨0, rfl, rfl⟩

theorem leaves_shared {m : μ} {p : Prog μ κ σ ρ} (h : Avoids m p) :
    Leaves m (fun _ n => n = 0) (p.shared m) (.rd 0) := by
  unfold Prog.shared
  simp only [Leaves, if_true]
  refine ⟨0, rfl, h.leaves Hold.noConfusion fun x => ?_⟩
  simp only [Leaves, if_true]
  exact ⟨0, rfl, 0, rfl, rfl⟩

theorem Leaves.mono {m : μ} {post post' : ρ → Nat → Prop} (hp : ∀ r n, post r n → post' r n) {p : Prog μ κ σ ρ} :
    ∀ {h : Hold}, Leaves m post p h → Leaves m post' p h := by
  induction p with
  | ret r => rintro h ⟨n, hn, rfl⟩; exact ⟨n, hp r n hn, rfl⟩
  | lock m' k ih =>
    intro h hl
    simp only [Leaves] at hl ⊢
    split <;> rename_i e
    · rw [if_pos e] at hl; exact ⟨hl.1, ih hl.2⟩
    · rw [if_neg e] at hl; exact ⟨hl.1, ih hl.2⟩
  | acquire m' k ih =>
    intro h hl
    simp only [Leaves] at hl ⊢
    split <;> rename_i e
    · rw [if_pos e] at hl; exact ⟨hl.1, ih hl.2⟩
    · rw [if_neg e] at hl; exact ⟨hl.1, ih hl.2⟩
  | unlock m' k ih =>
    intro h hl
    simp only [Leaves] at hl ⊢
    split <;> rename_i e
    · rw [if_pos e] at hl; exact ⟨hl.1, ih hl.2⟩
    · rw [if_neg e] at hl; exact ⟨hl.1, ih hl.2⟩
  | rlock m' k ih =>
    intro h hl
    simp only [Leaves] at hl ⊢
    split <;> rename_i e
    · rw [if_pos e] at hl; obtain ⟨n, h1, h2⟩ := hl; exact ⟨n, h1, ih h2⟩
    · rw [if_neg e] at hl; exact ⟨hl.1, ih hl.2⟩
  | runlock m' k ih =>
    intro h hl
    simp only [Leaves] at hl ⊢
    split <;> rename_i e
    · rw [if_pos e] at hl; obtain ⟨n, h1, h2⟩ := hl; exact ⟨n, h1, ih h2⟩
    · rw [if_neg e] at hl; exact ⟨hl.1, ih hl.2⟩
  | read l k ih => exact fun h => ⟨h.1, fun s => ih s (h.2 s)⟩
  | write l f k ih => exact fun h => ⟨h.1, fun s => ih s (h.2 s)⟩

/-- Around a body that does not touch the outer mutex, the inner one is left as the body leaves it. -/
theorem leaves_within {m m' : μ} (hne : m' ≠ m) {post : ρ → Nat → Prop} {p : Prog μ κ σ ρ}
    (h : Leaves m post p (.rd 0)) : Leaves m post (p.excl m') (.rd 0) ∧ Leaves m post (p.shared m') (.rd 0) := by
  constructor
  · unfold Prog.excl
    simp only [Leaves, if_neg hne]
    refine ⟨Hold.noConfusion, h.bind fun x n hn => ?_⟩
    simp only [Leaves, if_neg hne]
    exact ⟨Hold.noConfusion, n, hn, rfl⟩
  · unfold Prog.shared
    simp only [Leaves, if_neg hne]
    refine ⟨Hold.noConfusion, h.bind fun x n hn => ?_⟩
    simp only [Leaves, if_neg hne]
    exact ⟨Hold.noConfusion, n, hn, rfl⟩

end Netscrape.Conc

namespace Netscrape.Graph
open Netscrape.Conc Netscrape.Spec
open Netscrape.Gonum (EdgeOrder)

variable {μ : Type} [DecidableEq μ]

abbrev Clean (m : μ) {ρ : Type} (p : GProg μ ρ) : Prop := Leaves m (fun _ n => n = 0) p (.rd 0)

/-- Solves `Leaves` goals for loop-free bodies that leave nothing. -/
macro "leaves" : tactic => `(tactic| (
  repeat' first
    | (refine ⟨0, rfl, rfl⟩)
    | (intro _)
    | (refine ⟨rfl, ?_⟩)
    | (refine ⟨_, rfl, ?_⟩)
    | (refine ⟨Hold.noConfusion, ?_⟩)
    | (dsimp only [Prog.excl, Prog.shared, Prog.bind, Leaves])
    | (unfold Clean)
    | (rw [if_pos rfl])
    | split))

theorem clean_addNode (m : μ) (n : Node) (opts : List Opt) : Clean m (addNodeP m n opts) := by
  unfold addNodeP; leaves

theorem clean_addNil (m : μ) (n : Node) : Clean m (addNilP m n) := by
  unfold addNilP; leaves

theorem clean_node (m : μ) (u : Uid) : Clean m (nodeP m u) := by
  unfold nodeP; leaves

theorem clean_nodes (m : μ) (o : Order (Int × Node)) : Clean m (nodesP m o) := by
  unfold nodesP; leaves

theorem clean_removeNode (m : μ) (u : Uid) : Clean m (removeNodeP m u) := by
  unfold removeNodeP; leaves

theorem clean_edge (m : μ) (u v : Uid) : Clean m (edgeP m u v) := by
  unfold edgeP; leaves

theorem clean_link (m : μ) (fresh : Uid) (a : Nat) (f t : Uid) (opts : List Opt) : Clean m (linkP m fresh a f t opts) := by
  unfold linkP edgeP linkApplyP; leaves

theorem clean_edges (m : μ) (o : EdgeOrder) : Clean m (edgesP m o) := by
  unfold edgesP; leaves

theorem clean_from (m : μ) (o : Order (Int × Edge)) (u : Uid) : Clean m (fromP m o u) := by
  unfold fromP; leaves

theorem clean_unlink (m : μ) (f t : Uid) : Clean m (unlinkP m f t) := by
  unfold unlinkP; leaves

theorem clean_linkPeers (m : μ) (ora : SubOracle) (sgNodes : GoMap Int Node) (id : Int) (x : Node)
    {k : WG → GProg μ (Res Err WG)} (hk : ∀ sg, Clean m (k sg)) (ps : List Node) :
    ∀ sg, Clean m (linkPeersP ora sgNodes id x ps sg k) := by
  induction ps with
  | nil => exact hk
  | cons p ps ih =>
    intro sg
    unfold linkPeersP
    split
    · exact ih sg
    · refine ⟨Hold.noConfusion, fun s => ⟨Hold.noConfusion, fun s' => ?_⟩⟩
      dsimp only
      split
      · exact ih _
      · exact ⟨0, rfl, rfl⟩
      · exact ⟨0, rfl, rfl⟩

theorem clean_linkNodes (m : μ) (ora : SubOracle) (sgNodes : GoMap Int Node) (l : List (Int × Node)) :
    ∀ sg, Clean m (linkNodesP ora sgNodes l sg) := by
  induction l with
  | nil => exact fun _ => ⟨0, rfl, rfl⟩
  | cons x l ih =>
    intro sg
    obtain ⟨id, x⟩ := x
    exact ⟨Hold.noConfusion, fun s => clean_linkPeers m ora sgNodes id x ih _ sg⟩

theorem clean_subGraph (m : μ) (ora : SubOracle) (u : Uid) (d : Int) (opts : List Opt) :
    Clean m (subGraphP m ora u d opts) := by
  unfold subGraphP
  simp only [Leaves, if_true]
  refine ⟨0, rfl, Hold.noConfusion, fun s => ?_⟩
  split
  · simp only [Leaves, if_true]; exact ⟨0, rfl, 0, rfl, rfl⟩
  · simp only [Leaves, if_true]
    refine ⟨0, rfl, 0, rfl, Hold.noConfusion, fun s => ⟨0, rfl, ?_⟩⟩
    split
    · exact ⟨0, rfl, rfl⟩
    · split
      · exact ⟨0, rfl, rfl⟩
      · exact clean_linkNodes m ora _ _ _

/-- A panic keeps `i` read locks, a return none. -/
def KeepsR (i : Nat) {α : Type} : Res Err α → Nat → Prop
  | .panic, n => n = i
  | _, n => n = 0

abbrev Spoils (m : μ) {α : Type} (p : GProg μ (Res Err α)) : Prop := Leaves m (KeepsR 1) p (.rd 0)

theorem nodeN_clean (m : μ) (u : Option Uid) : Clean m (nodeN m u) := by
  cases u with
  | none => unfold nodeN; leaves
  | some u => exact clean_node m u

theorem edgeN_clean (m : μ) (u v : Option Uid) : Clean m (edgeN m u v) := by
  rcases u with _ | u <;> rcases v with _ | v
  · unfold edgeN; leaves
  · unfold edgeN; leaves
  · unfold edgeN; leaves
  · exact clean_edge m u v

theorem removeNodeN_spoils (m : μ) : Spoils m (removeNodeN m none) := by
  unfold removeNodeN
  simp only [Leaves, if_true]
  exact ⟨0, rfl, 1, rfl, rfl⟩

theorem subGraphN_spoils (m : μ) (ora : SubOracle) (d : Int) (opts : List Opt) :
    Spoils m (subGraphN m ora none d opts) := by
  unfold subGraphN
  simp only [Leaves, if_true]
  exact ⟨0, rfl, 1, rfl, rfl⟩

theorem unlinkN_spoils (m : μ) (f t : Option Uid) (h : f = none ∨ t = none) : Spoils m (unlinkN m f t) := by
  rcases f with _ | f
  · unfold unlinkN
    simp only [Leaves, if_true]
    exact ⟨0, rfl, 1, rfl, rfl⟩
  · rcases t with _ | t
    · unfold unlinkN
      simp only [Leaves, if_true]
      refine ⟨0, rfl, Hold.noConfusion, fun s => ?_⟩
      split
      · simp only [Leaves, if_true]; exact ⟨0, rfl, 0, rfl, rfl⟩
      · exact ⟨1, rfl, rfl⟩
    · rcases h with h | h <;> cases h

theorem edgeN_some_none (m : μ) (f t : Option Uid) (h : f = none ∨ t = none) (n : Nat) :
    Leaves m (fun r n' => n' = n ∧ ∀ e, r ≠ .ok e) (edgeN m f t) (.rd n) := by
  rcases f with _ | f
  · unfold edgeN
    simp only [Prog.shared, Prog.bind, Leaves, if_true]
    exact ⟨n, rfl, n, rfl, n, ⟨rfl, fun _ h => by cases h⟩, rfl⟩
  · rcases t with _ | t
    · unfold edgeN
      simp only [Prog.shared, Prog.bind, Leaves, if_true]
      refine ⟨n, rfl, Hold.noConfusion, fun s => ?_⟩
      split
      · simp only [Prog.bind, Leaves, if_true]; exact ⟨n, rfl, n, ⟨rfl, fun _ h => by cases h⟩, rfl⟩
      · simp only [Prog.bind, Leaves, if_true]; exact ⟨n, rfl, n, ⟨rfl, fun _ h => by cases h⟩, rfl⟩
    · rcases h with h | h <;> cases h

theorem linkN_spoils (m : μ) (fresh : Uid) (a : Nat) (f t : Option Uid) (opts : List Opt) (h : f = none ∨ t = none) :
    Spoils m (linkN m fresh a f t opts) := by
  have key : Spoils m (.rlock m <| (edgeN m f t).bind fun r =>
      match r with
      | .err e => .runlock m <| .ret (.err e)
      | r => .ret r) := by
    simp only [Leaves, if_true]
    refine ⟨0, rfl, (edgeN_some_none m f t h 1).bind ?_⟩
    rintro r n ⟨rfl, hr⟩
    cases r with
    | ok e => exact absurd rfl (hr e)
    | err e => simp only [Leaves, if_true]; exact ⟨0, rfl, 0, rfl, rfl⟩
    | panic => exact ⟨1, rfl, rfl⟩
  rcases f with _ | f
  · exact key
  · rcases t with _ | t
    · exact key
    · rcases h with h | h <;> cases h

/-- Read locks that a call of the graph keeps. -/
def leftN : NOp → NOut → Nat → Prop
  | .dot, _, n => n = 2
  | op, .panic, n => (WithNil op → n = 1) ∧ (¬ WithNil op → n = 0)
  | _, .ret _, n => n = 0

theorem leftN_clean {op : NOp} {out : NOut} (hd : op ≠ .dot) (h : ¬ WithNil op) : leftN op out 0 := by
  cases op <;> cases out <;> first | exact absurd rfl hd | rfl | exact ⟨fun x => absurd x h, fun _ => rfl⟩

theorem leftN_ret {op : NOp} {out : COut} (hd : op ≠ .dot) : leftN op (.ret out) 0 := by
  cases op <;> first | exact absurd rfl hd | rfl

theorem leftN_nil {op : NOp} (h : WithNil op) : leftN op .panic 1 := by
  cases op <;> first | exact h.elim | exact ⟨fun _ => rfl, fun x => absurd h x⟩

theorem leftN_not {op : NOp} (h : WithNil op) : ¬ leftN op .panic 0 := by
  cases op <;> first | exact h.elim | exact fun x => absurd (x.1 h) (by decide)

theorem leaves_clean {m : μ} {op : NOp} {ρ : Type} {p : GProg μ ρ} {f : ρ → NOut} (hd : op ≠ .dot) (h : ¬ WithNil op)
    (hp : Clean m p) : Leaves m (leftN op) (p.bind fun r => .ret (f r)) (.rd 0) :=
  Leaves.bind (f := fun r => .ret (f r)) (fun _ n hn => ⟨n, (show n = 0 from hn) ▸ leftN_clean hd h, rfl⟩) hp

theorem leaves_spoils {m : μ} {op : NOp} {α : Type} {p : GProg μ (Res Err α)} {f : Res Err α → COut} (h : WithNil op)
    (hp : Spoils m p) : Leaves m (leftN op) (p.bind fun r => .ret (NOut.of f r)) (.rd 0) := by
  have hd : op ≠ .dot := by rintro rfl; exact h
  refine Leaves.bind (f := fun r => .ret (NOut.of f r)) (fun x n hn => ⟨n, ?_, rfl⟩) hp
  cases x with
  | panic => rw [show n = 1 from hn]; exact leftN_nil h
  | ok a => rw [show n = 0 from hn]; exact leftN_ret hd
  | err e => rw [show n = 0 from hn]; exact leftN_ret hd

theorem leaves_others (m : μ) (op : NOp) (hop : ∀ o e opts, op ≠ .newNode o e opts) :
    Leaves m (leftN op) (progN m op) (.rd 0) := by
  cases op with
  | newNode o e opts => exact absurd rfl (hop o e opts)
  | addNil n => exact leaves_clean NOp.noConfusion id (clean_addNil m n)
  | addNode n opts => exact leaves_clean NOp.noConfusion id (clean_addNode m n opts)
  | addForeign => exact ⟨0, rfl, rfl⟩
  | node u => exact leaves_clean NOp.noConfusion id (nodeN_clean m u)
  | nodes o => exact leaves_clean NOp.noConfusion id (clean_nodes m o)
  | removeNode u =>
    cases u with
    | none => exact leaves_spoils (op := .removeNode none) rfl (removeNodeN_spoils m)
    | some u => exact leaves_clean NOp.noConfusion (by rintro ⟨⟩) (clean_removeNode m u)
  | link fresh a f t opts =>
    by_cases h : f = none ∨ t = none
    · exact leaves_spoils (op := .link fresh a f t opts) h (linkN_spoils m fresh a f t opts h)
    · cases f with
      | none => exact absurd (.inl rfl) h
      | some f =>
        cases t with
        | none => exact absurd (.inr rfl) h
        | some t => exact leaves_clean NOp.noConfusion h (clean_link m fresh a f t opts)
  | edge u v => exact leaves_clean NOp.noConfusion id (edgeN_clean m u v)
  | edges o => exact leaves_clean NOp.noConfusion id (clean_edges m o)
  | from' o u =>
    cases u with
    | none =>
      unfold progN fromN
      simp only [Prog.bind, Leaves, if_true]
      exact ⟨0, rfl, 1, leftN_nil (op := .from' o none) rfl, rfl⟩
    | some u =>
      refine Leaves.bind (fun x n hn => ?_) (Leaves.bind (f := fun l => .ret (some l)) (post' := fun _ n => n = 0)
        (fun x n hn => ⟨n, hn, rfl⟩) (clean_from m o u))
      have hc : ∀ out, leftN (.from' o (some u)) out 0 := fun out => leftN_clean NOp.noConfusion (by rintro ⟨⟩)
      subst hn
      cases x <;> exact ⟨0, hc _, rfl⟩
  | unlink f t =>
    by_cases h : f = none ∨ t = none
    · exact leaves_spoils (op := .unlink f t) h (unlinkN_spoils m f t h)
    · cases f with
      | none => exact absurd (.inl rfl) h
      | some f =>
        cases t with
        | none => exact absurd (.inr rfl) h
        | some t => exact leaves_clean NOp.noConfusion h (clean_unlink m f t)
  | subGraph ora u d opts =>
    cases u with
    | none => exact leaves_spoils (op := .subGraph ora none d opts) rfl (subGraphN_spoils m ora d opts)
    | some u => exact leaves_clean NOp.noConfusion (by rintro ⟨⟩) (clean_subGraph m ora u d opts)
  | dot =>
    unfold progN dotP
    simp only [Prog.bind, Leaves, if_true]
    exact ⟨0, rfl, Hold.noConfusion, fun _ => ⟨1, rfl, 2, rfl, rfl⟩⟩

/-- What `NewNode` keeps: the write lock if it panics, but nothing if it does so before it asks for the lock again. -/
def KeepsW (e : NEnt) (opts : List Opt) : Res Err Node → Hold → Prop
  | .panic, x => x = .wr ∨ (Nameless e opts ∧ x = .rd 0)
  | _, x => x = .rd 0 ∧ ∀ dot, e ≠ .nil dot

theorem newNodeN_keeps (m : μ) (o : Order (Int × Unit)) (e : NEnt) (opts : List Opt) :
    LeavesW m (KeepsW e opts) (newNodeN m o e opts) (.rd 0) := by
  unfold newNodeN
  simp only [LeavesW, if_true, true_and]
  refine ⟨Hold.noConfusion, fun s => ?_⟩
  split
  · exact ⟨Hold.noConfusion, .inl rfl⟩
  · simp only [LeavesW, if_true, true_and]
    cases e with
    | ent e =>
      simp only [LeavesW, if_true, true_and]
      refine ⟨Hold.noConfusion, fun s => ⟨Hold.noConfusion, fun s' => ?_⟩⟩
      split
      · simp only [LeavesW, if_true, true_and]; exact ⟨Hold.noConfusion, rfl, fun _ h => by cases h⟩
      · simp only [LeavesW, if_true, true_and]; exact ⟨Hold.noConfusion, rfl, fun _ h => by cases h⟩
    | nil dot =>
      dsimp only
      split
      · rename_i h
        refine ⟨Hold.noConfusion, .inr ⟨⟨?_, ?_⟩, rfl⟩⟩
        · rw [h.2]
        · rw [← (applyAll_fields opts).1]; exact h.1
      · simp only [LeavesW, if_true, true_and]
        exact ⟨Hold.noConfusion, fun _ => ⟨Hold.noConfusion, .inl rfl⟩⟩

/-- What a call of the graph keeps locked. -/
def keptN : NOp → NOut → Hold → Prop
  | .newNode _ e opts, .panic, x => x = .wr ∨ (Nameless e opts ∧ x = .rd 0)
  | .newNode _ e _, .ret _, x => x = .rd 0 ∧ ∀ dot, e ≠ .nil dot
  | op, out, x => ∃ n, x = .rd n ∧ leftN op out n

theorem leaves_progN (m : μ) (op : NOp) : LeavesW m (keptN op) (progN m op) (.rd 0) := by
  cases op with
  | newNode o e opts =>
    refine LeavesW.bind (f := fun r => .ret (NOut.of .node r)) (fun x h hn hx => ⟨hn, ?_⟩) (newNodeN_keeps m o e opts)
    cases x with
    | panic => exact hx
    | ok n => exact hx
    | err n => exact hx
  | _ => exact Leaves.toW (fun _ n hn => ⟨n, rfl, hn⟩) (leaves_others m _ nofun)

theorem keptN_not {op : NOp} (h : WithNil op) : ¬ keptN op .panic (.rd 0) := by
  have := leftN_not h
  cases op <;> first | exact h.elim | (rintro ⟨n, hn, hl⟩; cases hn; exact this hl)

theorem mustUse_progN (op : NOp) (h : op ≠ .addForeign) : MustUse () (progN () op) := by
  cases op with
  | addForeign => exact absurd rfl h
  | node u => cases u <;> exact .inl rfl
  | removeNode u => cases u <;> exact .inl rfl
  | edge u v => rcases u with _ | u <;> rcases v with _ | v <;> exact .inl rfl
  | link _ _ u v _ => rcases u with _ | u <;> rcases v with _ | v <;> exact .inl rfl
  | unlink u v => rcases u with _ | u <;> rcases v with _ | v <;> exact .inl rfl
  | from' _ u => cases u <;> exact .inl rfl
  | subGraph _ u _ _ => cases u <;> exact .inl rfl
  | _ => exact .inl rfl

end Netscrape.Graph

namespace Netscrape.Store
open Netscrape.Conc Netscrape.Spec
open Netscrape.Graph (NEnt Node Clean Spoils KeepsR KeepsW newNodeN_keeps nodeN_clean clean_addNode clean_removeNode clean_link clean_unlink
  removeNodeN_spoils linkN_spoils unlinkN_spoils nodeN removeNodeN linkN unlinkN linkP unlinkP removeNodeP nodeP newNodeN
  addNodeP edgeN edgeP)

/-! ## The graph's mutex -/

/-- A panic keeps `i` read locks, a return none. -/
def KeepsS (i : Nat) {α : Type} : Res Err α → Nat → Prop
  | .panic, n => n = i
  | _, n => n = 0

abbrev CleanS {ρ : Type} (p : SProg ρ) : Prop := Leaves Mtx.graph (fun _ n => n = 0) p (.rd 0)
abbrev SpoilsS {α : Type} (p : SProg (Res Err α)) : Prop := Leaves Mtx.graph (KeepsS 1) p (.rd 0)

/-- Ends `Leaves` goals after a call of the graph that left nothing. -/
macro "after" : tactic => `(tactic| (intro x n hn; subst hn; repeat' first | (exact ⟨0, rfl, rfl⟩) | split))

/-- What `Add` keeps: nothing if it does not panic, the write lock if the entity has no UID but a DOTID. -/
def KeepsA (e : NEnt) : Res Err Unit → Hold → Prop
  | .panic, x => ∀ dot, e = .nil (some dot) → x = .wr
  | _, x => x = .rd 0 ∧ ∀ dot, e ≠ .nil dot

theorem addNode_after (n : Node) (e : NEnt) (he : ∀ dot, e ≠ .nil dot) (opts : List Graph.Opt)
    (f : Res Graph.Err Unit → Res Err Unit) :
    LeavesW Mtx.graph (KeepsA e) ((addNodeP .graph n opts).bind fun r => .ret (f r)) (.rd 0) := by
  refine Leaves.toW ?_ (Leaves.bind (f := fun r => .ret (f r)) (post' := fun _ n => n = 0)
    (fun _ _ hn => ⟨_, hn, rfl⟩) (clean_addNode Mtx.graph n opts))
  intro r n hn
  rw [show n = 0 from hn]
  cases r with
  | panic => exact fun dot h => absurd h (he _)
  | ok _ => exact ⟨rfl, he⟩
  | err _ => exact ⟨rfl, he⟩

theorem addN_keeps (o : Order (Int × Unit)) (e : NEnt) (opts : List SOpt) :
    LeavesW Mtx.graph (KeepsA e) (addN o e opts) (.rd 0) := by
  unfold addN
  refine LeavesW.bind ?_ (newNodeN_keeps Mtx.graph o e _)
  intro x h hn hx
  cases x with
  | panic =>
    refine ⟨hn, fun dot he => ?_⟩
    rcases hx with hx | ⟨hx, -⟩
    · exact hx
    · rw [he] at hx; exact absurd hx.1 (by simp)
  | err x => exact ⟨hn, hx⟩
  | ok n =>
    rw [hx.1]
    dsimp only
    split
    · refine (congrArg (fun p => LeavesW Mtx.graph (KeepsA e) (Prog.bind _ p) _) (funext fun r => ?_)).mp
        (addNode_after n e hx.2 [] (fun r => match r with
          | .ok () => .ok ()
          | .err .duplicateNode => .err .alreadyExists
          | .err x => .err (.graph x)
          | .panic => .panic))
      rcases r with _ | x | _ <;> first | rfl | (cases x <;> rfl)
    · refine (congrArg (fun p => LeavesW Mtx.graph (KeepsA e) (Prog.bind _ p) _) (funext fun r => ?_)).mp
        (addNode_after n e hx.2 [.withUpsert] (fun r => match r with
          | .ok () => .ok ()
          | .err x => .err (.graph x)
          | .panic => .panic))
      split <;> rfl

/-- Nothing is kept unless there is a panic. -/
def MayKeepW : Res Err Unit → Hold → Prop := fun r x => r ≠ .panic → x = .rd 0

theorem loop_addN (es : List (Order (Int × Unit) × NEnt)) (opts : List SOpt) :
    LeavesW Mtx.graph MayKeepW (loopP (fun x => addN x.1 x.2 opts) es) (.rd 0) := by
  induction es with
  | nil => exact ⟨Hold.noConfusion, fun _ => rfl⟩
  | cons x xs ih =>
    unfold loopP
    refine LeavesW.bind ?_ (addN_keeps x.1 x.2 opts)
    intro r h hn hx
    cases r with
    | ok _ => rw [show h = .rd 0 from hx.1]; exact ih
    | err _ => exact ⟨hn, fun _ => hx.1⟩
    | panic => exact ⟨hn, fun h => absurd rfl h⟩

theorem getN_clean (u : Option Uid) : CleanS (getN u) := by
  unfold getN
  exact Leaves.bind (by after) (nodeN_clean Mtx.graph u)

theorem delete_clean (u : Uid) : CleanS (deleteN (some u)) := by
  unfold deleteN
  exact Leaves.bind (by after) (clean_removeNode Mtx.graph u)

theorem link_clean (fresh : Uid) (a : Nat) (f t : Uid) (opts : List SOpt) :
    CleanS (storeLinkN fresh a (some f) (some t) opts) := by
  unfold storeLinkN
  exact Leaves.bind (by after) (clean_link Mtx.graph fresh a f t _)

theorem unlink_clean (f t : Uid) : CleanS (storeUnlinkN (some f) (some t)) := by
  unfold storeUnlinkN
  exact Leaves.bind (by after) (clean_unlink Mtx.graph f t)

/-- Ends `Leaves` goals after a call of the graph that may have kept a lock. -/
macro "afterN" : tactic => `(tactic| (
  intro x n hn
  cases x with
  | panic => cases hn; exact ⟨1, rfl, rfl⟩
  | ok a => cases hn; exact ⟨0, rfl, rfl⟩
  | err e => cases hn; split <;> exact ⟨0, rfl, rfl⟩))

theorem delete_spoils : SpoilsS (deleteN none) := by
  unfold deleteN
  refine Leaves.bind ?_ (removeNodeN_spoils Mtx.graph)
  intro x n hn
  cases x <;> cases hn
  · exact ⟨0, rfl, rfl⟩
  · exact ⟨0, rfl, rfl⟩
  · exact ⟨1, rfl, rfl⟩

theorem link_spoils (fresh : Uid) (a : Nat) (f t : Option Uid) (opts : List SOpt) (h : f = none ∨ t = none) :
    SpoilsS (storeLinkN fresh a f t opts) := by
  unfold storeLinkN
  refine Leaves.bind ?_ (linkN_spoils Mtx.graph fresh a f t _ h)
  intro x n hn
  cases x <;> cases hn
  · exact ⟨0, rfl, rfl⟩
  · split <;> first | exact ⟨0, rfl, rfl⟩ | contradiction
  · exact ⟨1, rfl, rfl⟩

theorem unlink_spoils (f t : Option Uid) (h : f = none ∨ t = none) : SpoilsS (storeUnlinkN f t) := by
  unfold storeUnlinkN
  refine Leaves.bind ?_ (unlinkN_spoils Mtx.graph f t h)
  intro x n hn
  cases x <;> cases hn
  · exact ⟨0, rfl, rfl⟩
  · exact ⟨0, rfl, rfl⟩
  · exact ⟨1, rfl, rfl⟩

theorem loop_clean {α : Type} {f : α → SProg (Res Err Unit)} (l : List α) (hf : ∀ x ∈ l, CleanS (f x)) :
    CleanS (loopP f l) := by
  induction l with
  | nil => exact ⟨0, rfl, rfl⟩
  | cons x xs ih =>
    unfold loopP
    refine Leaves.bind ?_ (hf x (by simp))
    intro r n hn
    subst hn
    split
    · exact ih fun y hy => hf y (by simp [hy])
    · exact ⟨0, rfl, rfl⟩
    · exact ⟨0, rfl, rfl⟩

/-- A loop over calls that keep a lock if, and only if, they panic. -/
theorem loop_spoils {α : Type} {f : α → SProg (Res Err Unit)} (hf : ∀ x, SpoilsS (f x)) (l : List α) :
    SpoilsS (loopP f l) := by
  induction l with
  | nil => exact ⟨0, rfl, rfl⟩
  | cons x xs ih =>
    unfold loopP
    refine Leaves.bind ?_ (hf x)
    intro r n hn
    cases r <;> cases hn
    · exact ih
    · exact ⟨0, rfl, rfl⟩
    · exact ⟨1, rfl, rfl⟩

theorem delete_keeps (u : Option Uid) : SpoilsS (deleteN u) := by
  cases u with
  | none => exact delete_spoils
  | some u =>
    have : Leaves Mtx.graph (fun r n => n = 0 ∧ r ≠ .panic) (removeNodeP Mtx.graph u) (.rd 0) := by
      unfold removeNodeP
      simp only [Leaves, if_true]
      refine ⟨0, rfl, Hold.noConfusion, fun s => ?_⟩
      split
      · simp only [Leaves, if_true]; exact ⟨0, rfl, 0, ⟨rfl, fun h => by cases h⟩, rfl⟩
      · simp only [Prog.excl, Prog.bind, Leaves, if_true, true_and]
        exact ⟨0, rfl, rfl, Hold.noConfusion, fun _ => ⟨Hold.noConfusion, fun _ =>
          ⟨0, ⟨rfl, fun h => by cases h⟩, rfl⟩⟩⟩
    unfold deleteN
    refine Leaves.bind ?_ this
    rintro x n ⟨rfl, hx⟩
    cases x
    · exact ⟨0, rfl, rfl⟩
    · exact ⟨0, rfl, rfl⟩
    · exact absurd rfl hx

theorem unlink_keeps (f t : Option Uid) : SpoilsS (storeUnlinkN f t) := by
  by_cases h : f = none ∨ t = none
  · exact unlink_spoils f t h
  · rcases f with _ | f
    · exact absurd (.inl rfl) h
    rcases t with _ | t
    · exact absurd (.inr rfl) h
    have : Leaves Mtx.graph (fun r n => n = 0 ∧ r ≠ .panic) (unlinkP Mtx.graph f t) (.rd 0) := by
      unfold unlinkP
      simp only [Leaves, if_true]
      refine ⟨0, rfl, Hold.noConfusion, fun s => ?_⟩
      split
      · simp only [Leaves, if_true]; exact ⟨0, rfl, 0, ⟨rfl, fun h => by cases h⟩, rfl⟩
      · refine ⟨Hold.noConfusion, fun s => ?_⟩
        dsimp only
        split
        · simp only [Leaves, if_true]; exact ⟨0, rfl, 0, ⟨rfl, fun h => by cases h⟩, rfl⟩
        · simp only [Leaves, if_true]
          exact ⟨0, rfl, rfl, Hold.noConfusion, fun _ => ⟨trivial, 0, ⟨rfl, fun h => by cases h⟩, rfl⟩⟩
    unfold storeUnlinkN
    refine Leaves.bind ?_ this
    rintro x n ⟨rfl, hx⟩
    cases x
    · exact ⟨0, rfl, rfl⟩
    · exact ⟨0, rfl, rfl⟩
    · exact absurd rfl hx

/-- At most a panic keeps a lock. -/
def MayKeep : Res Err Unit → Nat → Prop := fun r n => n ≤ 1 ∧ (r ≠ .panic → n = 0)

theorem link_mayKeep (fresh : Uid) (a : Nat) (f t : Option Uid) (opts : List SOpt) :
    Leaves Mtx.graph MayKeep (storeLinkN fresh a f t opts) (.rd 0) := by
  by_cases h : f = none ∨ t = none
  · refine Leaves.mono ?_ (link_spoils fresh a f t opts h)
    intro r n hn
    cases r <;> cases hn
    · exact ⟨Nat.zero_le _, fun _ => rfl⟩
    · exact ⟨Nat.zero_le _, fun _ => rfl⟩
    · exact ⟨Nat.le_refl _, fun h => absurd rfl h⟩
  · rcases f with _ | f
    · exact absurd (.inl rfl) h
    rcases t with _ | t
    · exact absurd (.inr rfl) h
    exact Leaves.mono (fun r n hn => (show n = 0 from hn) ▸ ⟨Nat.zero_le _, fun _ => rfl⟩) (link_clean fresh a f t opts)

theorem loop_mayKeep {α : Type} {f : α → SProg (Res Err Unit)} (hf : ∀ x, Leaves Mtx.graph MayKeep (f x) (.rd 0))
    (l : List α) : Leaves Mtx.graph MayKeep (loopP f l) (.rd 0) := by
  induction l with
  | nil => exact ⟨0, ⟨Nat.zero_le _, fun _ => rfl⟩, rfl⟩
  | cons x xs ih =>
    unfold loopP
    refine Leaves.bind ?_ (hf x)
    rintro r n ⟨hle, hn⟩
    cases r with
    | ok a => rw [hn (fun h => by cases h)]; exact ih
    | err e => rw [hn (fun h => by cases h)]; exact ⟨0, ⟨Nat.zero_le _, fun _ => rfl⟩, rfl⟩
    | panic => exact ⟨n, ⟨hle, fun h => absurd rfl h⟩, rfl⟩

theorem bulkGet_clean (us : List (Option Uid)) : ∀ ents, CleanS (bulkGetN us ents) := by
  induction us with
  | nil => exact fun _ => ⟨0, rfl, rfl⟩
  | cons u us ih =>
    intro ents
    unfold bulkGetN
    refine Leaves.bind ?_ (getN_clean u)
    intro r n hn
    subst hn
    split
    · exact ih _
    · exact ⟨0, rfl, rfl⟩
    · exact ⟨0, rfl, rfl⟩

/-- Read locks of the graph that a call of the store keeps. -/
def leftS (op : NOp) (out : COut) (n : Nat) : Prop :=
  n ≤ 1 ∧ (¬ (WithNil op ∧ out = .unit .panic) → n = 0) ∧
    (WithNil op → ¬ ManyLinks op → out = .unit .panic → n = 1)

theorem of_clean {op : NOp} {ρ : Type} {p : SProg ρ} {f : ρ → COut} (h : ¬ WithNil op) (hp : CleanS p) :
    Leaves Mtx.graph (leftS op) (out f p) (.rd 0) :=
  Leaves.bind (f := fun r => .ret (f r)) (fun _ n hn => ⟨n, (show n = 0 from hn) ▸
    ⟨Nat.zero_le _, fun _ => rfl, fun x => absurd x h⟩, rfl⟩) hp

theorem of_spoils {op : NOp} {p : SProg (Res Err Unit)} (h : WithNil op) (hp : SpoilsS p) :
    Leaves Mtx.graph (leftS op) (out .unit p) (.rd 0) := by
  refine Leaves.bind (f := fun r => .ret (COut.unit r)) (fun x n hn => ⟨n, ?_, rfl⟩) hp
  cases x with
  | panic => rw [show n = 1 from hn]; exact ⟨Nat.le_refl _, fun x => absurd ⟨h, rfl⟩ x, fun _ _ _ => rfl⟩
  | ok a => rw [show n = 0 from hn]; exact ⟨Nat.zero_le _, fun _ => rfl, fun _ _ h => by cases h⟩
  | err e => rw [show n = 0 from hn]; exact ⟨Nat.zero_le _, fun _ => rfl, fun _ _ h => by cases h⟩

theorem of_mayKeep {op : NOp} {p : SProg (Res Err Unit)} (h : WithNil op) (hm : ManyLinks op)
    (hp : Leaves Mtx.graph MayKeep p (.rd 0)) : Leaves Mtx.graph (leftS op) (out .unit p) (.rd 0) := by
  refine Leaves.bind (f := fun r => .ret (COut.unit r)) (fun x n hn => ⟨n, ⟨hn.1, ?_, fun _ x => absurd hm x⟩, rfl⟩) hp
  intro hx
  exact hn.2 fun e => hx ⟨h, e ▸ rfl⟩

theorem leaves_others (op : NOp) (hop : ¬ Adds op) : Leaves Mtx.graph (leftS op) (progN op) (.rd 0) := by
  have hne : Mtx.store ≠ Mtx.graph := by decide
  cases op with
  | add o e opts => exact absurd trivial hop
  | get u => exact (leaves_within hne (of_clean id (getN_clean u))).2
  | delete u =>
    cases u with
    | none => exact (leaves_within hne (of_spoils (op := .delete none) rfl delete_spoils)).1
    | some u => exact (leaves_within hne (of_clean (by rintro ⟨⟩) (delete_clean u))).1
  | link fresh a f t opts =>
    by_cases h : f = none ∨ t = none
    · exact (leaves_within hne (of_spoils (op := .link fresh a f t opts) h (link_spoils fresh a f t opts h))).1
    · refine (leaves_within hne (of_clean (op := .link fresh a f t opts) h ?_)).1
      rcases f with _ | f
      · exact absurd (.inl rfl) h
      rcases t with _ | t
      · exact absurd (.inr rfl) h
      exact link_clean fresh a f t opts
  | unlink f t =>
    by_cases h : f = none ∨ t = none
    · exact (leaves_within hne (of_spoils (op := .unlink f t) h (unlink_spoils f t h))).1
    · refine (leaves_within hne (of_clean (op := .unlink f t) h ?_)).1
      rcases f with _ | f
      · exact absurd (.inl rfl) h
      rcases t with _ | t
      · exact absurd (.inr rfl) h
      exact unlink_clean f t
  | bulkAdd es opts => exact absurd trivial hop
  | bulkGet us => exact (leaves_within hne (of_clean id (bulkGet_clean us _))).2
  | bulkDelete us =>
    by_cases h : none ∈ us
    · exact (leaves_within hne (of_spoils (op := .bulkDelete us) h (loop_spoils delete_keeps us))).1
    · refine (leaves_within hne (of_clean (op := .bulkDelete us) h (loop_clean us ?_))).1
      intro u hu
      cases u with
      | none => exact absurd hu h
      | some u => exact delete_clean u
  | bulkLink f us opts =>
    cases f with
    | none =>
      exact (leaves_within hne (of_spoils (op := .bulkLink none us opts) (.inl rfl)
        (loop_spoils (fun x => link_spoils x.1 x.2.1 none x.2.2 opts (.inl rfl)) us))).1
    | some f =>
      by_cases h : none ∈ us.map fun x => x.2.2
      · exact (leaves_within hne (of_mayKeep (op := .bulkLink (some f) us opts) (.inr h) trivial
          (loop_mayKeep (fun x => link_mayKeep x.1 x.2.1 (some f) x.2.2 opts) us))).1
      · refine (leaves_within hne (of_clean ?_ (loop_clean us ?_))).1
        · rintro (h' | h')
          · cases h'
          · exact h h'
        · rintro ⟨fresh, a, u⟩ hu
          cases u with
          | none => exact absurd (List.mem_map.mpr ⟨_, hu, rfl⟩) h
          | some u => exact link_clean fresh a f u opts
  | bulkUnlink f us =>
    by_cases h : f = none ∨ none ∈ us
    · exact (leaves_within hne (of_spoils (op := .bulkUnlink f us) h (loop_spoils (unlink_keeps f) us))).1
    · refine (leaves_within hne (of_clean (op := .bulkUnlink f us) h (loop_clean us ?_))).1
      intro u hu
      cases f with
      | none => exact absurd (.inl rfl) h
      | some f =>
        cases u with
        | none => exact absurd (.inr hu) h
        | some u => exact unlink_clean f u

/-- What a call of the store keeps locked of the graph. -/
def keptS : NOp → COut → Hold → Prop
  | .add _ e _, out, x => (out ≠ .unit .panic → x = .rd 0 ∧ ∀ dot, e ≠ .nil dot) ∧
      (∀ dot, e = .nil (some dot) → out = .unit .panic → x = .wr)
  | .bulkAdd _ _, out, x => out ≠ .unit .panic → x = .rd 0
  | op, out, x => ∃ n, x = .rd n ∧ leftS op out n

theorem leavesW_within {m m' : μ} [DecidableEq μ] (hne : m' ≠ m) {κ σ ρ : Type} {post : ρ → Hold → Prop}
    {p : Prog μ κ σ ρ} (h : LeavesW m post p (.rd 0)) : LeavesW m post (p.excl m') (.rd 0) := by
  unfold Prog.excl
  simp only [LeavesW, if_neg hne]
  refine ⟨Hold.noConfusion, h.bind fun x n ha hn => ?_⟩
  simp only [LeavesW, if_neg hne]
  exact ⟨ha, ha, hn⟩

theorem leaves_graph (op : NOp) : LeavesW Mtx.graph (keptS op) (progN op) (.rd 0) := by
  have hne : Mtx.store ≠ Mtx.graph := by decide
  cases op with
  | add o e opts =>
    refine leavesW_within hne (LeavesW.bind (f := fun r => .ret (COut.unit r)) (fun x h hn hx => ⟨hn, ?_⟩)
      (addN_keeps o e opts))
    cases x with
    | panic => exact ⟨fun h => absurd rfl h, fun dot he _ => hx dot he⟩
    | ok _ => exact ⟨fun _ => hx, fun _ _ h => by cases h⟩
    | err _ => exact ⟨fun _ => hx, fun _ _ h => by cases h⟩
  | bulkAdd es opts =>
    refine leavesW_within hne (LeavesW.bind (f := fun r => .ret (COut.unit r)) (fun x h hn hx => ⟨hn, ?_⟩)
      (loop_addN es opts))
    exact fun h => hx fun e => h (e ▸ rfl)
  | _ => exact Leaves.toW (fun _ n hn => ⟨n, rfl, hn⟩) (leaves_others _ id)

theorem keptS_not {op : NOp} (h : WithNil op) (hm : ¬ ManyLinks op) : ¬ keptS op (.unit .panic) (.rd 0) := by
  cases op <;> first | exact h.elim | (rintro ⟨n, hn, hl⟩; cases hn; exact absurd (hl.2.2 h hm rfl) (by decide))

/-! ## The store's mutex -/

abbrev Inner {ρ : Type} (p : SProg ρ) : Prop := Avoids Mtx.store p

/-- Solves `Inner` goals for loop-free bodies. -/
macro "inner" : tactic => `(tactic| (
  repeat' first
    | trivial
    | (intro _)
    | (refine ⟨(by decide), ?_⟩)
    | (dsimp only [Prog.excl, Prog.shared, Prog.bind, Avoids])
    | (unfold Inner)
    | split))

theorem inner_newNode (o : Order (Int × Unit)) (e : NEnt) (opts : List Graph.Opt) :
    Inner (newNodeN .graph o e opts) := by unfold newNodeN; inner

theorem inner_addNode (n : Node) (opts : List Graph.Opt) : Inner (addNodeP .graph n opts) := by unfold addNodeP; inner

theorem inner_node (u : Option Uid) : Inner (nodeN .graph u) := by
  cases u with
  | none => unfold nodeN; inner
  | some u => unfold nodeN nodeP; inner

theorem inner_removeNode (u : Option Uid) : Inner (removeNodeN .graph u) := by
  cases u with
  | none => unfold removeNodeN; inner
  | some u => unfold removeNodeN removeNodeP; inner

theorem inner_unlink (f t : Option Uid) : Inner (unlinkN .graph f t) := by
  rcases f with _ | f <;> rcases t with _ | t
  · unfold unlinkN; inner
  · unfold unlinkN; inner
  · unfold unlinkN; inner
  · unfold unlinkN unlinkP; inner

theorem inner_link (fresh : Uid) (a : Nat) (f t : Option Uid) (opts : List Graph.Opt) :
    Inner (linkN .graph fresh a f t opts) := by
  rcases f with _ | f <;> rcases t with _ | t
  · unfold linkN edgeN; inner
  · unfold linkN edgeN; inner
  · unfold linkN edgeN; inner
  · unfold linkN linkP edgeP Graph.linkApplyP; inner

theorem inner_add (o : Order (Int × Unit)) (e : NEnt) (opts : List SOpt) : Inner (addN o e opts) := by
  unfold addN
  refine Avoids.bind ?_ (inner_newNode o e _)
  intro x
  split
  · trivial
  · trivial
  · split
    · exact Avoids.bind (by intro x; split <;> trivial) (inner_addNode _ _)
    · exact Avoids.bind (by intro x; split <;> trivial) (inner_addNode _ _)

theorem inner_get (u : Option Uid) : Inner (getN u) :=
  Avoids.bind (by intro x; split <;> trivial) (inner_node u)

theorem inner_delete (u : Option Uid) : Inner (deleteN u) :=
  Avoids.bind (by intro x; split <;> trivial) (inner_removeNode u)

theorem inner_storeLink (fresh : Uid) (a : Nat) (f t : Option Uid) (opts : List SOpt) :
    Inner (storeLinkN fresh a f t opts) :=
  Avoids.bind (by intro x; split <;> trivial) (inner_link fresh a f t _)

theorem inner_storeUnlink (f t : Option Uid) : Inner (storeUnlinkN f t) :=
  Avoids.bind (by intro x; split <;> trivial) (inner_unlink f t)

theorem inner_loop {α : Type} {f : α → SProg (Res Err Unit)} (hf : ∀ x, Inner (f x)) (l : List α) : Inner (loopP f l) := by
  induction l with
  | nil => trivial
  | cons x xs ih => exact Avoids.bind (by intro x; split <;> first | exact ih | trivial) (hf x)

theorem inner_bulkGet (us : List (Option Uid)) : ∀ ents, Inner (bulkGetN us ents) := by
  induction us with
  | nil => exact fun _ => trivial
  | cons u us ih => exact fun ents => Avoids.bind (by intro x; split <;> first | exact ih _ | trivial) (inner_get u)

theorem leaves_store (op : NOp) : Leaves Mtx.store (fun _ n => n = 0) (progN op) (.rd 0) := by
  have ho : ∀ {ρ : Type} {f : ρ → COut} {p : SProg ρ}, Inner p → Inner (out f p) :=
    fun {_ f _} h => Avoids.bind (f := fun r => .ret (f r)) (fun _ => trivial) h
  cases op with
  | add o e opts => exact leaves_excl (ho (inner_add o e opts))
  | get u => exact leaves_shared (ho (inner_get u))
  | delete u => exact leaves_excl (ho (inner_delete u))
  | link fresh a f t opts => exact leaves_excl (ho (inner_storeLink fresh a f t opts))
  | unlink f t => exact leaves_excl (ho (inner_storeUnlink f t))
  | bulkAdd es opts => exact leaves_excl (ho (inner_loop (fun x => inner_add x.1 x.2 opts) es))
  | bulkGet us => exact leaves_shared (ho (inner_bulkGet us _))
  | bulkDelete us => exact leaves_excl (ho (inner_loop inner_delete us))
  | bulkLink f us opts => exact leaves_excl (ho (inner_loop (fun x => inner_storeLink x.1 x.2.1 f x.2.2 opts) us))
  | bulkUnlink f us => exact leaves_excl (ho (inner_loop (inner_storeUnlink f) us))

/-! ## Calls that need the graph's mutex -/

theorem mustLock_add (o : Order (Int × Unit)) (e : NEnt) (opts : List SOpt) : MustLock Mtx.graph (addN o e opts) :=
  MustLock.bind (.inl rfl)

theorem mustLock_progN_add (o : Order (Int × Unit)) (e : NEnt) (opts : List SOpt) :
    MustLock Mtx.graph (progN (.add o e opts)) := .inr (MustLock.bind (MustLock.bind (mustLock_add o e opts)))

theorem mustLock_progN_bulkAdd (x : Order (Int × Unit) × NEnt) (es : List (Order (Int × Unit) × NEnt))
    (opts : List SOpt) : MustLock Mtx.graph (progN (.bulkAdd (x :: es) opts)) :=
  .inr (MustLock.bind (MustLock.bind (MustLock.bind (mustLock_add x.1 x.2 opts))))

theorem mustUse_get (u : Option Uid) : MustUse Mtx.graph (getN u) := by
  cases u <;> exact MustUse.bind (.inl rfl)

theorem mustUse_delete (u : Option Uid) : MustUse Mtx.graph (deleteN u) := by
  cases u <;> exact MustUse.bind (.inl rfl)

theorem mustUse_link (fresh : Uid) (a : Nat) (f t : Option Uid) (opts : List SOpt) :
    MustUse Mtx.graph (storeLinkN fresh a f t opts) := by
  rcases f with _ | f <;> rcases t with _ | t <;> exact MustUse.bind (.inl rfl)

theorem mustUse_unlink (f t : Option Uid) : MustUse Mtx.graph (storeUnlinkN f t) := by
  rcases f with _ | f <;> rcases t with _ | t <;> exact MustUse.bind (.inl rfl)

theorem mustUse_progN (op : NOp) (h : ¬ Empty op) : MustUse Mtx.graph (progN op) := by
  cases op with
  | add o e opts => exact (mustLock_progN_add o e opts).use
  | get u => exact .inr (MustUse.bind (MustUse.bind (mustUse_get u)))
  | delete u => exact .inr (MustUse.bind (MustUse.bind (mustUse_delete u)))
  | link fresh a f t opts => exact .inr (MustUse.bind (MustUse.bind (mustUse_link fresh a f t opts)))
  | unlink f t => exact .inr (MustUse.bind (MustUse.bind (mustUse_unlink f t)))
  | bulkAdd es opts =>
    cases es with
    | nil => exact absurd rfl h
    | cons x es => exact (mustLock_progN_bulkAdd x es opts).use
  | bulkGet us =>
    cases us with
    | nil => exact absurd rfl h
    | cons u us => exact .inr (MustUse.bind (MustUse.bind (MustUse.bind (mustUse_get u))))
  | bulkDelete us =>
    cases us with
    | nil => exact absurd rfl h
    | cons u us => exact .inr (MustUse.bind (MustUse.bind (MustUse.bind (mustUse_delete u))))
  | bulkLink f us opts =>
    cases us with
    | nil => exact absurd rfl h
    | cons x us => exact .inr (MustUse.bind (MustUse.bind (MustUse.bind (mustUse_link x.1 x.2.1 f x.2.2 opts))))
  | bulkUnlink f us =>
    cases us with
    | nil => exact absurd rfl h
    | cons u us => exact .inr (MustUse.bind (MustUse.bind (MustUse.bind (mustUse_unlink f u))))

end Netscrape.Store
