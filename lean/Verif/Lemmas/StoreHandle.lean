import Verif.Lemmas.Erase
import Verif.Lemmas.GraphDisc
import Verif.Lemmas.Ordered
import Verif.Lemmas.StoreConc

/-!
# How the store's methods and the graph's use the two mutexes
-/

namespace Netscrape.Conc
open Netscrape.Spec

variable {μ κ σ ρ Op Out : Type} [DecidableEq μ]

/-- The discipline of one program followed by another. -/
theorem Disc.bind {α β : Type} {m : μ} {prot : κ → Prop} {flat : Prop} {f : α → Prog μ κ σ β}
    (hf : ∀ x, Disc m prot True flat (f x) (.rd 0)) {p : Prog μ κ σ α} :
    ∀ {h : Hold}, Disc m prot True flat p h → Disc m prot True flat (p.bind f) h := by
  induction p with
  | ret r =>
    rintro h ⟨n, rfl, hn⟩
    rw [hn trivial]
    exact hf r
  | lock m' k ih =>
    intro h hd
    simp only [Disc, Prog.bind] at hd ⊢
    split at hd
    · next e => rw [if_pos e]; exact ⟨hd.1, ih hd.2⟩
    · next e => rw [if_neg e]; exact ⟨hd.1, ih hd.2⟩
  | acquire m' k ih =>
    intro h hd
    simp only [Disc, Prog.bind] at hd ⊢
    split at hd
    · next e => rw [if_pos e]; exact ⟨hd.1, ih hd.2⟩
    · next e => rw [if_neg e]; exact ⟨hd.1, ih hd.2⟩
  | unlock m' k ih =>
    intro h hd
    simp only [Disc, Prog.bind] at hd ⊢
    split at hd
    · next e => rw [if_pos e]; exact ⟨hd.1, ih hd.2⟩
    · next e => rw [if_neg e]; exact ⟨hd.1, ih hd.2⟩
  | rlock m' k ih =>
    intro h hd
    simp only [Disc, Prog.bind] at hd ⊢
    split at hd
    · next e => rw [if_pos e]; obtain ⟨n, h1, h2, h3⟩ := hd; exact ⟨n, h1, h2, ih h3⟩
    · next e => rw [if_neg e]; exact ⟨hd.1, ih hd.2⟩
  | runlock m' k ih =>
    intro h hd
    simp only [Disc, Prog.bind] at hd ⊢
    split at hd
    · next e => rw [if_pos e]; obtain ⟨n, h1, h2⟩ := hd; exact ⟨n, h1, ih h2⟩
    · next e => rw [if_neg e]; exact ⟨hd.1, ih hd.2⟩
  | read l k ih => exact fun hd => ⟨hd.1, hd.2.1, fun s => ih s (hd.2.2 s)⟩
  | write l f k ih => exact fun hd => ⟨hd.1, hd.2.1, fun s => ih s (hd.2.2 s)⟩

end Netscrape.Conc

namespace Netscrape.Store
open Netscrape.Conc Netscrape.Spec.Handle
open Netscrape.Graph (Ent Node Edge WG St Opt GProg newNodeP addNodeP nodeP removeNodeP linkP unlinkP
  edgeP linkApplyP nodesP edgesP fromP)

/-- Solves `Disc` goals about the two mutexes for loop-free bodies. -/
macro "disc2" : tactic => `(tactic| (
  repeat' first
    | (refine ⟨0, rfl, fun _ => rfl⟩)
    | (intro _)
    | (refine ⟨rfl, ?_⟩)
    | (refine ⟨_, rfl, fun _ => rfl, ?_⟩)
    | (refine ⟨_, rfl, False.elim, ?_⟩)
    | (refine ⟨_, rfl, False.elim⟩)
    | (refine ⟨_, rfl, ?_⟩)
    | (refine ⟨Hold.noConfusion, by first | exact fun _ => Hold.noConfusion | exact fun _ => rfl
                                          | exact fun h => absurd rfl h.1 | exact fun h => absurd rfl h
                                          | (intro h; cases h; done) | (intro _ h; cases h; done), ?_⟩)
    | (refine ⟨Hold.noConfusion, ?_⟩)
    | (refine ⟨(by intro h; cases h), ?_⟩)
    | (dsimp only [Prog.excl, Prog.shared, Prog.bind, Disc])
    | (rw [if_pos rfl])
    | (rw [if_neg (by decide)])
    | split))

/-- The graph's locations that its mutex protects. -/
abbrev shared := Graph.shared

theorem disc_node (u : Uid) : Disc Mtx.graph shared True False (nodeP Mtx.graph u) (.rd 0) := by
  unfold nodeP; disc2

theorem disc_newNode (o : Order (Int × Unit)) (e : Ent) (opts : List Opt) :
    Disc Mtx.graph shared True False (newNodeP Mtx.graph o e opts) (.rd 0) := by
  unfold newNodeP; disc2

theorem disc_addNode (n : Node) (opts : List Opt) :
    Disc Mtx.graph shared True False (addNodeP Mtx.graph n opts) (.rd 0) := by
  unfold addNodeP; disc2

theorem disc_removeNode (u : Uid) : Disc Mtx.graph shared True False (removeNodeP Mtx.graph u) (.rd 0) := by
  unfold removeNodeP; disc2

theorem disc_link (fresh : Uid) (a : Nat) (f t : Uid) (opts : List Opt) :
    Disc Mtx.graph shared True False (linkP Mtx.graph fresh a f t opts) (.rd 0) := by
  unfold linkP edgeP linkApplyP; disc2

theorem disc_unlink (f t : Uid) : Disc Mtx.graph shared True False (unlinkP Mtx.graph f t) (.rd 0) := by
  unfold unlinkP; disc2

private theorem dret {ρ : Type} (r : ρ) : Disc Mtx.graph shared True False (.ret r : SProg ρ) (.rd 0) :=
  ⟨0, rfl, fun _ => rfl⟩

theorem disc_get (u : Uid) : Disc Mtx.graph shared True False (getP u) (.rd 0) :=
  Disc.bind (fun r => by split <;> exact dret _) (disc_node u)

theorem disc_add (o : Order (Int × Unit)) (e : Ent) (opts : List SOpt) :
    Disc Mtx.graph shared True False (addP o e opts) (.rd 0) := by
  refine Disc.bind (fun r => ?_) (disc_newNode _ _ _)
  split
  · exact dret _
  · exact dret _
  · split <;> exact Disc.bind (fun r => by split <;> exact dret _) (disc_addNode _ _)

theorem disc_delete (u : Uid) : Disc Mtx.graph shared True False (deleteP u) (.rd 0) :=
  Disc.bind (fun r => by split <;> exact dret _) (disc_removeNode u)

theorem disc_storeLink (fresh : Uid) (a : Nat) (f t : Uid) (opts : List SOpt) :
    Disc Mtx.graph shared True False (storeLinkP fresh a f t opts) (.rd 0) :=
  Disc.bind (fun r => by split <;> exact dret _) (disc_link _ _ _ _ _)

theorem disc_storeUnlink (f t : Uid) : Disc Mtx.graph shared True False (storeUnlinkP f t) (.rd 0) :=
  Disc.bind (fun r => by split <;> exact dret _) (disc_unlink f t)

theorem disc_loop {α : Type} (f : α → SProg (Res Err Unit)) (hf : ∀ x, Disc Mtx.graph shared True False (f x) (.rd 0))
    (xs : List α) : Disc Mtx.graph shared True False (loopP f xs) (.rd 0) := by
  induction xs with
  | nil => exact dret _
  | cons x xs ih =>
    refine Disc.bind (fun r => ?_) (hf x)
    split
    · exact ih
    · exact dret _
    · exact dret _

theorem disc_bulkGet (us : List Uid) : ∀ ents, Disc Mtx.graph shared True False (bulkGetP us ents) (.rd 0) := by
  induction us with
  | nil => exact fun _ => dret _
  | cons u us ih =>
    intro ents
    refine Disc.bind (fun r => ?_) (disc_get u)
    split
    · exact ih _
    · exact dret _
    · exact dret _

private theorem disc_out {ρ : Type} (f : ρ → COut) {p : SProg ρ} (h : Disc Mtx.graph shared True False p (.rd 0)) :
    Disc Mtx.graph shared True False (out f p) (.rd 0) := Disc.bind (fun _ => dret _) h

private theorem disc_excl {ρ : Type} {p : SProg ρ} (h : Disc Mtx.graph shared True False p (.rd 0)) :
    Disc Mtx.graph shared True False (p.excl .store) (.rd 0) := by
  unfold Prog.excl
  simp only [Disc, reduceCtorEq, if_false]
  refine ⟨Hold.noConfusion, Disc.bind (fun r => ?_) h⟩
  simp only [Disc, reduceCtorEq, if_false]
  exact ⟨Hold.noConfusion, 0, rfl, fun _ => rfl⟩

private theorem disc_shared {ρ : Type} {p : SProg ρ} (h : Disc Mtx.graph shared True False p (.rd 0)) :
    Disc Mtx.graph shared True False (p.shared .store) (.rd 0) := by
  unfold Prog.shared
  simp only [Disc, reduceCtorEq, if_false]
  refine ⟨Hold.noConfusion, Disc.bind (fun r => ?_) h⟩
  simp only [Disc, reduceCtorEq, if_false]
  exact ⟨Hold.noConfusion, 0, rfl, fun _ => rfl⟩

/-- The store's methods touch the graph only under the graph's mutex. -/
theorem disc_prog (op : COp) : Disc Mtx.graph shared True False (prog op) (.rd 0) := by
  cases op with
  | add o e opts => exact disc_excl (disc_out _ (disc_add _ _ _))
  | get u => exact disc_shared (disc_out _ (disc_get _))
  | delete u => exact disc_excl (disc_out _ (disc_delete _))
  | link fresh a f t opts => exact disc_excl (disc_out _ (disc_storeLink _ _ _ _ _))
  | unlink f t => exact disc_excl (disc_out _ (disc_storeUnlink _ _))
  | bulkAdd es opts => exact disc_excl (disc_out _ (disc_loop _ (fun _ => disc_add _ _ _) _))
  | bulkGet us => exact disc_shared (disc_out _ (disc_bulkGet _ _))
  | bulkDelete us => exact disc_excl (disc_out _ (disc_loop _ disc_delete _))
  | bulkLink f us opts => exact disc_excl (disc_out _ (disc_loop _ (fun _ => disc_storeLink _ _ _ _ _) _))
  | bulkUnlink f us => exact disc_excl (disc_out _ (disc_loop _ (disc_storeUnlink f) _))

/-! ## Calls on the graph that look -/

theorem looks_graph (op : Graph.COp) (h : Looks op) :
    Disc Mtx.graph shared True True (Graph.prog Mtx.graph op) (.rd 0) := by
  cases op with
  | node u => simp only [Graph.prog, nodeP]; disc2
  | nodes o => simp only [Graph.prog, nodesP]; disc2
  | edge u v => simp only [Graph.prog, edgeP]; disc2
  | edges o => simp only [Graph.prog, edgesP]; disc2
  | from' o u => simp only [Graph.prog, fromP]; disc2
  | _ => exact h.elim

/-- They do not use the store's mutex, nor the memory of attribute sets. -/
theorem looks_store (op : Graph.COp) (h : Looks op) :
    Disc Mtx.store (fun l => l = .heap) True True (Graph.prog Mtx.graph op) (.rd 0) := by
  cases op with
  | node u => simp only [Graph.prog, nodeP]; disc2
  | nodes o => simp only [Graph.prog, nodesP]; disc2
  | edge u v => simp only [Graph.prog, edgeP]; disc2
  | edges o => simp only [Graph.prog, edgesP]; disc2
  | from' o u => simp only [Graph.prog, fromP]; disc2
  | _ => exact h.elim

theorem looks_tame (op : Graph.COp) (h : Looks op) : Tame Mtx.graph (Graph.prog Mtx.graph op) := by
  cases op with
  | node u =>
    simp only [Graph.prog, nodeP, Prog.shared, Prog.bind, Tame]
    refine ⟨trivial, fun s => ?_⟩
    split <;> exact ⟨rfl, trivial⟩
  | nodes o => exact ⟨rfl, fun _ => ⟨rfl, trivial⟩⟩
  | edge u v =>
    simp only [Graph.prog, edgeP, Prog.shared, Prog.bind, Tame]
    refine ⟨trivial, fun s => ?_⟩
    split
    · exact ⟨rfl, trivial⟩
    · intro s; dsimp only; split
      · exact ⟨rfl, trivial⟩
      · intro s; dsimp only; split <;> exact ⟨rfl, trivial⟩
  | edges o => exact ⟨rfl, fun _ => ⟨rfl, trivial⟩⟩
  | from' o u =>
    simp only [Graph.prog, fromP, Prog.bind, Tame]
    refine ⟨trivial, fun s => ?_⟩
    split
    · exact ⟨rfl, trivial⟩
    · exact fun _ => ⟨rfl, trivial⟩
  | _ => exact h.elim

/-! ## Both -/

private theorem tag {m : Mtx} {prot : Graph.Loc → Prop} {flat : Prop} {α β : Type} {p : SProg α} (f : α → β)
    (h : Disc m prot True flat p (.rd 0)) : Disc m prot True flat (p.bind fun r => .ret (f r)) (.rd 0) :=
  Disc.bind (f := fun r => .ret (f r)) (fun _ => ⟨0, rfl, fun _ => rfl⟩) h

theorem handle_graph (op : Handle.Op) (h : Quiet op) :
    Disc Mtx.graph shared True False (Handle.prog op) (.rd 0) := by
  cases op with
  | inl o => exact tag _ (disc_prog o)
  | inr o => exact tag _ ((looks_graph o h).mono (fun _ h => h) id False.elim)

theorem handle_store (op : Handle.Op) (h : Quiet op) :
    Disc Mtx.store (fun l => l = .heap) True True (Handle.prog op) (.rd 0) := by
  cases op with
  | inl o => exact tag _ ((one_prog o).disc.mono (fun _ _ => trivial) id id)
  | inr o => exact tag _ (looks_store o h)

theorem handle_disc (m : Mtx) (op : Handle.Op) (h : Quiet op) :
    Disc m (fun _ => False) True False (Handle.prog op) (.rd 0) := by
  cases m with
  | store => exact (handle_store op h).mono (fun _ h => h.elim) id False.elim
  | graph => exact (handle_graph op h).mono (fun _ h => h.elim) id id

theorem store_disc (m : Mtx) (op : COp) : Disc m (fun _ => False) True False (prog op) (.rd 0) := by
  cases m with
  | store => exact (one_prog op).disc.mono (fun _ h => h.elim) id False.elim
  | graph => exact (disc_prog op).mono (fun _ h => h.elim) id id

/-- The store's side of an execution in which the graph is only looked at. -/
theorem quiet_erase {s : St} {c : Cfg Mtx Graph.Loc St Handle.Op Handle.Out} (hr : Reach Handle.prog Quiet s c) :
    ∃ g c', Reach prog (fun _ => True) s c' ∧ Sim Mtx.graph g c c' :=
  erase (ok := Quiet) handle_disc (fun m op _ => store_disc m op) looks_tame hr

theorem quiet_no_deadlock {s : St} {c : Cfg Mtx Graph.Loc St Handle.Op Handle.Out}
    (hr : Reach Handle.prog Quiet s c) : ¬ Spec.Deadlock Handle.prog c :=
  no_deadlock_erase (ok := Quiet) handle_disc (fun m op _ => store_disc m op) looks_tame
    (fun op h => (tag _ (looks_graph op h)).mono (fun _ h => h.elim) id id)
    (fun _ hr' => no_deadlock_two (by decide) (fun op _ => two_prog op) hr') hr

/-! ## Without nested read locks -/

private theorem disc_flat {ρ : Type} (r : ρ) : Disc Mtx.graph shared True True (.ret r : SProg ρ) (.rd 0) :=
  ⟨0, rfl, fun _ => rfl⟩

theorem flat_node (u : Uid) : Disc Mtx.graph shared True True (nodeP Mtx.graph u) (.rd 0) := by
  unfold nodeP; disc2

theorem flat_newNode (o : Order (Int × Unit)) (e : Ent) (opts : List Opt) :
    Disc Mtx.graph shared True True (newNodeP Mtx.graph o e opts) (.rd 0) := by
  unfold newNodeP; disc2

theorem flat_addNode (n : Node) (opts : List Opt) :
    Disc Mtx.graph shared True True (addNodeP Mtx.graph n opts) (.rd 0) := by
  unfold addNodeP; disc2

theorem flat_removeNode (u : Uid) : Disc Mtx.graph shared True True (removeNodeP Mtx.graph u) (.rd 0) := by
  unfold removeNodeP; disc2

theorem flat_unlink (f t : Uid) : Disc Mtx.graph shared True True (unlinkP Mtx.graph f t) (.rd 0) := by
  unfold unlinkP; disc2

theorem flat_get (u : Uid) : Disc Mtx.graph shared True True (getP u) (.rd 0) :=
  Disc.bind (fun r => by split <;> exact disc_flat _) (flat_node u)

theorem flat_add (o : Order (Int × Unit)) (e : Ent) (opts : List SOpt) :
    Disc Mtx.graph shared True True (addP o e opts) (.rd 0) := by
  refine Disc.bind (fun r => ?_) (flat_newNode _ _ _)
  split
  · exact disc_flat _
  · exact disc_flat _
  · split <;> exact Disc.bind (fun r => by split <;> exact disc_flat _) (flat_addNode _ _)

theorem flat_delete (u : Uid) : Disc Mtx.graph shared True True (deleteP u) (.rd 0) :=
  Disc.bind (fun r => by split <;> exact disc_flat _) (flat_removeNode u)

theorem flat_storeUnlink (f t : Uid) : Disc Mtx.graph shared True True (storeUnlinkP f t) (.rd 0) :=
  Disc.bind (fun r => by split <;> exact disc_flat _) (flat_unlink f t)

theorem flat_loop {α : Type} (f : α → SProg (Res Err Unit)) (hf : ∀ x, Disc Mtx.graph shared True True (f x) (.rd 0))
    (xs : List α) : Disc Mtx.graph shared True True (loopP f xs) (.rd 0) := by
  induction xs with
  | nil => exact disc_flat _
  | cons x xs ih =>
    refine Disc.bind (fun r => ?_) (hf x)
    split
    · exact ih
    · exact disc_flat _
    · exact disc_flat _

theorem flat_bulkGet (us : List Uid) : ∀ ents, Disc Mtx.graph shared True True (bulkGetP us ents) (.rd 0) := by
  induction us with
  | nil => exact fun _ => disc_flat _
  | cons u us ih =>
    intro ents
    refine Disc.bind (fun r => ?_) (flat_get u)
    split
    · exact ih _
    · exact disc_flat _
    · exact disc_flat _

private theorem flat_excl {ρ : Type} {p : SProg ρ} (h : Disc Mtx.graph shared True True p (.rd 0)) :
    Disc Mtx.graph shared True True (p.excl .store) (.rd 0) := by
  unfold Prog.excl
  simp only [Disc, reduceCtorEq, if_false]
  refine ⟨Hold.noConfusion, Disc.bind (fun r => ?_) h⟩
  simp only [Disc, reduceCtorEq, if_false]
  exact ⟨Hold.noConfusion, 0, rfl, fun _ => rfl⟩

private theorem flat_shared {ρ : Type} {p : SProg ρ} (h : Disc Mtx.graph shared True True p (.rd 0)) :
    Disc Mtx.graph shared True True (p.shared .store) (.rd 0) := by
  unfold Prog.shared
  simp only [Disc, reduceCtorEq, if_false]
  refine ⟨Hold.noConfusion, Disc.bind (fun r => ?_) h⟩
  simp only [Disc, reduceCtorEq, if_false]
  exact ⟨Hold.noConfusion, 0, rfl, fun _ => rfl⟩

/-- The store's methods but `Link` and `BulkLink` do not nest read locks of the graph's mutex. -/
theorem flat_prog (op : COp) (h : Plain (.inl op)) : Disc Mtx.graph shared True True (prog op) (.rd 0) := by
  cases op with
  | add o e opts => exact flat_excl (Disc.tag (flat_add _ _ _))
  | get u => exact flat_shared (Disc.tag (flat_get _))
  | delete u => exact flat_excl (Disc.tag (flat_delete _))
  | link fresh a f t opts => exact h.elim
  | unlink f t => exact flat_excl (Disc.tag (flat_storeUnlink _ _))
  | bulkAdd es opts => exact flat_excl (Disc.tag (flat_loop _ (fun _ => flat_add _ _ _) _))
  | bulkGet us => exact flat_shared (Disc.tag (flat_bulkGet _ _))
  | bulkDelete us => exact flat_excl (Disc.tag (flat_loop _ flat_delete _))
  | bulkLink f us opts => exact h.elim
  | bulkUnlink f us => exact flat_excl (Disc.tag (flat_loop _ (flat_storeUnlink f) _))

/-- The graph's methods but `SubGraph`. -/
theorem graph_disc (op : Graph.COp) (h : ¬ Graph.isSubGraph op) :
    Disc Mtx.graph shared False False (Graph.prog Mtx.graph op) (.rd 0) := by
  cases op with
  | newNode o e opts => exact Disc.tag ((disc_newNode o e opts).mono (fun _ => id) False.elim id)
  | addNode n opts => exact Disc.tag ((disc_addNode n opts).mono (fun _ => id) False.elim id)
  | addForeign => exact ⟨0, rfl, fun _ => rfl⟩
  | node u => exact (looks_graph (.node u) trivial).mono (fun _ => id) False.elim False.elim
  | nodes o => exact (looks_graph (.nodes o) trivial).mono (fun _ => id) False.elim False.elim
  | removeNode u => exact Disc.tag ((disc_removeNode u).mono (fun _ => id) False.elim id)
  | link fresh a f t opts => exact Disc.tag ((disc_link fresh a f t opts).mono (fun _ => id) False.elim id)
  | edge u v => exact (looks_graph (.edge u v) trivial).mono (fun _ => id) False.elim False.elim
  | edges o => exact (looks_graph (.edges o) trivial).mono (fun _ => id) False.elim False.elim
  | from' o u => exact (looks_graph (.from' o u) trivial).mono (fun _ => id) False.elim False.elim
  | unlink f t => exact Disc.tag ((disc_unlink f t).mono (fun _ => id) False.elim id)
  | subGraph ora u d opts => exact absurd trivial h
  | dot => simp only [Graph.prog, Graph.dotP]; disc2

/-- Nothing on the graph's maps races, but with `SubGraph`. -/
theorem noSub_disc (op : Handle.Op) (h : NoSub op) : Disc Mtx.graph shared False False (Handle.prog op) (.rd 0) := by
  cases op with
  | inl o => exact Disc.tag ((disc_prog o).mono (fun _ => id) False.elim id)
  | inr o => exact Disc.tag (graph_disc o (fun hs => by cases o <;> first | exact h | exact hs))

/-! `SubGraph` takes no locks in its loops. -/

theorem noLock_linkPeers (ora : Graph.SubOracle) (sgNodes : GoMap Int Node) (id : Int) (x : Node) :
    ∀ (ps : List Node) (sg : WG) (k : WG → SProg (Res Graph.Err WG)),
    (∀ sg', Disc Mtx.graph (fun _ => False) True True (k sg') (.rd 0)) →
    Disc Mtx.graph (fun _ => False) True True (Graph.linkPeersP ora sgNodes id x ps sg k) (.rd 0) := by
  intro ps
  induction ps with
  | nil => intro sg k hk; exact hk sg
  | cons p ps ih =>
    intro sg k hk
    unfold Graph.linkPeersP
    split
    · exact ih sg k hk
    · refine ⟨Hold.noConfusion, False.elim, fun s => ⟨Hold.noConfusion, False.elim, fun s' => ?_⟩⟩
      dsimp only
      split
      · exact ih _ k hk
      · exact ⟨0, rfl, fun _ => rfl⟩
      · exact ⟨0, rfl, fun _ => rfl⟩

theorem noLock_linkNodes (ora : Graph.SubOracle) (sgNodes : GoMap Int Node) :
    ∀ (l : List (Int × Node)) (sg : WG),
    Disc Mtx.graph (fun _ => False) True True (Graph.linkNodesP ora sgNodes l sg) (.rd 0) := by
  intro l
  induction l with
  | nil => intro sg; exact ⟨0, rfl, fun _ => rfl⟩
  | cons p l ih =>
    intro sg
    exact ⟨Hold.noConfusion, False.elim, fun s => noLock_linkPeers ora sgNodes p.1 p.2 _ sg _ ih⟩

theorem flat_subGraph (ora : Graph.SubOracle) (u : Uid) (d : Int) (opts : List Opt) :
    Disc Mtx.graph (fun _ => False) True True (Graph.subGraphP Mtx.graph ora u d opts) (.rd 0) := by
  refine ⟨0, rfl, fun _ => rfl, Hold.noConfusion, False.elim, fun s => ?_⟩
  dsimp only
  cases s.g.nodes.get? u.str with
  | none => exact ⟨0, rfl, 0, rfl, fun _ => rfl⟩
  | some root =>
    refine ⟨0, rfl, 0, rfl, fun _ => rfl, Hold.noConfusion, False.elim, fun s => ⟨0, rfl, ?_⟩⟩
    generalize Gonum.Bfs.walk s.g.b ora.bfs Graph.collect (fun _ x => x == d) root _ = w
    cases w with
    | none => exact ⟨0, rfl, fun _ => rfl⟩
    | some w =>
      dsimp only
      cases w.acc.err with
      | some e => exact ⟨0, rfl, fun _ => rfl⟩
      | none => exact noLock_linkNodes ora _ _ _

theorem flat_graph (op : Graph.COp) (h : Plain (.inr op)) :
    Disc Mtx.graph (fun _ => False) True True (Graph.prog Mtx.graph op) (.rd 0) := by
  cases op with
  | newNode o e opts => exact Disc.tag ((flat_newNode o e opts).mono (fun _ h => h.elim) id id)
  | addNode n opts => exact Disc.tag ((flat_addNode n opts).mono (fun _ h => h.elim) id id)
  | addForeign => exact ⟨0, rfl, fun _ => rfl⟩
  | node u => exact (looks_graph (.node u) trivial).mono (fun _ h => h.elim) id id
  | nodes o => exact (looks_graph (.nodes o) trivial).mono (fun _ h => h.elim) id id
  | removeNode u => exact Disc.tag ((flat_removeNode u).mono (fun _ h => h.elim) id id)
  | link fresh a f t opts => exact h.elim
  | edge u v => exact (looks_graph (.edge u v) trivial).mono (fun _ h => h.elim) id id
  | edges o => exact (looks_graph (.edges o) trivial).mono (fun _ h => h.elim) id id
  | from' o u => exact (looks_graph (.from' o u) trivial).mono (fun _ h => h.elim) id id
  | unlink f t => exact Disc.tag ((flat_unlink f t).mono (fun _ h => h.elim) id id)
  | subGraph ora u d opts => exact Disc.tag (flat_subGraph ora u d opts)
  | dot => exact h.elim

/-! The graph's methods use only the graph's mutex. -/

/-- Solves `Uses` goals for loop-free bodies. -/
macro "uses" : tactic => `(tactic| (
  repeat' first
    | trivial
    | (refine ⟨rfl, ?_⟩)
    | (intro _)
    | (dsimp only [Prog.excl, Prog.shared, Prog.bind, Uses])
    | split))

theorem uses_linkPeers (ora : Graph.SubOracle) (sgNodes : GoMap Int Node) (id : Int) (x : Node) :
    ∀ (ps : List Node) (sg : WG) (k : WG → SProg (Res Graph.Err WG)), (∀ sg', Uses Mtx.graph (k sg')) →
    Uses Mtx.graph (Graph.linkPeersP ora sgNodes id x ps sg k) := by
  intro ps
  induction ps with
  | nil => intro sg k hk; exact hk sg
  | cons p ps ih =>
    intro sg k hk
    unfold Graph.linkPeersP
    split
    · exact ih sg k hk
    · intro s s'
      dsimp only
      split
      · exact ih _ k hk
      · trivial
      · trivial

theorem uses_linkNodes (ora : Graph.SubOracle) (sgNodes : GoMap Int Node) :
    ∀ (l : List (Int × Node)) (sg : WG), Uses Mtx.graph (Graph.linkNodesP ora sgNodes l sg : SProg _) := by
  intro l
  induction l with
  | nil => intro sg; trivial
  | cons p l ih =>
    intro sg s
    exact uses_linkPeers ora sgNodes p.1 p.2 _ sg _ ih

theorem uses_graph (op : Graph.COp) : Uses Mtx.graph (Graph.prog Mtx.graph op) := by
  cases op with
  | newNode o e opts => simp only [Graph.prog, newNodeP]; uses
  | addNode n opts => simp only [Graph.prog, addNodeP]; uses
  | addForeign => trivial
  | node u => simp only [Graph.prog, nodeP]; uses
  | nodes o => simp only [Graph.prog, nodesP]; uses
  | removeNode u => simp only [Graph.prog, removeNodeP]; uses
  | link fresh a f t opts => simp only [Graph.prog, linkP, edgeP, linkApplyP]; uses
  | edge u v => simp only [Graph.prog, edgeP]; uses
  | edges o => simp only [Graph.prog, edgesP]; uses
  | from' o u => simp only [Graph.prog, fromP]; uses
  | unlink f t => simp only [Graph.prog, unlinkP]; uses
  | subGraph ora u d opts =>
    refine Uses.bind (f := fun r => .ret (Graph.COut.graph r)) (fun _ => trivial) ⟨rfl, fun s => ?_⟩
    dsimp only
    cases s.g.nodes.get? u.str with
    | none => exact ⟨rfl, trivial⟩
    | some root =>
      refine ⟨rfl, rfl, fun s => ⟨rfl, ?_⟩⟩
      generalize Gonum.Bfs.walk s.g.b ora.bfs Graph.collect (fun _ x => x == d) root _ = w
      cases w with
      | none => trivial
      | some w =>
        dsimp only
        cases w.acc.err with
        | some e => trivial
        | none => exact uses_linkNodes ora _ _ _
  | dot => exact ⟨rfl, fun _ => ⟨rfl, trivial⟩⟩

theorem plain_no_deadlock {s : St} {c : Cfg Mtx Graph.Loc St Handle.Op Handle.Out}
    (hr : Reach Handle.prog Plain s c) : ¬ Spec.Deadlock Handle.prog c := by
  refine no_deadlock_ordered (a := Mtx.store) (b := Mtx.graph) (by decide)
    (fun m => by cases m <;> simp) ?_ ?_ ?_ hr
  · intro op h
    cases op with
    | inl o => exact Disc.tag ((one_prog o).disc.mono (fun _ h => h.elim) id id)
    | inr o => exact Disc.tag ((uses_graph o).disc (by decide))
  · intro op h
    cases op with
    | inl o => exact Disc.tag ((flat_prog o h).mono (fun _ h => h.elim) id id)
    | inr o => exact Disc.tag (flat_graph o h)
  · intro op h
    cases op with
    | inl o => exact Ordered.tag ((two_prog o).ordered (by decide))
    | inr o => exact Ordered.tag ((uses_graph o).ordered (by decide) _)

end Netscrape.Store
