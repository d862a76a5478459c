import Verif.Lemmas.Keeps
import Verif.Lemmas.Graph
import Verif.Lemmas.GraphAttrsCalls
import Verif.Spec.Identity

/-!
# The identity of a graph is left alone
-/

namespace Netscrape.Graph
open Netscrape.Conc Netscrape.Spec Netscrape.Spec.Graph Netscrape.Spec.Identity
open Netscrape.Gonum (Builder Bfs Edges)

/-- Whether a gonum graph is directed. -/
def kind (b : Builder) : Bool := match b.edges with | .directed _ _ => true | .undirected _ => false

theorem isDirected_iff {g : WG} : isDirected g ↔ kind g.b = true := by
  unfold isDirected kind
  cases g.b.edges <;> simp

theorem same_of {g g' : WG} (h1 : g'.uid = g.uid) (h2 : g'.dotid = g.dotid) (h3 : kind g'.b = kind g.b) : Same g g' :=
  ⟨h1, h2, by rw [isDirected_iff, isDirected_iff, h3]⟩

theorem _root_.Netscrape.Spec.Identity.Same.refl (g : WG) : Same g g := ⟨rfl, rfl, Iff.rfl⟩

theorem _root_.Netscrape.Spec.Identity.Same.trans {a b c : WG} (h1 : Same a b) (h2 : Same b c) : Same a c :=
  ⟨h2.uid.trans h1.uid, h2.dotid.trans h1.dotid, h2.directed.trans h1.directed⟩

theorem kind_addNode {b b' : Builder} {n : Node} (h : b.addNode n = some b') : kind b' = kind b := by
  unfold Builder.addNode at h
  split at h
  · cases h
  · cases h; rfl

theorem kind_touch (b : Builder) (n : Node) : kind (b.touch n) = kind b := by
  unfold Builder.touch
  split
  · next b' h => exact kind_addNode h
  · rfl

theorem kind_setWeightedEdge {b b' : Builder} {e : Edge} (h : b.setWeightedEdge e = some b') : kind b' = kind b := by
  unfold Builder.setWeightedEdge at h
  split at h
  · cases h
  · cases h
    rw [← kind_touch b e.src, ← kind_touch (b.touch e.src) e.dst]
    unfold kind Edges.put
    cases ((b.touch e.src).touch e.dst).edges <;> rfl

theorem kind_removeEdge (b : Builder) (f t : Int) : kind (b.removeEdge f t) = kind b := by
  unfold Builder.removeEdge
  split
  · unfold kind Edges.cut
    cases b.edges <;> rfl
  · rfl

theorem kind_removeNode (b : Builder) (id : Int) : kind (b.removeNode id) = kind b := by
  unfold Builder.removeNode
  split
  · rfl
  · unfold kind Edges.isolate
    cases b.edges <;> rfl

theorem same_addNode (g : WG) (n : Node) (opts : List Opt) : Same g (addNode g n opts).2 := by
  unfold addNode
  repeat' split
  all_goals first
    | exact .refl g
    | exact same_of rfl rfl rfl
    | exact same_of rfl rfl (kind_addNode ‹_›)

theorem same_removeNode (g : WG) (u : Uid) : Same g (removeNode g u) := by
  unfold removeNode
  split
  · exact .refl g
  · exact same_of rfl rfl (kind_removeNode _ _)

theorem same_link (h : Heap) (g : WG) (fresh : Uid) (a : Nat) (f t : Uid) (opts : List Opt) :
    Same g (link h g fresh a f t opts).2.1 := by
  unfold link
  split
  · exact .refl g
  · unfold linkApply
    simp only
    split
    · exact .refl g
    · exact same_of rfl rfl (kind_setWeightedEdge ‹_›)

theorem same_unlink (g : WG) (f t : Uid) : Same g (unlink g f t) := by
  unfold unlink
  split
  · exact .refl g
  · exact same_of rfl rfl (kind_removeEdge _ _ _)

theorem madeWith_new (directed : Bool) (fresh : Uid) (opts : List Opt) :
    MadeWith directed fresh opts (new directed fresh opts) := by
  obtain ⟨h1, h2, _, _⟩ := applyAll_fields opts
  refine ⟨?_, ?_, ?_⟩
  · show (applyAll opts).uid.getD fresh = _
    rw [h2]
  · show (if (applyAll opts).dotid = "" then ((applyAll opts).uid.getD fresh).str else (applyAll opts).dotid) =
      if _ then ((applyAll opts).uid.getD fresh).str else _
    rw [h1]
  · cases directed <;> simp [isDirected, new, newWG, Gonum.newDirected, Gonum.newUndirected]

theorem madeWith_same {directed : Bool} {fresh : Uid} {opts : List Opt} {g g' : WG}
    (h : MadeWith directed fresh opts g) (hs : Same g g') : MadeWith directed fresh opts g' :=
  ⟨hs.uid.trans h.uid, by rw [hs.dotid, h.dotid, hs.uid], hs.directed.trans h.directed⟩

theorem same_collect (c : Collect) (n : Node) : Same c.sg (collect c n).sg := by
  have := same_addNode c.sg n []
  unfold collect
  split <;> simp_all

theorem same_linkAll {ora : SubOracle} {x y : Uid} (es : List Edge) {sg sg' : WG} {h h' : Heap}
    (he : linkAll ora x y es sg h = (.ok sg', h')) : Same sg sg' := by
  induction es generalizing sg h with
  | nil => cases he; exact .refl _
  | cons e es ih =>
    unfold linkAll at he
    simp only at he
    split at he
    · next hl =>
      refine Same.trans ?_ (ih he)
      have := same_link (Attrs.newCopyFrom h (ora.copy h.cells.length) e.attrs).2 sg (ora.edgeUid h.cells.length) 0 x y
        [.withAttrs (some (Attrs.newCopyFrom h (ora.copy h.cells.length) e.attrs).1), .withWeight e.weight]
      rw [hl] at this
      exact this
    · cases he
    · cases he

theorem same_linkPeers {ora : SubOracle} {g : WG} {m : GoMap Int Node} {id : Int} {x : Node} (ps : List Node)
    {sg sg' : WG} {h h' : Heap} (he : linkPeers ora g m id x ps sg h = (.ok sg', h')) : Same sg sg' := by
  induction ps generalizing sg h with
  | nil => cases he; exact .refl _
  | cons p ps ih =>
    unfold linkPeers at he
    split at he
    · exact ih he
    · split at he
      · next hl => exact (same_linkAll _ hl).trans (ih he)
      · exact same_linkAll _ he

theorem same_linkNodes {ora : SubOracle} {g : WG} {m : GoMap Int Node} (l : List (Int × Node))
    {sg sg' : WG} {h h' : Heap} (he : linkNodes ora g m l sg h = (.ok sg', h')) : Same sg sg' := by
  induction l generalizing sg h with
  | nil => cases he; exact .refl _
  | cons p ps ih =>
    obtain ⟨id, x⟩ := p
    unfold linkNodes at he
    split at he
    · next hl => exact (same_linkPeers _ hl).trans (ih he)
    · exact same_linkPeers _ he

theorem same_walk {b : Builder} {ord : Int → Order (Int × Edge)} {stop : Node → Int → Bool} {root : Node} {c : Collect}
    {w : Bfs Collect} (hw : Bfs.walk b ord collect stop root c = some w) : Same c.sg w.acc.sg :=
  GraphAttrs.walk_acc (P := fun a => Same c.sg a.sg) (fun a n h => h.trans (same_collect a n)) (.refl _) hw

theorem madeWith_subGraph {ora : SubOracle} {h h' : Heap} {g sg : WG} {u : Uid} {depth : Int} {opts : List Opt}
    (he : subGraph ora h g u depth opts = (.ok sg, h')) : MadeWith true ora.graphUid opts sg := by
  unfold subGraph at he
  split at he
  · cases he
  · split at he
    · cases he
    · next hw =>
      split at he
      · cases he
      · exact madeWith_same (madeWith_new true ora.graphUid opts) ((same_walk hw).trans (same_linkNodes _ he))

/-! ## Micro-steps -/

/-- The graph still has the identity of `g₀`. -/
abbrev IdI (g₀ : WG) (s : St) : Prop := Same g₀ s.g

section
variable {μ : Type} {g₀ : WG}

theorem same_step {g g' : WG} (h : Same g₀ g) (h1 : g'.uid = g.uid) (h2 : g'.dotid = g.dotid)
    (h3 : kind g'.b = kind g.b) : Same g₀ g' := h.trans (same_of h1 h2 h3)

theorem keeps_newNodeP (m : μ) (o : Order (Int × Unit)) (e : Ent) (opts : List Opt) :
    Keeps (IdI g₀) (fun _ => True) (newNodeP m o e opts) := by
  intro s hs
  dsimp only
  split
  · trivial
  · intro s hs
    refine ⟨hs, ?_⟩
    intro s' _
    dsimp only
    split <;> trivial

theorem keeps_setNode {n : Node} {s : St} (h : Same g₀ s.g) : Same g₀ (setNode n s).g := same_step h rfl rfl rfl

theorem keeps_excl {κ σ ρ : Type} {m : μ} {J : σ → Prop} {Q : ρ → Prop} {p : Prog μ κ σ ρ} (h : Keeps J Q p) :
    Keeps J Q (p.excl m) := by
  unfold Prog.excl Keeps
  refine keeps_bind (Q := Q) ?_ h
  intro a ha
  exact ha

theorem keeps_shared {κ σ ρ : Type} {m : μ} {J : σ → Prop} {Q : ρ → Prop} {p : Prog μ κ σ ρ} (h : Keeps J Q p) :
    Keeps J Q (p.shared m) := by
  unfold Prog.shared Keeps
  refine keeps_bind (Q := Q) ?_ h
  intro a ha
  exact ha

theorem keeps_addNodeP (m : μ) (n : Node) (opts : List Opt) : Keeps (IdI g₀) (fun _ => True) (addNodeP m n opts) := by
  refine keeps_excl ?_
  intro s hs
  dsimp only
  split
  · intro s hs
    dsimp only
    split
    · split
      · trivial
      · intro s hs
        refine ⟨keeps_setNode hs, fun s hs => ⟨keeps_setNode hs, trivial⟩⟩
    · intro s hs
      exact ⟨keeps_setNode hs, trivial⟩
  · intro s hs
    refine ⟨?_, ?_⟩
    · dsimp only
      cases h : s.g.b.addNode n with
      | none => exact hs
      | some b => exact same_step hs rfl rfl (kind_addNode h)
    · dsimp only
      split
      · trivial
      · exact fun s hs => ⟨keeps_setNode hs, trivial⟩

theorem keeps_nodeP (m : μ) (u : Uid) : Keeps (IdI g₀) (fun _ => True) (nodeP m u) := by
  refine keeps_shared ?_
  intro s hs
  dsimp only
  split <;> trivial

theorem keeps_removeNodeP (m : μ) (u : Uid) : Keeps (IdI g₀) (fun _ => True) (removeNodeP m u) := by
  intro s hs
  dsimp only
  split
  · trivial
  · refine keeps_excl (μ := μ) ?_
    intro s hs
    refine ⟨same_step hs rfl rfl (kind_removeNode _ _), ?_⟩
    intro s hs
    exact ⟨same_step hs rfl rfl rfl, trivial⟩

theorem keeps_edgeP (m : μ) (u v : Uid) : Keeps (IdI g₀) (fun _ => True) (edgeP m u v) := by
  refine keeps_shared ?_
  intro s hs
  dsimp only
  split
  · trivial
  · intro s hs
    dsimp only
    split
    · trivial
    · intro s hs
      dsimp only
      split <;> trivial

theorem keeps_linkApplyP (m : μ) (fresh : Uid) (a : Nat) (f t : Node) (opts : List Opt) :
    Keeps (IdI g₀) (fun _ => True) (linkApplyP m fresh a f t opts) := by
  refine keeps_excl ?_
  intro s hs
  refine ⟨hs, ?_⟩
  intro s' hs'
  refine ⟨?_, ?_⟩
  · dsimp only
    cases h : s'.g.b.setWeightedEdge (mkEdge s.heap fresh a f t opts).1 with
    | none => exact hs'
    | some b => exact same_step hs' rfl rfl (kind_setWeightedEdge h)
  · dsimp only
    split <;> trivial

theorem keeps_linkP (m : μ) (fresh : Uid) (a : Nat) (f t : Uid) (opts : List Opt) :
    Keeps (IdI g₀) (fun _ => True) (linkP m fresh a f t opts) := by
  refine keeps_bind (Q := fun _ => True) ?_ (keeps_edgeP m f t)
  intro r _
  split
  · trivial
  · intro s hs
    dsimp only
    split
    · trivial
    · intro s hs
      dsimp only
      split
      · trivial
      · exact keeps_linkApplyP m fresh a _ _ opts
  · trivial
  · trivial

theorem keeps_fromP (m : μ) (o : Order (Int × Edge)) (u : Uid) : Keeps (IdI g₀) (fun _ => True) (fromP m o u) := by
  intro s hs
  dsimp only
  split
  · trivial
  · exact fun _ _ => trivial

theorem keeps_unlinkP (m : μ) (f t : Uid) : Keeps (IdI g₀) (fun _ => True) (unlinkP m f t) := by
  intro s hs
  dsimp only
  split
  · trivial
  · intro s hs
    dsimp only
    split
    · trivial
    · intro s hs
      exact ⟨same_step hs rfl rfl (kind_removeEdge _ _ _), trivial⟩

/-- The graph returned, if one is, was made with the options. -/
def Sub (ora : SubOracle) (opts : List Opt) (r : Res Err WG) : Prop :=
  ∀ sg, r = .ok sg → MadeWith true ora.graphUid opts sg

theorem keeps_linkPeersP {ora : SubOracle} {opts : List Opt} {sgNodes : GoMap Int Node} {id : Int} {x : Node}
    {k : WG → GProg μ (Res Err WG)} (hk : ∀ sg, MadeWith true ora.graphUid opts sg → Keeps (IdI g₀) (Sub ora opts) (k sg))
    (ps : List Node) {sg : WG} (h : MadeWith true ora.graphUid opts sg) :
    Keeps (IdI g₀) (Sub ora opts) (linkPeersP ora sgNodes id x ps sg k) := by
  induction ps generalizing sg with
  | nil => exact hk sg h
  | cons p ps ih =>
    unfold linkPeersP
    split
    · exact ih h
    · intro s hs s' hs'
      refine ⟨hs', ?_⟩
      dsimp only
      split
      · next hl => exact ih (madeWith_same h (same_linkAll _ (Prod.ext hl rfl)))
      · exact nofun
      · exact nofun

theorem keeps_linkNodesP {ora : SubOracle} {opts : List Opt} {sgNodes : GoMap Int Node} (l : List (Int × Node)) {sg : WG}
    (h : MadeWith true ora.graphUid opts sg) :
    Keeps (IdI g₀) (Sub ora opts) (linkNodesP (μ := μ) ora sgNodes l sg) := by
  induction l generalizing sg with
  | nil => intro sg' he; cases he; exact h
  | cons p ps ih =>
    obtain ⟨id, x⟩ := p
    intro s hs
    exact keeps_linkPeersP (fun sg h => ih h) _ h

theorem keeps_subGraphP (m : μ) (ora : SubOracle) (u : Uid) (depth : Int) (opts : List Opt) :
    Keeps (IdI g₀) (Sub ora opts) (subGraphP m ora u depth opts) := by
  intro s hs
  dsimp only
  split
  · exact nofun
  · intro s hs
    show Keeps _ _ (Prog.runlock m _)
    unfold Keeps
    split
    · exact nofun
    · next hw =>
      split
      · exact nofun
      · exact keeps_linkNodesP _ (madeWith_same (madeWith_new true ora.graphUid opts) (same_walk hw))

/-- What is said about the results of calls on a graph. -/
def IdPost (op : COp) (out : COut) : Prop :=
  ∀ sg, out = .graph (.ok sg) → ∃ ora u d opts, op = .subGraph ora u d opts ∧ MadeWith true ora.graphUid opts sg

theorem keeps_ret {α ρ : Type} {J : St → Prop} {Q : ρ → Prop} {p : GProg μ α} {f : α → ρ} (hp : Keeps J (fun _ => True) p)
    (hf : ∀ a, Q (f a)) : Keeps J Q (p.bind fun r => .ret (f r)) := by
  refine keeps_bind (Q := fun _ => True) ?_ hp
  intro a _
  exact hf a

theorem keeps_prog (m : μ) (op : COp) : Keeps (IdI g₀) (IdPost op) (prog m op) := by
  cases op with
  | newNode o e opts => exact keeps_ret (keeps_newNodeP m o e opts) (fun _ => nofun)
  | addNode n opts => exact keeps_ret (keeps_addNodeP m n opts) (fun _ => nofun)
  | addForeign => exact nofun
  | node u => exact keeps_ret (keeps_nodeP m u) (fun _ => nofun)
  | nodes o => exact fun _ _ => nofun
  | removeNode u => exact keeps_ret (keeps_removeNodeP m u) (fun _ => nofun)
  | link fresh a f t opts => exact keeps_ret (keeps_linkP m fresh a f t opts) (fun _ => nofun)
  | edge u v => exact keeps_ret (keeps_edgeP m u v) (fun _ => nofun)
  | edges o => exact fun _ _ => nofun
  | from' o u => exact keeps_ret (keeps_fromP m o u) (fun _ => nofun)
  | unlink f t => exact keeps_ret (keeps_unlinkP m f t) (fun _ => nofun)
  | subGraph ora u d opts =>
    refine keeps_bind (Q := Sub ora opts) ?_ (keeps_subGraphP m ora u d opts)
    intro r hr
    intro sg he
    cases he
    exact ⟨ora, u, d, opts, rfl, hr sg rfl⟩
  | dot => exact fun _ _ => nofun

end

end Netscrape.Graph

namespace Netscrape.Store
open Netscrape.Conc Netscrape.Spec Netscrape.Spec.Graph Netscrape.Spec.Identity
open Netscrape.Graph (St WG Ent IdI kind same_of same_link same_addNode same_removeNode same_unlink)

section
variable {g₀ : WG}

theorem keeps_addP (o : Order (Int × Unit)) (e : Ent) (opts : List SOpt) : Keeps (IdI g₀) (fun _ => True) (addP o e opts) := by
  refine keeps_bind (Q := fun _ => True) ?_ (Graph.keeps_newNodeP _ o e _)
  intro r _
  split
  · trivial
  · trivial
  · split
    · refine keeps_bind (Q := fun _ => True) ?_ (Graph.keeps_addNodeP _ _ _)
      intro r _
      split <;> trivial
    · refine keeps_bind (Q := fun _ => True) ?_ (Graph.keeps_addNodeP _ _ _)
      intro r _
      split <;> trivial

theorem keeps_getP (u : Uid) : Keeps (IdI g₀) (fun _ => True) (getP u) := by
  refine keeps_bind (Q := fun _ => True) ?_ (Graph.keeps_nodeP _ u)
  intro r _
  split <;> trivial

theorem keeps_deleteP (u : Uid) : Keeps (IdI g₀) (fun _ => True) (deleteP u) := by
  refine keeps_bind (Q := fun _ => True) ?_ (Graph.keeps_removeNodeP _ u)
  intro r _
  split <;> trivial

theorem keeps_storeLinkP (fresh : Uid) (a : Nat) (f t : Uid) (opts : List SOpt) :
    Keeps (IdI g₀) (fun _ => True) (storeLinkP fresh a f t opts) := by
  refine keeps_bind (Q := fun _ => True) ?_ (Graph.keeps_linkP _ fresh a f t _)
  intro r _
  split <;> trivial

theorem keeps_storeUnlinkP (f t : Uid) : Keeps (IdI g₀) (fun _ => True) (storeUnlinkP f t) := by
  refine keeps_bind (Q := fun _ => True) ?_ (Graph.keeps_unlinkP _ f t)
  intro r _
  split <;> trivial

theorem keeps_loopP {α : Type} {f : α → SProg (Res Err Unit)} (hf : ∀ x, Keeps (IdI g₀) (fun _ => True) (f x)) (l : List α) :
    Keeps (IdI g₀) (fun _ => True) (loopP f l) := by
  induction l with
  | nil => trivial
  | cons x xs ih =>
    refine keeps_bind (Q := fun _ => True) ?_ (hf x)
    intro r _
    split
    · exact ih
    · trivial
    · trivial

theorem keeps_bulkGetP (us : List Uid) (l : List (Option Graph.Node)) : Keeps (IdI g₀) (fun _ => True) (bulkGetP us l) := by
  induction us generalizing l with
  | nil => trivial
  | cons x xs ih =>
    refine keeps_bind (Q := fun _ => True) ?_ (keeps_getP x)
    intro r _
    split
    · exact ih _
    · trivial
    · trivial

theorem keeps_prog (op : COp) : Keeps (IdI g₀) (fun _ => True) (prog op) := by
  have hx : ∀ {ρ : Type} {p : SProg ρ} {f : ρ → COut}, Keeps (IdI g₀) (fun _ => True) p →
      Keeps (IdI g₀) (fun _ => True) (Prog.excl .store (out f p)) := fun h =>
    Graph.keeps_excl (Graph.keeps_ret h (fun _ => trivial))
  have hs : ∀ {ρ : Type} {p : SProg ρ} {f : ρ → COut}, Keeps (IdI g₀) (fun _ => True) p →
      Keeps (IdI g₀) (fun _ => True) (Prog.shared .store (out f p)) := fun h =>
    Graph.keeps_shared (Graph.keeps_ret h (fun _ => trivial))
  cases op with
  | add o e opts => exact hx (keeps_addP o e opts)
  | get u => exact hs (keeps_getP u)
  | delete u => exact hx (keeps_deleteP u)
  | link fresh a f t opts => exact hx (keeps_storeLinkP fresh a f t opts)
  | unlink f t => exact hx (keeps_storeUnlinkP f t)
  | bulkAdd es opts => exact hx (keeps_loopP (fun x => keeps_addP x.1 x.2 opts) es)
  | bulkGet us => exact hs (keeps_bulkGetP us _)
  | bulkDelete us => exact hx (keeps_loopP keeps_deleteP us)
  | bulkLink f us opts => exact hx (keeps_loopP (fun x => keeps_storeLinkP x.1 x.2.1 f x.2.2 opts) us)
  | bulkUnlink f us => exact hx (keeps_loopP (keeps_storeUnlinkP f) us)

theorem keeps_rename {μ ν κ σ ρ : Type} {J : σ → Prop} {Q : ρ → Prop} (f : μ → ν) {p : Prog μ κ σ ρ} (h : Keeps J Q p) :
    Keeps J Q (p.rename f) := by
  induction p with
  | ret a => exact h
  | lock m k ih => exact ih h
  | acquire m k ih => exact ih h
  | unlock m k ih => exact ih h
  | rlock m k ih => exact ih h
  | runlock m k ih => exact ih h
  | read l k ih => exact fun s hs => ih s (h s hs)
  | write l g k ih => exact fun s hs => ⟨(h s hs).1, ih s (h s hs).2⟩

/-- What is said about the results of calls on stores and their graph. -/
def IdPost (op : Shared.Op) (out : Handle.Out) : Prop :=
  ∀ sg, out = .inr (.graph (.ok sg)) →
    ∃ j ora u d opts, op = (j, .inr (.subGraph ora u d opts)) ∧ MadeWith true ora.graphUid opts sg

theorem keeps_shared (op : Shared.Op) : Keeps (IdI g₀) (IdPost op) (Shared.prog op) := by
  refine keeps_rename _ ?_
  obtain ⟨i, op | op⟩ := op
  · exact Graph.keeps_ret (keeps_prog op) (fun _ => nofun)
  · refine keeps_bind (Q := Graph.IdPost op) ?_ (Graph.keeps_prog _ op)
    intro a h sg he
    cases he
    obtain ⟨ora, u, d, opts, rfl, h3⟩ := h sg rfl
    exact ⟨i, ora, u, d, opts, rfl, h3⟩

end

end Netscrape.Store
