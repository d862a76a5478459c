import Verif.Lemmas.GraphPtrSub
import Verif.Lemmas.GraphPtrLists
import Verif.Lemmas.SubGraph

/-!
# The walk of SubGraph over objects is the walk over values
-/

namespace Netscrape

/-- An order of the images of `l` that is the image of the order of `l`. -/
noncomputable def Order.image {α β : Type} (o : Order α) (l : List α) (f : α → β) : Order β := by
  classical
  exact ⟨fun x => if x = l.map f then (o.run l).map f else x, fun x => by
    by_cases h : x = l.map f
    · simp only [h, if_true]; exact (o.perm l).map f
    · simp only [h, if_false]; exact .refl _⟩

theorem Order.image_run {α β : Type} (o : Order α) (l : List α) (f : α → β) :
    (o.image l f).run (l.map f) = (o.run l).map f := by
  simp [Order.image]

end Netscrape

namespace Netscrape.GraphPtr
open Netscrape.Graph (Opt Err)

/-- The order for the values. -/
noncomputable def absOrd (m : Mem) (b : Builder) (ord : Int → Order (Int × EPtr)) (i : Int) : Order (Int × Graph.Edge) :=
  (ord i).image (b.fromRow i).entries fun e => (e.1, absE m e.2)

theorem absB_fromRow (m : Mem) (b : Builder) (i : Int) : (absB m b).fromRow i = (b.fromRow i).mapVals (absE m) := by
  unfold Gonum.Builder.fromRow Builder.fromRow absB
  cases b.edges with
  | directed fr to => exact absAdj_row m fr i
  | undirected ed => exact absAdj_row m ed i

theorem absB_fromNodes (m : Mem) (b : Builder) (ord : Int → Order (Int × EPtr)) (i : Int) :
    (absB m b).fromNodes (absOrd m b ord i) i = (b.fromNodes (ord i) i).map (absN m) := by
  unfold Gonum.Builder.fromNodes Builder.fromNodes absOrd
  rw [absB_fromRow, GoMap.entries_mapVals, Order.image_run, List.filterMap_map, List.map_filterMap]
  congr 1
  funext e
  simp [absB]

/-- The variables of the walk over values. -/
def absW {σ τ : Type} (m : Mem) (f : σ → τ) (w : Bfs σ) : Gonum.Bfs τ :=
  ⟨w.queue.map (absN m), w.visited, w.depth, w.children, w.untilNext, f w.acc⟩

section
variable {σ τ : Type} {m : Mem} {f : σ → τ} {visit : σ → NPtr → σ} {visit' : τ → Graph.Node → τ}
  (hv : ∀ a p, visit' (f a) (absN m p) = f (visit a p))

include hv

theorem absW_meet (w : Bfs σ) (p : NPtr) : (absW m f w).meet visit' (absN m p) = absW m f (w.meet m visit p) := by
  unfold Gonum.Bfs.meet Bfs.meet
  by_cases h : m.id p ∈ w.visited
  · simp only [absW, absN_id, h, if_true]
  · simp only [absW, absN_id, h, if_false, hv, List.map_append, List.map_cons, List.map_nil]

theorem absW_meets (ps : List NPtr) (w : Bfs σ) :
    (ps.map (absN m)).foldl (Gonum.Bfs.meet visit') (absW m f w) = absW m f (ps.foldl (Bfs.meet m visit) w) := by
  induction ps generalizing w with
  | nil => rfl
  | cons p ps ih => simp only [List.map_cons, List.foldl_cons, absW_meet hv, ih]

omit hv in
theorem absW_level (w : Bfs σ) : (absW m f w).level = absW m f w.level := by
  unfold Gonum.Bfs.level Bfs.level
  by_cases h : w.untilNext - 1 = 0
  · simp only [absW, h, if_true]
  · simp only [absW, h, if_false]

theorem absW_loop (b : Builder) (ord : Int → Order (Int × EPtr)) (stop : Int → Bool) (n : Nat) (w : Bfs σ) :
    Gonum.Bfs.loop (absB m b) (absOrd m b ord) visit' (fun _ d => stop d) n (absW m f w) =
      (Bfs.loop m b ord visit (fun _ d => stop d) n w).map (absW m f) := by
  induction n generalizing w with
  | zero => rfl
  | succ n ih =>
    unfold Gonum.Bfs.loop Bfs.loop
    cases hq : w.queue with
    | nil => simp only [absW, hq, List.map_nil, Option.map_some]
    | cons t q =>
      have hd : (absW m f w).depth = w.depth := rfl
      simp only [show (absW m f w).queue = absN m t :: q.map (absN m) by simp [absW, hq], hd, absN_id]
      by_cases hs : stop w.depth = true
      · simp only [hs, if_true, Option.map_some]; rfl
      · have h1 : (⟨q.map (absN m), (absW m f w).visited, w.depth, (absW m f w).children, (absW m f w).untilNext,
            (absW m f w).acc⟩ : Gonum.Bfs τ) = absW m f { w with queue := q } := rfl
        simp only [hs, absB_fromNodes, h1, absW_meets hv, absW_level, ih]
        rfl

theorem absW_walk (b : Builder) (ord : Int → Order (Int × EPtr)) (stop : Int → Bool) (root : NPtr) (acc : σ) :
    Gonum.Bfs.walk (absB m b) (absOrd m b ord) visit' (fun _ d => stop d) (absN m root) (f acc) =
      (Bfs.walk m b ord visit (fun _ d => stop d) root acc).map (absW m f) := by
  unfold Gonum.Bfs.walk Bfs.walk
  rw [← absW_loop hv]
  have : (absB m b).nodes.size = b.nodes.size := by simp [absB]
  rw [this, hv]
  rfl
end

/-- What has been collected, over values. -/
def absC (m : Mem) (c : Collect) : Graph.Collect := ⟨absG m c.sg, c.nodes.mapVals (absN m), c.err⟩

theorem absC_collect (m : Mem) (c : Collect) (p : NPtr) :
    Graph.collect (absC m c) (absN m p) = absC m (collect m c p) := by
  have h := absG_addNode m c.sg p []
  unfold Graph.collect collect
  simp only [absC] at h ⊢
  rw [h]
  cases hr : addNode m c.sg p [] with
  | mk r sg =>
    cases r with
    | ok _ => simp only [absN_id, GoMap.mapVals_set]
    | err _ => rfl
    | panic => rfl

/-! Linking does not change which nodes there are. -/

theorem link_named (m : Mem) (g : WG) (fresh : Uid) (a : Nat) (u v : Uid) (opts : List Opt) :
    (link m g fresh a u v opts).2.1.nodes = g.nodes := by
  rcases link_cases m g fresh a u v opts with ⟨r, -, -, -, h⟩ | ⟨p, q, -, -, -, -, h⟩
  · rw [h]
  · rw [h]
    split <;> rfl

theorem linkAll_named (ora : SubOracle) (x y : Uid) (es : List EPtr) :
    ∀ {m : Mem} {sg sg' : WG} {m' : Mem}, linkAll ora x y es sg m = (.ok sg', m') → sg'.nodes = sg.nodes := by
  induction es with
  | nil => intro m sg sg' m' he; cases he; rfl
  | cons e es ih =>
    intro m sg sg' m' he
    have hs := link_named { m with heap := (Attrs.newCopyFrom m.heap (ora.copy m.heap.cells.length) (m.edge e).attrs).2 } sg
      (ora.edgeUid m.heap.cells.length) 0 x y
      [.withAttrs (some (Attrs.newCopyFrom m.heap (ora.copy m.heap.cells.length) (m.edge e).attrs).1),
        .withWeight (m.edge e).weight]
    unfold linkAll at he
    simp only [] at he
    revert he hs
    generalize GraphPtr.link _ sg _ _ _ _ _ = r
    obtain ⟨r, sg1, m1⟩ := r
    intro hs he
    cases r with
    | ok _ => exact (ih he).trans hs
    | err _ => cases he
    | panic => cases he

theorem linkPeers_named (ora : SubOracle) (g : WG) (ns : GoMap Int NPtr) (id : Int) (x : NPtr) (ps : List NPtr) :
    ∀ {m : Mem} {sg sg' : WG} {m' : Mem}, linkPeers ora g ns id x ps sg m = (.ok sg', m') → sg'.nodes = sg.nodes := by
  induction ps with
  | nil => intro m sg sg' m' he; cases he; rfl
  | cons p ps ih =>
    intro m sg sg' m' he
    unfold linkPeers at he
    cases hto : ns.get? (m.id p) with
    | none => rw [hto] at he; exact ih he
    | some to =>
      rw [hto] at he
      simp only [] at he
      cases hl : linkAll ora (m.node x).uid (m.node to).uid (g.b.weightedEdges m (ora.edges id (m.id p))) sg m with
      | mk r m1 =>
        rw [hl] at he
        cases r with
        | ok sg1 => exact (ih he).trans (linkAll_named ora _ _ _ hl)
        | err _ => cases he
        | panic => cases he

theorem linkNodes_named (ora : SubOracle) (g : WG) (ns : GoMap Int NPtr) (l : List (Int × NPtr)) :
    ∀ {m : Mem} {sg sg' : WG} {m' : Mem}, linkNodes ora g ns l sg m = (.ok sg', m') → sg'.nodes = sg.nodes := by
  induction l with
  | nil => intro m sg sg' m' he; cases he; rfl
  | cons a rest ih =>
    obtain ⟨id, x⟩ := a
    intro m sg sg' m' he
    unfold linkNodes at he
    cases hl : linkPeers ora g ns id x (g.b.fromNodes (ora.peers id) id) sg m with
    | mk r m1 =>
      rw [hl] at he
      cases r with
      | ok sg1 => exact (ih he).trans (linkPeers_named ora g ns _ _ _ hl)
      | err _ => cases he
      | panic => cases he

end Netscrape.GraphPtr

namespace Netscrape.Graph

theorem link_named (h : Heap) (g : WG) (fresh : Uid) (a : Nat) (u v : Uid) (opts : List Opt) :
    (link h g fresh a u v opts).2.1.nodes = g.nodes := by
  unfold link
  split
  · rfl
  · unfold linkApply
    simp only
    split <;> rfl

theorem linkAll_named (ora : SubOracle) (x y : Uid) (es : List Edge) :
    ∀ {h : Heap} {sg sg' : WG} {h' : Heap}, linkAll ora x y es sg h = (.ok sg', h') → sg'.nodes = sg.nodes := by
  induction es with
  | nil => intro h sg sg' h' he; cases he; rfl
  | cons e es ih =>
    intro h sg sg' h' he
    have hs := link_named (Attrs.newCopyFrom h (ora.copy h.cells.length) e.attrs).2 sg (ora.edgeUid h.cells.length) 0 x y
      [.withAttrs (some (Attrs.newCopyFrom h (ora.copy h.cells.length) e.attrs).1), .withWeight e.weight]
    unfold linkAll at he
    simp only [] at he
    revert he hs
    generalize link _ sg _ _ _ _ _ = r
    obtain ⟨r, sg1, m1⟩ := r
    intro hs he
    cases r with
    | ok _ => exact (ih he).trans hs
    | err _ => cases he
    | panic => cases he

theorem linkPeers_named (ora : SubOracle) (g : WG) (ns : GoMap Int Node) (id : Int) (x : Node) (ps : List Node) :
    ∀ {h : Heap} {sg sg' : WG} {h' : Heap}, linkPeers ora g ns id x ps sg h = (.ok sg', h') → sg'.nodes = sg.nodes := by
  induction ps with
  | nil => intro h sg sg' h' he; cases he; rfl
  | cons p ps ih =>
    intro h sg sg' h' he
    unfold linkPeers at he
    cases hto : ns.get? p.id with
    | none => rw [hto] at he; exact ih he
    | some to =>
      rw [hto] at he
      simp only [] at he
      cases hl : linkAll ora x.uid to.uid (g.b.weightedEdges (ora.edges id p.id)) sg h with
      | mk r h1 =>
        rw [hl] at he
        cases r with
        | ok sg1 => exact (ih he).trans (linkAll_named ora _ _ _ hl)
        | err _ => cases he
        | panic => cases he

theorem linkNodes_named (ora : SubOracle) (g : WG) (ns : GoMap Int Node) (l : List (Int × Node)) :
    ∀ {h : Heap} {sg sg' : WG} {h' : Heap}, linkNodes ora g ns l sg h = (.ok sg', h') → sg'.nodes = sg.nodes := by
  induction l with
  | nil => intro h sg sg' h' he; cases he; rfl
  | cons a rest ih =>
    obtain ⟨id, x⟩ := a
    intro h sg sg' h' he
    unfold linkNodes at he
    cases hl : linkPeers ora g ns id x (g.b.fromNodes (ora.peers id) id) sg h with
    | mk r h1 =>
      rw [hl] at he
      cases r with
      | ok sg1 => exact (ih he).trans (linkPeers_named ora g ns _ _ _ hl)
      | err _ => cases he
      | panic => cases he

end Netscrape.Graph

namespace Netscrape.GraphPtr
open Netscrape.Graph (Opt Err)

theorem absG_new (m : Mem) (d : Bool) (fresh : Uid) (opts : List Opt) : absG m (new d fresh opts) = Graph.new d fresh opts := by
  cases d <;> rfl

/-- The nodes of the sub graph over objects are those of a sub graph over values. -/
theorem subGraph_named {ora : SubOracle} {m : Mem} {g : WG} {u : Uid} {depth : Int} {opts : List Opt} {sg : WG} {m' : Mem}
    (h : subGraph ora m g u depth opts = (.ok sg, m')) : ∃ ora' : Graph.SubOracle, ∀ sg' h',
      Graph.subGraph ora' m.heap (absG m g) u depth opts = (.ok sg', h') → sg'.nodes = sg.nodes.mapVals (absN m) := by
  refine ⟨⟨ora.graphUid, absOrd m g.b ora.bfs, Order.id, fun _ => Order.id, fun _ _ => Gonum.EdgeOrder.id, ora.copy, ora.edgeUid⟩,
    fun sg' h' h2 => ?_⟩
  unfold subGraph at h
  unfold Graph.subGraph at h2
  have hn : (absG m g).nodes.get? u.str = (g.nodes.get? u.str).map (absN m) := GoMap.get?_mapVals ..
  rw [hn] at h2
  cases hroot : g.nodes.get? u.str with
  | none => rw [hroot] at h; cases h
  | some root =>
    rw [hroot] at h h2
    simp only [Option.map_some] at h h2
    have hw := absW_walk (absC_collect m) g.b ora.bfs (fun d => d == depth) root ⟨new true ora.graphUid opts, GoMap.empty, none⟩
    have hc : absC m ⟨new true ora.graphUid opts, GoMap.empty, none⟩ = ⟨Graph.new true ora.graphUid opts, GoMap.empty, none⟩ := by
      unfold absC; rw [absG_new]; rfl
    rw [hc] at hw
    rw [show (absG m g).b = absB m g.b from rfl, hw] at h2
    cases hwalk : Bfs.walk m g.b ora.bfs (collect m) (fun _ d => d == depth) root ⟨new true ora.graphUid opts, GoMap.empty, none⟩ with
    | none => rw [hwalk] at h; cases h
    | some w =>
      rw [hwalk] at h h2
      simp only [Option.map_some] at h h2
      have he : (absW m (absC m) w).acc.err = w.acc.err := rfl
      rw [he] at h2
      cases herr : w.acc.err with
      | some e => rw [herr] at h; cases h
      | none =>
        rw [herr] at h h2
        rw [Graph.linkNodes_named _ _ _ _ h2, linkNodes_named _ _ _ _ h]
        rfl

end Netscrape.GraphPtr
