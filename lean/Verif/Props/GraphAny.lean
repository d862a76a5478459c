import Verif.Props.Edge
import Verif.Spec.GraphOwned

/-!
# C82: graph laws in histories where nodes are made before others are added

`NewNode` does not reserve the ID it picks. Nodes obtained from two calls before either is added share
their ID, `AddNode` accepts both, and the graph then treats them as one node wherever it works with
IDs. The theorems below say which laws break and which hold in every history, by ID.
-/

namespace Netscrape.Props
open Netscrape Netscrape.Graph Netscrape.Spec.Graph
open Netscrape.Gonum (EdgeOrder)

/-! ## What fails -/

/-- Linking two different UIDs never panics. -/
def OwnedLink : Prop := ∀ (d : Bool) h fresh gopts ops, Owned ⟨h, new d fresh gopts⟩ [] ops →
  ∀ fresh' a (f t : Uid) opts, f.str ≠ t.str →
    let s := run ⟨h, new d fresh gopts⟩ ops
    (link s.heap s.g fresh' a f t opts).1 ≠ .panic

/-- A new edge has the two nodes asked for as ends. -/
def OwnedLinkEnds : Prop := ∀ (d : Bool) h fresh gopts ops, Owned ⟨h, new d fresh gopts⟩ [] ops →
  ∀ fresh' a (f t : Uid) opts e,
    let s := run ⟨h, new d fresh gopts⟩ ops
    (link s.heap s.g fresh' a f t opts).1 = .ok e →
      e.src.uid.str = f.str ∧ e.dst.uid.str = t.str

/-- Unlinking a pair leaves every other pair of UIDs linked. -/
def OwnedUnlink : Prop := ∀ (d : Bool) h fresh gopts ops, Owned ⟨h, new d fresh gopts⟩ [] ops →
  ∀ (f t p q : Uid) e, ¬ (p.str = f.str ∧ q.str = t.str) → ¬ (p.str = t.str ∧ q.str = f.str) →
    let s := run ⟨h, new d fresh gopts⟩ ops
    edge s.g p q = .ok e → edge (unlink s.g f t) p q = .ok e

/-- Removing a node leaves the other nodes listed and linked. -/
def OwnedRemove : Prop := ∀ (d : Bool) h fresh gopts ops, Owned ⟨h, new d fresh gopts⟩ [] ops →
  ∀ (u p q : Uid) e, p.str ≠ u.str → q.str ≠ u.str →
    let s := run ⟨h, new d fresh gopts⟩ ops
    edge s.g p q = .ok e → edge (removeNode s.g u) p q = .ok e

/-- Every node that can be looked up is listed. -/
def OwnedListed : Prop := ∀ (d : Bool) h fresh gopts ops, Owned ⟨h, new d fresh gopts⟩ [] ops →
  ∀ (u : Uid) n o,
    let s := run ⟨h, new d fresh gopts⟩ ops
    node s.g u = .ok n → ∃ m ∈ nodesList s.g o, m.uid.str = u.str

def twinA : Node := ⟨exEnt 1 "a", 0, "a", 0⟩
def twinB : Node := ⟨exEnt 2 "b", 0, "b", 1⟩
def twinC : Node := ⟨exEnt 3 "c", 1, "c", 2⟩

def twinOps : List Op :=
  [.newNode Order.id (exEnt 1 "a") [], .newNode Order.id (exEnt 2 "b") [],
   .addNode twinA [], .addNode twinB [],
   .newNode Order.id (exEnt 3 "c") [], .addNode twinC [],
   .link ⟨100, "e1"⟩ 200 uA uC []]

def twinSt (d : Bool) : St := run (exInit d) twinOps

theorem owned_twin (d : Bool) : Owned (exInit d) [] twinOps := by
  have h : ∀ (op : Op) (made : List Node), (match op with
      | .addNode n _ => decide (n ∈ made)
      | _ => true) = true → ∀ n opts, op = .addNode n opts → n ∈ made := by
    rintro op made hd n opts rfl
    simpa using hd
  cases d
  · exact ⟨h _ _ (by decide +kernel), h _ _ (by decide +kernel), h _ _ (by decide +kernel),
      h _ _ (by decide +kernel), h _ _ (by decide +kernel), h _ _ (by decide +kernel),
      h _ _ (by decide +kernel), trivial⟩
  · exact ⟨h _ _ (by decide +kernel), h _ _ (by decide +kernel), h _ _ (by decide +kernel),
      h _ _ (by decide +kernel), h _ _ (by decide +kernel), h _ _ (by decide +kernel),
      h _ _ (by decide +kernel), trivial⟩

/-- **C82 fails for `Link`**: `a` and `b` were both made before either was added; linking them
panics. -/
theorem c82_link_violated : ¬ OwnedLink := fun h =>
  h true Heap.empty ⟨0, "graph"⟩ [] twinOps (owned_twin true) ⟨101, "e2"⟩ 201 uA uB []
    (by decide) (by decide +kernel)

def twinEdge : Edge := ⟨⟨100, "e1"⟩, 3, twinA, twinC, "e1", 0⟩

/-- **C82 fails for `Link`**: linking `b` to `c` returns the edge from `a` to `c`. -/
theorem c82_link_ends_violated : ¬ OwnedLinkEnds := fun h => by
  have := h true Heap.empty ⟨0, "graph"⟩ [] twinOps (owned_twin true) ⟨101, "e2"⟩ 201 uB uC []
    twinEdge (by decide +kernel)
  exact absurd this.1 (by decide)

/-- **C82 fails for `Unlink`**: unlinking `b` and `c` unlinks `a` and `c`. -/
theorem c82_unlink_violated : ¬ OwnedUnlink := fun h => by
  have := h true Heap.empty ⟨0, "graph"⟩ [] twinOps (owned_twin true) uB uC uA uC
    twinEdge (by decide) (by decide) (by decide +kernel)
  exact absurd this (by decide +kernel)

/-- **C82 fails for `RemoveNode`**: removing `b` unlinks `a` and `c`. -/
theorem c82_remove_violated : ¬ OwnedRemove := fun h => by
  have := h true Heap.empty ⟨0, "graph"⟩ [] twinOps (owned_twin true) uB uA uC
    twinEdge (by decide) (by decide) (by decide +kernel)
  exact absurd this (by decide +kernel)

/-- **C82 fails for `Nodes`**: `b` is found by its UID but not listed. -/
theorem c82_nodes_violated : ¬ OwnedListed := fun h => by
  obtain ⟨m, hm, hu⟩ := h true Heap.empty ⟨0, "graph"⟩ [] twinOps (owned_twin true) uB twinB
    Order.id (by decide +kernel)
  have : ∀ m ∈ nodesList (run ⟨Heap.empty, new true ⟨0, "graph"⟩ []⟩ twinOps).g Order.id,
      m.uid.str ≠ uB.str := by decide +kernel
  exact this m hm hu

/-! ## What holds when the nodes are kept apart -/

theorem fits_step {s : St} {n : Node} (h : Fits s.g n) (op : Op)
    (hop : ∀ m opts, op = .addNode m opts → (m.uid.str = n.uid.str ↔ m.id = n.id)) :
    Fits (step s op).1.g n := by
  cases op with
  | newNode o e opts => exact h
  | addForeign => exact h
  | env hp => exact h
  | unlink f t =>
    intro u m hm
    refine h u m ?_
    have : (unlink s.g f t).nodes = s.g.nodes := by unfold unlink; split <;> rfl
    unfold node at hm ⊢
    simp only [step, this] at hm
    exact hm
  | link fresh a f t opts =>
    intro u m hm
    refine h u m ?_
    have : (link s.heap s.g fresh a f t opts).2.1.nodes = s.g.nodes := by
      unfold link; split
      · rfl
      · simp only [linkApply]; split <;> rfl
    unfold node at hm ⊢
    simp only [step, this] at hm
    exact hm
  | removeNode u' =>
    intro u m hm
    refine h u m ?_
    simp only [step, removeNode] at hm
    split at hm
    · exact hm
    · unfold node removeApply at hm
      simp only [GoMap.get?_del] at hm
      unfold node
      split at hm
      · rename_i hx
        split at hx
        · cases hx
        · cases hm; rw [hx]
      · cases hm
  | addNode m opts =>
    have hm := hop m opts rfl
    have hset : (addNode s.g m opts).2 = s.g ∨
        ∀ k, (addNode s.g m opts).2.nodes.get? k =
          if k = m.key then some m else s.g.nodes.get? k := by
      unfold addNode
      split
      · split
        · split
          · exact Or.inl rfl
          · refine Or.inr fun k => ?_
            simp only [GoMap.get?_set]
            split <;> rfl
        · exact Or.inr fun k => GoMap.get?_set _ _ _ _
      · split
        · exact Or.inl rfl
        · exact Or.inr fun k => GoMap.get?_set _ _ _ _
    intro u x hx
    rcases hset with he | hset
    · simp only [step, he] at hx
      exact h u x hx
    · simp only [step] at hx
      unfold node at hx
      rw [hset] at hx
      by_cases hk : u.str = m.key
      · rw [if_pos hk] at hx
        cases hx
        exact hm
      · rw [if_neg hk] at hx
        exact h u x hx

theorem keptApart_reach {d : Bool} {s : St} (hr : Reach Disciplined d s) (made : List Node)
    (hfit : ∀ n ∈ made, Fits s.g n) (ops : List Op) (hk : KeptApart s made ops) :
    Reach Disciplined d (run s ops) := by
  induction ops generalizing s made with
  | nil => exact hr
  | cons op ops ih =>
    obtain ⟨h1, h2⟩ := hk
    have hd : Disciplined s op := by
      cases op with
      | addNode n opts => exact hfit n (h1 n opts rfl)
      | _ => trivial
    have hr' := Reach.step s op hr hd
    have hsame : ∀ n, Fits s.g n → (∀ m opts, op ≠ .addNode m opts) → Fits (step s op).1.g n :=
      fun n hn hop => fits_step hn op fun m opts e => absurd e (hop m opts)
    refine ih hr' _ ?_ h2
    intro n hn
    cases op with
    | addNode m opts =>
      simp only [List.mem_filter, decide_eq_true_eq] at hn
      exact fits_step (hfit n hn.1) _ fun m' opts' e => by cases e; exact hn.2
    | newNode o e opts =>
      cases hres : (newNode s.heap s.g o e opts).1 with
      | ok m =>
        simp only [step, hres, List.mem_cons] at hn
        rcases hn with rfl | hn
        · exact hsame _ (c15_newNode_fits hr o e opts _ hres).1 (fun _ _ e => nomatch e)
        · exact hsame _ (hfit n hn) (fun _ _ e => nomatch e)
      | err e' =>
        simp only [step, hres] at hn
        exact hsame _ (hfit n hn) (fun _ _ e => nomatch e)
      | panic =>
        simp only [step, hres] at hn
        exact hsame _ (hfit n hn) (fun _ _ e => nomatch e)
    | addForeign => exact hsame _ (hfit n hn) (fun _ _ e => nomatch e)
    | removeNode u => exact hsame _ (hfit n hn) (fun _ _ e => nomatch e)
    | link fresh a f t opts => exact hsame _ (hfit n hn) (fun _ _ e => nomatch e)
    | unlink f t => exact hsame _ (hfit n hn) (fun _ _ e => nomatch e)
    | env h => exact hsame _ (hfit n hn) (fun _ _ e => nomatch e)

/-- **C82, when the laws hold.** If every node given to `AddNode` was made by the graph's `NewNode` and
no node added in between shares exactly one of its UID and ID, the history is one the laws of C15 to
C25 speak about. -/
theorem c82_keptApart_partial (d : Bool) (h : Heap) (fresh : Uid) (gopts : List Opt) (ops : List Op)
    (hk : KeptApart ⟨h, new d fresh gopts⟩ [] ops) :
    Reach Disciplined d (run ⟨h, new d fresh gopts⟩ ops) :=
  keptApart_reach (Reach.init _ _ _) [] (fun _ h => nomatch h) ops hk

/-- Non-vacuity: nodes made in turn and added in turn, and a node made before an unrelated one was
added. -/
example : KeptApart (exInit true) [] [.newNode Order.id (exEnt 1 "a") [], .addNode twinA [],
    .newNode Order.id (exEnt 3 "c") [],
    .addNode ⟨exEnt 3 "c", 1, "c", 1⟩ [], .link ⟨100, "e1"⟩ 200 uA uC []] := by
  have h : ∀ (op : Op) (made : List Node), (match op with
      | .addNode n _ => decide (n ∈ made)
      | _ => true) = true → ∀ n opts, op = .addNode n opts → n ∈ made := by
    rintro op made hd n opts rfl
    simpa using hd
  exact ⟨h _ _ (by decide +kernel), h _ _ (by decide +kernel), h _ _ (by decide +kernel),
    h _ _ (by decide +kernel), h _ _ (by decide +kernel), trivial⟩

/-! ## What holds in every history -/

theorem node_get {g : WG} {u : Uid} {n : Node} : node g u = .ok n ↔ g.nodes.get? u.str = some n := by
  unfold node
  cases g.nodes.get? u.str <;> simp

theorem hasID_get {g : WG} {u : Uid} {n : Node} (hn : g.nodes.get? u.str = some n) {i : Int} :
    HasID g u i ↔ n.id = i := by
  constructor
  · rintro ⟨m, hm, hi⟩
    rw [node_get, hn] at hm
    cases hm
    exact hi
  · exact fun hi => ⟨n, node_get.mpr hn, hi⟩

theorem sameIDs_get {g : WG} {p q u v : Uid} {a b x y : Node} (ha : g.nodes.get? p.str = some a)
    (hb : g.nodes.get? q.str = some b) (hx : g.nodes.get? u.str = some x)
    (hy : g.nodes.get? v.str = some y) : SameIDs g p q u v ↔ a.id = x.id ∧ b.id = y.id := by
  simp only [SameIDs, hasID_get ha, hasID_get hb, hasID_get hx, hasID_get hy]
  constructor
  · rintro ⟨i, j, h1, h2, h3, h4⟩
    exact ⟨h1.trans h3.symm, h2.trans h4.symm⟩
  · rintro ⟨h1, h2⟩
    exact ⟨_, _, h1, h2, rfl, rfl⟩

/-- **C82, `Link` in every history.** It panics exactly when the two UIDs name nodes of one ID. A
missing end and an edge that exists already change nothing. Otherwise the new edge is what `Edge`
returns from then on for every pair of UIDs naming nodes of the same two IDs (reversed from the other
side of an undirected graph), and for no other pair. -/
theorem c82_link_partial {d : Bool} {s : St} (hr : Reach Any d s) (fresh : Uid) (a : Nat)
    (f t : Uid) (opts : List Opt) :
    ((link s.heap s.g fresh a f t opts).1 = .panic ↔ ∃ i, HasID s.g f i ∧ HasID s.g t i) ∧
    ((node s.g f = .err .nodeNotFound ∨ node s.g t = .err .nodeNotFound) →
      link s.heap s.g fresh a f t opts = (.err .nodeNotFound, s.g, s.heap)) ∧
    (∀ e, edge s.g f t = .ok e → link s.heap s.g fresh a f t opts = (.ok e, s.g, s.heap)) ∧
    (∀ x y, node s.g f = .ok x → node s.g t = .ok y → x.id ≠ y.id → (∀ e, edge s.g f t ≠ .ok e) →
      ∃ e g' h', link s.heap s.g fresh a f t opts = (.ok e, g', h') ∧
        e.src = x ∧ e.dst = y ∧ e.weight = weightOption opts ∧
        (match attrsOption opts with
          | some r => e.attrs = r ∧ h' = s.heap
          | none => (e.attrs, h') = s.heap.alloc GoMap.empty) ∧
        (∀ u, node g' u = node s.g u) ∧
        (∀ p q, SameIDs s.g p q f t → edge g' p q = .ok e) ∧
        (d = false → ∀ p q, SameIDs s.g p q t f → edge g' p q = .ok e.rev) ∧
        (∀ p q, ¬ SameIDs s.g p q f t → ¬ (d = false ∧ SameIDs s.g p q t f) →
          edge g' p q = edge s.g p q)) := by
  obtain ⟨hinv, hdir⟩ := gonumInv_reach hr
  have hexists : ∀ e, edge s.g f t = .ok e →
      link s.heap s.g fresh a f t opts = (.ok e, s.g, s.heap) := by
    intro e he
    unfold link linkLookup
    rw [he]
  have hmain : ∀ x y, node s.g f = .ok x → node s.g t = .ok y → x.id ≠ y.id →
      (∀ e, edge s.g f t ≠ .ok e) →
      ∃ e g' h', link s.heap s.g fresh a f t opts = (.ok e, g', h') ∧
        e.src = x ∧ e.dst = y ∧ e.weight = weightOption opts ∧
        (match attrsOption opts with
          | some r => e.attrs = r ∧ h' = s.heap
          | none => (e.attrs, h') = s.heap.alloc GoMap.empty) ∧
        (∀ u, node g' u = node s.g u) ∧
        (∀ p q, SameIDs s.g p q f t → edge g' p q = .ok e) ∧
        (d = false → ∀ p q, SameIDs s.g p q t f → edge g' p q = .ok e.rev) ∧
        (∀ p q, ¬ SameIDs s.g p q f t → ¬ (d = false ∧ SameIDs s.g p q t f) →
          edge g' p q = edge s.g p q) := by
    intro x y hx hy hne hno
    rw [node_get] at hx hy
    have hw : s.g.b.weightedEdge x.id y.id = none := by
      cases hw : s.g.b.weightedEdge x.id y.id with
      | none => rfl
      | some e => exact absurd (edge_ok.mpr ⟨x, y, hx, hy, hw⟩) (hno e)
    have hl : link s.heap s.g fresh a f t opts = linkApply s.heap s.g fresh a x y opts := by
      unfold link linkLookup edge
      simp only [hx, hy, hw]
    rw [hl]
    obtain ⟨hs, hd⟩ := mkEdge_ends s.heap fresh a x y opts
    obtain ⟨b', hb'⟩ := Gonum.setWeightedEdge_some (b := s.g.b)
      (e := (mkEdge s.heap fresh a x y opts).1) (by rw [hs, hd]; exact hne)
    have hset := Gonum.weightedEdge_set hb'
    rw [hs, hd, hdir] at hset
    refine ⟨(mkEdge s.heap fresh a x y opts).1, { s.g with b := b' },
      (mkEdge s.heap fresh a x y opts).2, ?_, hs, hd, ?_, ?_, ?_, ?_, ?_, ?_⟩
    · unfold linkApply
      simp only [hb']
    · exact (applyAll_fields opts).2.2.2
    · simp only [mkEdge, attrsOrNew, (applyAll_fields opts).2.2.1]
      cases attrsOption opts <;> simp
    · intro u; rfl
    · rintro p q hpq
      obtain ⟨i, j, ⟨m, hm, -⟩, ⟨n, hn, -⟩, -, -⟩ := id hpq
      rw [node_get] at hm hn
      obtain ⟨h1, h2⟩ := (sameIDs_get hm hn hx hy).mp hpq
      exact edge_ok.mpr ⟨m, n, hm, hn, by rw [hset, if_pos ⟨h1, h2⟩]⟩
    · rintro hdf p q hpq
      obtain ⟨i, j, ⟨m, hm, -⟩, ⟨n, hn, -⟩, -, -⟩ := id hpq
      rw [node_get] at hm hn
      obtain ⟨h1, h2⟩ := (sameIDs_get hm hn hy hx).mp hpq
      refine edge_ok.mpr ⟨m, n, hm, hn, ?_⟩
      rw [hset, if_neg (fun h => hne (h.1.symm.trans h1)), if_pos ⟨hdf, h1, h2⟩]
    · intro p q h1 h2
      refine edge_congr rfl rfl ?_
      intro m n hm hn
      rw [hset, if_neg, if_neg]
      · rintro ⟨hdf, h3⟩
        exact h2 ⟨hdf, (sameIDs_get hm hn hy hx).mpr h3⟩
      · intro h3
        exact h1 ((sameIDs_get hm hn hx hy).mpr h3)
  refine ⟨⟨?_, ?_⟩, link_missing fresh a opts, hexists, hmain⟩
  · intro hp
    cases hx : s.g.nodes.get? f.str with
    | none =>
      rw [link_missing fresh a opts (Or.inl (by unfold node; rw [hx]))] at hp
      cases hp
    | some x =>
      cases hy : s.g.nodes.get? t.str with
      | none =>
        rw [link_missing fresh a opts (Or.inr (by unfold node; rw [hy]))] at hp
        cases hp
      | some y =>
        refine ⟨x.id, (hasID_get hx).mpr rfl, (hasID_get hy).mpr ?_⟩
        apply Classical.byContradiction
        intro hne
        by_cases hex : ∃ e, edge s.g f t = .ok e
        · obtain ⟨e, he⟩ := hex
          rw [hexists e he] at hp
          cases hp
        · obtain ⟨e, g', h', hl, -⟩ := hmain x y (node_get.mpr hx) (node_get.mpr hy)
            (fun h => hne h.symm) (fun e he => hex ⟨e, he⟩)
          rw [hl] at hp
          cases hp
  · rintro ⟨i, ⟨x, hx, rfl⟩, ⟨y, hy, hid⟩⟩
    rw [node_get] at hx hy
    have hw : s.g.b.weightedEdge x.id y.id = none := by
      cases hw : s.g.b.weightedEdge x.id y.id with
      | none => rfl
      | some e => exact absurd hid.symm (Gonum.weightedEdge_ends hinv hw).2.2.ne
    have hl : link s.heap s.g fresh a f t opts = linkApply s.heap s.g fresh a x y opts := by
      unfold link linkLookup edge
      simp only [hx, hy, hw]
    obtain ⟨hs, hd⟩ := mkEdge_ends s.heap fresh a x y opts
    have : s.g.b.setWeightedEdge (mkEdge s.heap fresh a x y opts).1 = none := by
      unfold Gonum.Builder.setWeightedEdge
      rw [if_pos (by rw [hs, hd]; exact hid.symm)]
    rw [hl]
    unfold linkApply
    simp only [this]

/-- **C82, `Unlink` in every history.** The pairs of UIDs that name nodes of the same two IDs are
unlinked (from both sides in an undirected graph); all other pairs, lookups and listed nodes are as
before. -/
theorem c82_unlink_partial {d : Bool} {s : St} (hr : Reach Any d s) (f t : Uid) :
    (∀ p q, SameIDs s.g p q f t → edge (unlink s.g f t) p q = .err .edgeNotExist) ∧
    (d = false → ∀ p q, SameIDs s.g p q t f → edge (unlink s.g f t) p q = .err .edgeNotExist) ∧
    (∀ p q, ¬ SameIDs s.g p q f t → ¬ (d = false ∧ SameIDs s.g p q t f) →
      edge (unlink s.g f t) p q = edge s.g p q) ∧
    (∀ u, node (unlink s.g f t) u = node s.g u) ∧
    (∀ o, nodesList (unlink s.g f t) o = nodesList s.g o) := by
  obtain ⟨hinv, hdir⟩ := gonumInv_reach hr
  have hnodes : (unlink s.g f t).nodes = s.g.nodes := by
    unfold unlink; split <;> rfl
  have hun : ∀ x y, s.g.nodes.get? f.str = some x → s.g.nodes.get? t.str = some y →
      (unlink s.g f t).b = s.g.b.removeEdge x.id y.id := by
    intro x y hx hy
    unfold unlink unlinkLookup; rw [hx, hy]; rfl
  have hrem := fun a b => Gonum.weightedEdge_removeEdge hinv a b
  rw [hdir] at hrem
  have hgone : ∀ p q m n, s.g.nodes.get? p.str = some m → s.g.nodes.get? q.str = some n →
      (unlink s.g f t).b.weightedEdge m.id n.id = none →
      edge (unlink s.g f t) p q = .err .edgeNotExist := by
    intro p q m n hm hn hw
    unfold edge
    rw [hnodes, hm, hn]
    simp only [hw]
  refine ⟨?_, ?_, ?_, ?_, ?_⟩
  · intro p q hpq
    obtain ⟨i, j, ⟨m, hm, -⟩, ⟨n, hn, -⟩, ⟨x, hx, -⟩, ⟨y, hy, -⟩⟩ := id hpq
    rw [node_get] at hm hn hx hy
    refine hgone p q m n hm hn ?_
    rw [hun x y hx hy, hrem, if_pos (Or.inl ((sameIDs_get hm hn hx hy).mp hpq))]
  · intro hdf p q hpq
    obtain ⟨i, j, ⟨m, hm, -⟩, ⟨n, hn, -⟩, ⟨y, hy, -⟩, ⟨x, hx, -⟩⟩ := id hpq
    rw [node_get] at hm hn hx hy
    refine hgone p q m n hm hn ?_
    rw [hun x y hx hy, hrem, if_pos (Or.inr ⟨hdf, (sameIDs_get hm hn hy hx).mp hpq⟩)]
  · intro p q h1 h2
    refine edge_congr (by rw [hnodes]) (by rw [hnodes]) ?_
    intro m n hm hn
    cases hx : s.g.nodes.get? f.str with
    | none => unfold unlink unlinkLookup; rw [hx]
    | some x =>
      cases hy : s.g.nodes.get? t.str with
      | none => unfold unlink unlinkLookup; rw [hx, hy]
      | some y =>
        rw [hun x y hx hy, hrem, if_neg]
        rintro (h3 | ⟨hdf, h3⟩)
        · exact h1 ((sameIDs_get hm hn hx hy).mpr h3)
        · exact h2 ⟨hdf, (sameIDs_get hm hn hy hx).mpr h3⟩
  · intro u; unfold node; rw [hnodes]
  · intro o
    have hgn : (unlink s.g f t).b.nodes = s.g.b.nodes := by
      unfold unlink; split
      · rfl
      · exact Gonum.removeEdge_nodes _ _ _
    unfold nodesList Gonum.Builder.allNodes; rw [hgn]

/-- **C82, `RemoveNode` in every history.** The UID is not found any more; the listed node of the same
ID is not listed any more, and no pair with an end of that ID is linked; all other lookups, listed
nodes and pairs are as before. -/
theorem c82_remove_partial {d : Bool} {s : St} (hr : Reach Any d s) (u : Uid) (x : Node)
    (hx : node s.g u = .ok x) :
    (∀ v, node (removeNode s.g u) v = if v.str = u.str then .err .nodeNotFound else node s.g v) ∧
    (∀ o n, n ∈ nodesList (removeNode s.g u) o ↔ n ∈ nodesList s.g o ∧ n.id ≠ x.id) ∧
    (∀ p q e, HasID s.g p x.id ∨ HasID s.g q x.id → edge (removeNode s.g u) p q ≠ .ok e) ∧
    (∀ p q, ¬ HasID s.g p x.id → ¬ HasID s.g q x.id →
      edge (removeNode s.g u) p q = edge s.g p q) := by
  obtain ⟨hinv, hdir⟩ := gonumInv_reach hr
  have hx' := node_get.mp hx
  have hrm : removeNode s.g u = removeApply s.g u x := by
    unfold removeNode removeLookup; rw [hx']
  have hget : ∀ k, (removeNode s.g u).nodes.get? k =
      if k = u.str then none else s.g.nodes.get? k := by
    intro k; rw [hrm]; simp only [removeApply, GoMap.get?_del]
  have hw : ∀ i j, (removeNode s.g u).b.weightedEdge i j =
      if i = x.id ∨ j = x.id then none else s.g.b.weightedEdge i j := by
    intro i j; rw [hrm]; exact Gonum.weightedEdge_removeNode hinv _ _ _
  refine ⟨?_, ?_, ?_, ?_⟩
  · intro v
    unfold node
    rw [hget]
    by_cases hv : v.str = u.str
    · rw [if_pos hv, if_pos hv]
    · rw [if_neg hv, if_neg hv]
  · intro o n
    unfold nodesList
    rw [Gonum.mem_allNodes, Gonum.mem_allNodes, hrm]
    simp only [removeApply, Gonum.removeNode_nodes]
    constructor
    · rintro ⟨k, hk⟩
      split at hk
      · cases hk
      · rename_i hne
        exact ⟨⟨k, hk⟩, by rw [hinv.nodeID k n hk]; exact hne⟩
    · rintro ⟨⟨k, hk⟩, hne⟩
      exact ⟨k, by rw [if_neg (by rw [← hinv.nodeID k n hk]; exact hne)]; exact hk⟩
  · rintro p q e hpq he
    obtain ⟨m, n, hm, hn, hwe⟩ := edge_ok.mp he
    rw [hget] at hm hn
    split at hm
    · cases hm
    · split at hn
      · cases hn
      · rw [hasID_get hm, hasID_get hn] at hpq
        rw [hw, if_pos hpq] at hwe
        cases hwe
  · intro p q hp hq
    have hne : ∀ v : Uid, ¬ HasID s.g v x.id → v.str ≠ u.str := by
      intro v hv e
      exact hv ⟨x, by rw [node_get, e]; exact hx', rfl⟩
    refine edge_congr (by rw [hget, if_neg (hne p hp)]) (by rw [hget, if_neg (hne q hq)]) ?_
    intro m n hm hn
    rw [hw, if_neg]
    rintro (h | h)
    · exact hp ((hasID_get hm).mpr h)
    · exact hq ((hasID_get hn).mpr h)

/-- **C82, `From` in every history.** It lists nodes that `Nodes` lists, no ID twice, and among the IDs
that lookups lead to exactly those linked from `u`. -/
theorem c82_from_partial {d : Bool} {s : St} (hr : Reach Any d s) (o : Order (Int × Edge))
    (o' : Order (Int × Node)) (u : Uid) :
    (∀ v j, HasID s.g v j →
      ((∃ n ∈ fromList s.g o u, n.id = j) ↔ ∃ e, edge s.g u v = .ok e)) ∧
    ((fromList s.g o u).map Node.id).Nodup ∧
    (∀ n ∈ fromList s.g o u, n ∈ nodesList s.g o') := by
  obtain ⟨hinv, hdir⟩ := gonumInv_reach hr
  cases hx : s.g.nodes.get? u.str with
  | none =>
    have hl : fromList s.g o u = [] := by unfold fromList; rw [hx]
    rw [hl]
    refine ⟨?_, by simp, by simp⟩
    intro v j _
    constructor
    · rintro ⟨n, hn, -⟩; cases hn
    · rintro ⟨e, he⟩
      obtain ⟨m, n, hm, -⟩ := edge_ok.mp he
      rw [hx] at hm
      cases hm
  | some x =>
    have hl : fromList s.g o u = s.g.b.fromNodes o x.id := by unfold fromList; rw [hx]
    rw [hl]
    refine ⟨?_, Gonum.nodup_fromNodes_ids hinv o _, ?_⟩
    · rintro v j ⟨y, hy, rfl⟩
      rw [node_get] at hy
      constructor
      · rintro ⟨n, hn, hid⟩
        obtain ⟨-, hsome⟩ := (Gonum.mem_fromNodes hinv o _ n).mp hn
        rw [hid] at hsome
        obtain ⟨e, he⟩ := Option.isSome_iff_exists.mp hsome
        exact ⟨e, edge_ok.mpr ⟨x, y, hx, hy, he⟩⟩
      · rintro ⟨e, he⟩
        obtain ⟨m, n, hm, hn, hw⟩ := edge_ok.mp he
        rw [hx] at hm
        rw [hy] at hn
        cases hm
        cases hn
        obtain ⟨z, hz⟩ := (Gonum.weightedEdge_ends hinv hw).2.2.right
        have hzid := hinv.nodeID _ _ hz
        refine ⟨z, (Gonum.mem_fromNodes hinv o _ z).mpr ⟨by rw [hzid]; exact hz, ?_⟩, hzid⟩
        rw [hzid, hw]
        rfl
    · intro n hn
      exact (Gonum.mem_allNodes _ _ _).mpr ⟨_, ((Gonum.mem_fromNodes hinv o _ n).mp hn).1⟩

/-- **C82, `Edges` in every history.** A listed edge is the one `Edge` returns for every pair of UIDs
naming nodes of its ends' IDs; an edge `Edge` returns has the IDs of the nodes asked for and is listed
(in an undirected graph from one of its sides); no pair of IDs is listed twice. -/
theorem c82_edges_partial {d : Bool} {s : St} (hr : Reach Any d s) (o : EdgeOrder) :
    (∀ e ∈ edgesList s.g o, ∀ u v, HasID s.g u e.src.id → HasID s.g v e.dst.id →
      edge s.g u v = .ok e) ∧
    (∀ u v e, edge s.g u v = .ok e → HasID s.g u e.src.id ∧ HasID s.g v e.dst.id ∧
      (e ∈ edgesList s.g o ∨ (d = false ∧ e.rev ∈ edgesList s.g o))) ∧
    (edgesList s.g o).Pairwise (fun e e' =>
      ¬ (e.src.id = e'.src.id ∧ e.dst.id = e'.dst.id) ∧
      (d = false → ¬ (e.src.id = e'.dst.id ∧ e.dst.id = e'.src.id))) := by
  obtain ⟨hinv, hdir⟩ := gonumInv_reach hr
  refine ⟨?_, ?_, ?_⟩
  · rintro e he u v ⟨x, hx, hxi⟩ ⟨y, hy, hyi⟩
    rw [node_get] at hx hy
    refine edge_ok.mpr ⟨x, y, hx, hy, ?_⟩
    rw [hxi, hyi]
    exact Gonum.weightedEdges_sound hinv o he
  · intro u v e he
    obtain ⟨m, n, hm, hn, hw⟩ := edge_ok.mp he
    obtain ⟨h1, h2, -⟩ := Gonum.weightedEdge_ends hinv hw
    refine ⟨(hasID_get hm).mpr h1.symm, (hasID_get hn).mpr h2.symm, ?_⟩
    have := Gonum.weightedEdges_complete hinv o hw
    rw [hdir] at this
    exact this
  · have := Gonum.weightedEdges_pairwise hinv o
    rw [hdir] at this
    exact this

/-- Non-vacuity of the theorems for every history: two UIDs with one ID, an edge between two IDs that
both UIDs see, and one that neither sees. -/
example : Reach Any true (twinSt true) ∧ HasID (twinSt true).g uA 0 ∧ HasID (twinSt true).g uB 0 ∧
    SameIDs (twinSt true).g uB uC uA uC ∧ edge (twinSt true).g uB uC = .ok twinEdge ∧
    edge (twinSt true).g uC uB = .err .edgeNotExist := by
  refine ⟨reach_run_any _ (reach_exInit _ _), ⟨twinA, by decide +kernel, rfl⟩,
    ⟨twinB, by decide +kernel, rfl⟩, ⟨0, 1, ⟨twinB, by decide +kernel, rfl⟩,
    ⟨twinC, by decide +kernel, rfl⟩, ⟨twinA, by decide +kernel, rfl⟩,
    ⟨twinC, by decide +kernel, rfl⟩⟩, by decide +kernel, by decide +kernel⟩

end Netscrape.Props
