import Verif.Lemmas.GraphPtr

/-!
# Objects and values: what the calls hand out
-/

namespace Netscrape.GraphPtr
open Netscrape.Spec.GraphPtr
open Netscrape.Graph (Opt Err)

/-! ## From objects to values -/

theorem ptr_reach_any {P : St → Op → Prop} {d : Bool} {s : St} (hr : Reach P d s) :
    Spec.Graph.Reach Spec.Graph.Any d (abs s) :=
  reach_abs (fun _ _ _ _ _ _ _ => trivial) hr

theorem ptr_node {m : Mem} {g : WG} {u : Uid} {n : Graph.Node} (h : Graph.node (absG m g) u = .ok n) :
    ∃ p, node g u = .ok p ∧ n = absN m p := by
  rw [absG_node] at h
  cases hn : node g u with
  | ok p => rw [hn] at h; cases h; exact ⟨p, rfl, rfl⟩
  | err e => rw [hn] at h; cases h
  | panic => rw [hn] at h; cases h

theorem ptr_node' {m : Mem} {g : WG} {u : Uid} {p : NPtr} :
    Graph.node (absG m g) u = .ok (absN m p) ↔ node g u = .ok p := by
  constructor
  · intro h
    obtain ⟨q, hq, he⟩ := ptr_node h
    rw [absN_inj he]; exact hq
  · intro h; rw [absG_node, h]

theorem ptr_fits {s : St} {p : NPtr} (h : Fits s p) (hp : Heap) :
    Spec.Graph.Fits (Graph.St.mk hp (absG s.mem s.g)).g (absN s.mem p) := by
  intro u n hn
  obtain ⟨q, hq, rfl⟩ := ptr_node hn
  exact h u q hq

theorem ptr_reach_disciplined {d : Bool} {s : St} (hr : Reach Disciplined d s) :
    Spec.Graph.Reach Spec.Graph.Disciplined d (abs s) := by
  refine reach_abs (fun s op hw hp gop hgop h => ?_) hr
  cases op with
  | addNode p opts =>
    rw [List.mem_singleton.mp hgop]
    exact ptr_fits hp h
  | link fresh a f t opts =>
    unfold absOps at hgop
    simp only [] at hgop
    split at hgop
    · rcases List.mem_cons.mp hgop with rfl | hgop
      · trivial
      · rw [List.mem_singleton.mp hgop]; trivial
    · cases hgop
  | edge => cases hgop
  | setNodeDOT => cases hgop
  | setEdgeDOT => cases hgop
  | _ => rw [List.mem_singleton.mp hgop]; trivial

theorem ptr_reach_noReplace {d : Bool} {s : St} (hr : Reach NoReplace d s) :
    Spec.Graph.Reach Spec.Graph.NoReplace d (abs s) := by
  refine reach_abs (fun s op hw hp gop hgop h => ?_) hr
  cases op with
  | addNode p opts =>
    rw [List.mem_singleton.mp hgop]
    refine ⟨ptr_fits hp.1 h, fun hu n hn => ?_⟩
    obtain ⟨q, hq, rfl⟩ := ptr_node hn
    rw [hp.2 hu q hq]
  | link fresh a f t opts =>
    unfold absOps at hgop
    simp only [] at hgop
    split at hgop
    · rcases List.mem_cons.mp hgop with rfl | hgop
      · trivial
      · rw [List.mem_singleton.mp hgop]; trivial
    · cases hgop
  | edge => cases hgop
  | setNodeDOT => cases hgop
  | setEdgeDOT => cases hgop
  | _ => rw [List.mem_singleton.mp hgop]; trivial

theorem ptr_mem_nodes (m : Mem) (g : WG) (o : Order (Int × NPtr)) (o' : Order (Int × Graph.Node)) (p : NPtr) :
    p ∈ nodesList g o ↔ absN m p ∈ Graph.nodesList (absG m g) o' := by
  simp only [nodesList, Builder.allNodes, Graph.nodesList, Gonum.Builder.allNodes, List.mem_map, Order.mem_run,
    absG, absB, GoMap.entries_mapVals]
  constructor
  · rintro ⟨e, he, rfl⟩
    exact ⟨_, ⟨e, he, rfl⟩, rfl⟩
  · rintro ⟨_, ⟨e, he, rfl⟩, h⟩
    exact ⟨e, he, absN_inj h⟩

theorem ptr_mem_from (m : Mem) (g : WG) (o : Order (Int × EPtr)) (o' : Order (Int × Graph.Edge)) (u : Uid)
    (p : NPtr) : p ∈ fromList m g o u ↔ absN m p ∈ Graph.fromList (absG m g) o' u := by
  unfold fromList Graph.fromList
  simp only [absG, GoMap.get?_mapVals]
  cases g.nodes.get? u.str with
  | none => simp
  | some q =>
    have hrow : (absB m g.b).fromRow (m.id q) = (g.b.fromRow (m.id q)).mapVals (absE m) := by
      unfold Gonum.Builder.fromRow Builder.fromRow absB
      cases g.b.edges <;> exact absAdj_row _ _ _
    have hnodes : ∀ i, (absB m g.b).nodes.get? i = (g.b.nodes.get? i).map (absN m) :=
      fun i => GoMap.get?_mapVals _ _ _
    simp only [Option.map, Builder.fromNodes, Gonum.Builder.fromNodes, List.mem_filterMap, Order.mem_run,
      absN_id, hrow, hnodes, GoMap.entries_mapVals, List.mem_map]
    constructor
    · rintro ⟨e, he, h⟩
      exact ⟨_, ⟨e, he, rfl⟩, by dsimp only; rw [h]⟩
    · rintro ⟨_, ⟨e, he, rfl⟩, h⟩
      refine ⟨e, he, ?_⟩
      dsimp only at h
      cases hn : g.b.nodes.get? e.1 with
      | none => rw [hn] at h; cases h
      | some r =>
        rw [hn] at h
        exact congrArg some (absN_inj (Option.some.inj h))

/-! ## Iteration orders -/

/-- An order on objects, as an order on their values. -/
def orderAlong {α β : Type} [DecidableEq β] (f : α → β) (g : β → α) (o : Order α) : Order β :=
  ⟨fun l => if l = (l.map g).map f then (o.run (l.map g)).map f else l, fun l => by
    split
    · rename_i h
      have := (o.perm (l.map g)).map f
      rwa [← h] at this
    · exact .refl _⟩

theorem run_orderAlong {α β : Type} [DecidableEq β] {f : α → β} {g : β → α} (hgf : ∀ a, g (f a) = a)
    (o : Order α) (l : List α) : (orderAlong f g o).run (l.map f) = (o.run l).map f := by
  have h : (l.map f).map g = l := by
    rw [List.map_map]
    exact (List.map_congr_left fun a _ => hgf a).trans (List.map_id l)
  simp only [orderAlong, h, if_true]

/-- The orders of one `Edges` call, as orders on values. -/
def edgeOrder (m : Mem) (o : EdgeOrder) : Gonum.EdgeOrder where
  nodes := orderAlong (fun e : Int × NPtr => (e.1, absN m e.2)) (fun e => (e.1, e.2.dotid.toList.length)) o.nodes
  rows := orderAlong (fun e : Int × GoMap Int EPtr => (e.1, e.2.mapVals (absE m)))
    (fun e => (e.1, e.2.mapVals fun x => x.uid.addr)) o.rows
  row i := orderAlong (fun e : Int × EPtr => (e.1, absE m e.2)) (fun e => (e.1, e.2.uid.addr)) (o.row i)

theorem dedup_abs (m : Mem) : ∀ (l : List EPtr) (seen : List (Int × Int)),
    Gonum.dedup (l.map (absE m)) seen = (dedup m l seen).map (absE m)
  | [], _ => rfl
  | e :: l, seen => by
    simp only [List.map_cons, Gonum.dedup, dedup]
    by_cases h : (m.id (m.edge e).src, m.id (m.edge e).dst) ∈ seen
    · rw [if_pos h, if_pos (show ((absE m e).src.id, (absE m e).dst.id) ∈ seen from h)]
      exact dedup_abs m l seen
    · rw [if_neg h, if_neg (show ¬ ((absE m e).src.id, (absE m e).dst.id) ∈ seen from h), List.map_cons]
      exact congrArg _ (dedup_abs m l _)

theorem edgesList_abs (m : Mem) (g : WG) (o : EdgeOrder) :
    Graph.edgesList (absG m g) (edgeOrder m o) = (edgesList m g o).map (absE m) := by
  have h1 : ∀ a : Int × NPtr, (fun e : Int × Graph.Node => (e.1, e.2.dotid.toList.length))
      ((fun e : Int × NPtr => (e.1, absN m e.2)) a) = a := by
    rintro ⟨i, p⟩
    simp [absN, mark]
  have h2 : ∀ a : Int × EPtr, (fun e : Int × Graph.Edge => (e.1, e.2.uid.addr))
      ((fun e : Int × EPtr => (e.1, absE m e.2)) a) = a := fun _ => rfl
  have h3 : ∀ a : Int × GoMap Int EPtr,
      (fun e : Int × GoMap Int Graph.Edge => (e.1, e.2.mapVals fun x => x.uid.addr))
      ((fun e : Int × GoMap Int EPtr => (e.1, e.2.mapVals (absE m))) a) = a := by
    rintro ⟨i, r⟩
    refine Prod.ext rfl (GoMap.ext_entries ?_)
    simp only [GoMap.entries_mapVals, List.map_map]
    exact (List.map_congr_left fun a _ => rfl).trans (List.map_id _)
  have hrow : ∀ (i : Int) (r : GoMap Int EPtr),
      (((edgeOrder m o).row i).run (r.mapVals (absE m)).entries).map Prod.snd =
        (((o.row i).run r.entries).map Prod.snd).map (absE m) := by
    intro i r
    rw [GoMap.entries_mapVals]
    show ((orderAlong _ _ (o.row i)).run (r.entries.map fun e : Int × EPtr => (e.1, absE m e.2))).map _ = _
    rw [run_orderAlong h2, List.map_map, List.map_map]
    rfl
  unfold Graph.edgesList edgesList Gonum.Builder.weightedEdges Builder.weightedEdges
  simp only [absG, absB]
  cases g.b.edges with
  | directed fr to =>
    simp only [absEdges]
    rw [GoMap.entries_mapVals]
    rw [show (edgeOrder m o).nodes.run (g.b.nodes.entries.map fun e => (e.1, absN m e.2)) =
      (o.nodes.run g.b.nodes.entries).map fun e => (e.1, absN m e.2) from run_orderAlong h1 _ _]
    rw [List.flatMap_map, List.map_flatMap]
    refine congrArg (List.flatMap · _) (funext fun kn => ?_)
    dsimp only
    rw [absN_id, absAdj_row]
    exact hrow _ _
  | undirected ed =>
    simp only [absEdges]
    rw [← dedup_abs]
    refine congrArg (Gonum.dedup · []) ?_
    rw [show (absAdj m ed).entries = ed.entries.map fun e => (e.1, e.2.mapVals (absE m)) from rfl]
    rw [show (edgeOrder m o).rows.run (ed.entries.map fun e => (e.1, e.2.mapVals (absE m))) =
      (o.rows.run ed.entries).map fun e => (e.1, e.2.mapVals (absE m)) from run_orderAlong h3 _ _]
    rw [List.flatMap_map, List.map_flatMap]
    exact congrArg (List.flatMap · _) (funext fun kr => hrow _ _)

end Netscrape.GraphPtr
