import Verif.Lemmas.DotIds

/-!
# Nodes a graph has not seen yet; the calls of `Verif.Model.DotIds` one at a time
-/

namespace Netscrape.DotIds
open Netscrape.Conc Netscrape.GraphPtr Netscrape.Spec.DotIds
open Netscrape.Graph (Opt Err Ent applyAll)

variable {p : NPtr} {s : St}

theorem _root_.Netscrape.Spec.DotIds.Absent.edgesOk (h : Absent p s) : EdgesOk s.mem s.g.b.edges := by
  have := h.made
  cases he : s.g.b.edges with
  | directed fr to => rw [he] at this; exact this
  | undirected ed => rw [he] at this; exact this

theorem absent_of (h1 : ∀ k, s.g.nodes.get? k ≠ some p) (h2 : ∀ i, s.g.b.nodes.get? i ≠ some p)
    (h3 : ∀ e, s.mem.EdgeOk e → (s.mem.edge e).src ≠ p ∧ (s.mem.edge e).dst ≠ p) (h4 : EdgesOk s.mem s.g.b.edges) :
    Absent p s := by
  refine ⟨h1, h2, h3, ?_⟩
  cases he : s.g.b.edges with
  | directed fr to => rw [he] at h4; exact h4
  | undirected ed => rw [he] at h4; exact h4

theorem edgesOk_mono {m m' : Mem} (h : ∀ e, m.EdgeOk e → m'.EdgeOk e) {es : Edges} (hs : EdgesOk m es) : EdgesOk m' es := by
  cases es with
  | directed fr to => exact ⟨fun i j e he => h e (hs.1 i j e he), fun i j e he => h e (hs.2 i j e he)⟩
  | undirected ed => exact fun i j e he => h e (hs i j e he)

theorem absent_same (h : Absent p s) {m : Mem} (hm : m.edges = s.mem.edges) : Absent p ⟨m, s.g⟩ := by
  have ho : ∀ e, m.EdgeOk e ↔ s.mem.EdgeOk e := fun e => by unfold Mem.EdgeOk; rw [hm]
  have he : ∀ e, m.edge e = s.mem.edge e := fun e => by unfold Mem.edge; rw [hm]
  exact absent_of h.named h.numbered (fun e he' => by rw [he]; exact h.ends e ((ho e).mp he'))
    (edgesOk_mono (fun e => (ho e).mpr) h.edgesOk)

theorem absent_alloc (h : Absent p s) (m : Mem) (hm : m.edges = s.mem.edges) (e : EdgeObj) (h1 : e.src ≠ p) (h2 : e.dst ≠ p) :
    Absent p ⟨(m.allocEdge e).2, s.g⟩ := by
  have h' := absent_same h hm
  refine absent_of h.named h.numbered (fun q hq => ?_) (edgesOk_mono (fun q hq => (edgeOk_allocEdge m e q).mpr (.inl hq)) h'.edgesOk)
  by_cases ho : m.EdgeOk q
  · show ((m.allocEdge e).2.edge q).src ≠ p ∧ ((m.allocEdge e).2.edge q).dst ≠ p
    rw [edge_allocEdge_old m e q ho]; exact h'.ends q ho
  · rcases (edgeOk_allocEdge m e q).mp hq with hq | rfl
    · exact absurd hq ho
    · show ((m.allocEdge e).2.edge _).src ≠ p ∧ ((m.allocEdge e).2.edge _).dst ≠ p
      rw [edge_allocEdge_new]; exact ⟨h1, h2⟩

theorem absent_makeEdge (h : Absent p s) (fresh : Uid) (a : Nat) (opts : List Opt) {x y : NPtr} (hx : x ≠ p) (hy : y ≠ p) :
    Absent p ⟨(makeEdge s.mem fresh a x y opts).2, s.g⟩ :=
  absent_alloc h { s.mem with heap := (Graph.mkEdge s.mem.heap fresh a (s.mem.node x) (s.mem.node y) opts).2 } rfl
    ⟨(Graph.mkEdge s.mem.heap fresh a (s.mem.node x) (s.mem.node y) opts).1.uid,
     (Graph.mkEdge s.mem.heap fresh a (s.mem.node x) (s.mem.node y) opts).1.attrs, x, y,
     (Graph.mkEdge s.mem.heap fresh a (s.mem.node x) (s.mem.node y) opts).1.dotid,
     (Graph.mkEdge s.mem.heap fresh a (s.mem.node x) (s.mem.node y) opts).1.weight⟩ hx hy

theorem absent_setEdgeDOT (h : Absent p s) (q : EPtr) (x : String) : Absent p ⟨s.mem.setEdgeDOT q x, s.g⟩ := by
  have ho : ∀ e, (s.mem.setEdgeDOT q x).EdgeOk e ↔ s.mem.EdgeOk e := fun e => by simp [Mem.EdgeOk, Mem.setEdgeDOT]
  by_cases hq : s.mem.EdgeOk q
  · refine absent_of h.named h.numbered (fun e he => ?_) (edgesOk_mono (fun e => (ho e).mpr) h.edgesOk)
    have he' := h.ends e ((ho e).mp he)
    show ((s.mem.setEdgeDOT q x).edge e).src ≠ p ∧ ((s.mem.setEdgeDOT q x).edge e).dst ≠ p
    rw [edge_setEdgeDOT s.mem q e x hq]
    split
    · next e' => subst e'; exact he'
    · exact he'
  · refine absent_same h ?_
    exact List.set_eq_of_length_le (Nat.le_of_not_lt hq)

theorem absent_removeNode (h : Absent p s) (i : Int) : Absent p ⟨s.mem, { s.g with b := s.g.b.removeNode i }⟩ := by
  unfold Builder.removeNode
  split
  · exact h
  · refine absent_of h.named (fun j => ?_) h.ends (h.edgesOk.isolate i)
    show (s.g.b.nodes.del i).get? j ≠ some p
    rw [GoMap.get?_del]
    split
    · nofun
    · exact h.numbered j

theorem absent_removeEdge (h : Absent p s) (i j : Int) : Absent p ⟨s.mem, { s.g with b := s.g.b.removeEdge i j }⟩ := by
  unfold Builder.removeEdge
  split
  · exact absent_of h.named h.numbered h.ends (h.edgesOk.cut i j)
  · exact h

theorem absent_del (h : Absent p s) (k : String) : Absent p ⟨s.mem, { s.g with nodes := s.g.nodes.del k }⟩ := by
  refine absent_of (fun j => ?_) h.numbered h.ends h.edgesOk
  show (s.g.nodes.del k).get? j ≠ some p
  rw [GoMap.get?_del]
  split
  · nofun
  · exact h.named j

theorem absent_setNode (h : Absent p s) {q : NPtr} (hq : q ≠ p) : Absent p (setNode q s) := by
  refine absent_of (fun j => ?_) h.numbered h.ends h.edgesOk
  show (s.g.nodes.set (s.mem.key q) q).get? j ≠ some p
  rw [GoMap.get?_set]
  split
  · intro e; cases e; exact hq rfl
  · exact h.named j

theorem absent_addNode (h : Absent p s) {q : NPtr} (hq : q ≠ p) {b : Builder} (hb : s.g.b.addNode s.mem q = some b) :
    Absent p ⟨s.mem, { s.g with b := b }⟩ := by
  unfold Builder.addNode at hb
  split at hb
  · cases hb
  · cases hb
    refine absent_of h.named (fun j => ?_) h.ends h.edgesOk
    show (s.g.b.nodes.set (s.mem.id q) q).get? j ≠ some p
    rw [GoMap.get?_set]
    split
    · intro e; cases e; exact hq rfl
    · exact h.numbered j

theorem absent_setWeightedEdge (h : Absent p s) {e : EPtr} (he : s.mem.EdgeOk e) {b : Builder}
    (hb : s.g.b.setWeightedEdge s.mem e = some b) : Absent p ⟨s.mem, { s.g with b := b }⟩ := by
  obtain ⟨h1, h2⟩ := setWeightedEdge_eq hb
  refine absent_of h.named (fun j => ?_) h.ends ?_
  · show b.nodes.get? j ≠ some p
    rw [h2, GoMap.get?_set]
    split
    · intro e'; cases e'; exact (h.ends e he).2 rfl
    · rw [GoMap.get?_set]
      split
      · intro e'; cases e'; exact (h.ends e he).1 rfl
      · exact h.numbered j
  · show EdgesOk s.mem b.edges
    rw [h1]; exact h.edgesOk.put he _ _

/-- The number of edges made. -/
def size (s : St) : Nat := s.mem.edges.length

/-- Of the DOTID of node `p`, only `SetDOTID` and `DOTID` of `p` access it. -/
def accP (p : NPtr) (op : DotIds.Op) (l : Loc) (_ : Bool) : Prop := l = .node p → Sets op l ∨ Gets op l

abbrev MindsP {ρ : Type} (p : NPtr) (op : DotIds.Op) (q : DProg ρ) (n : Nat) : Prop :=
  Minds (Absent p) size (accP p op) q n

theorem accP_map {op : DotIds.Op} {l : Loc} {w : Bool} (h : ∀ q, l ≠ .node q) : accP p op l w := fun e => absurd e (h p)

theorem accP_ne {op : DotIds.Op} {q : NPtr} {w : Bool} (h : q ≠ p) : accP p op (.node q) w := fun e => by cases e; exact absurd rfl h

theorem named_ne (h : Absent p s) {k : String} {q : NPtr} (hk : s.g.nodes.get? k = some q) : q ≠ p := by
  rintro rfl; exact h.named k hk

/-- Computes the continuation. -/
macro "dd" : tactic => `(tactic| dsimp -failIfUnchanged only [Prog.bind, Prog.excl, Prog.shared])

/-- `Edge`, whatever comes after it. -/
theorem keeps_edge {ρ : Type} (op : DotIds.Op) (u v : Uid) (f : Res Err EPtr → DProg ρ) (n : Nat)
    (hf : ∀ r n, MindsP p op (f r) n) : MindsP p op ((edgeP u v).bind f) n := by
  unfold edgeP
  refine ⟨accP_map nofun, fun s hs _ => ?_⟩
  dd
  cases h1 : s.g.nodes.get? u.str with
  | none => exact hf _ _
  | some a =>
    refine ⟨accP_map nofun, fun s' hs' _ => ?_⟩
    dd
    cases h2 : s'.g.nodes.get? v.str with
    | none => exact hf _ _
    | some b =>
      refine ⟨accP_ne (named_ne hs h1), fun s1 _ _ => ⟨accP_ne (named_ne hs' h2), fun s2 _ _ =>
        ⟨accP_map nofun, fun s3 hs3 _ => ?_⟩⟩⟩
      dd
      have hok := hs3.edgesOk
      cases hed : s3.g.b.edges with
      | directed fr to =>
        dsimp only
        cases fr.at (s1.mem.id a) (s2.mem.id b) <;> exact hf _ _
      | undirected ed =>
        rw [hed] at hok
        dsimp only
        cases h3 : ed.at (s1.mem.id a) (s2.mem.id b) with
        | none => exact hf _ _
        | some e =>
          have heok : s3.mem.EdgeOk e := hok _ _ _ h3
          refine ⟨accP_ne (hs3.ends e heok).1, fun s4 _ hn4 => ?_⟩
          dd
          split
          · exact hf _ _
          · refine ⟨accP_map nofun, fun s5 _ hn5 => ⟨accP_map nofun, fun s6 hs6 hn6 => ⟨?_, ?_, hf _ _⟩⟩⟩
            · have he6 : s6.mem.EdgeOk e := Nat.lt_of_lt_of_le heok (Nat.le_trans hn4 (Nat.le_trans hn5 hn6))
              exact absent_alloc hs6 _ rfl _ (hs6.ends e he6).2 (hs6.ends e he6).1
            · show s6.mem.edges.length ≤ (s6.mem.edges ++ _).length
              rw [List.length_append]; exact Nat.le_add_right _ _

theorem keeps_absent (op : DotIds.Op) (ho : NotAdding p op) (n : Nat) : MindsP p op (prog op) n := by
  have ret : ∀ {α : Type} {q : DProg α} {f : α → DotIds.Out}, MindsP p op q n →
      MindsP p op (q.bind fun r => .ret (f r)) n := fun h => .bind_ret (fun x => ⟨_, rfl⟩) h
  cases op with
  | newNode o e opts =>
    refine ret ⟨accP_map nofun, fun s _ _ => ?_⟩
    dd
    cases s.g.b.newNodeID o with
    | none => trivial
    | some id =>
      refine ⟨accP_map nofun, fun s' hs' _ => ⟨absent_same hs' rfl, Nat.le_refl _, accP_map nofun, fun s'' _ _ => ?_⟩⟩
      dd
      cases s''.g.nodes.get? e.uid.str <;> trivial
  | addNode q opts =>
    have hq : q ≠ p := ho
    refine ret ⟨accP_ne hq, fun s1 _ _ => ⟨accP_map nofun, fun s2 _ _ => ?_⟩⟩
    have fin : ∀ n, MindsP (ρ := Res Err Unit) p (.addNode q opts)
        (.write .nodes (setNode q) fun _ => .unlock () <| .ret (.ok ())) n :=
      fun n => ⟨accP_map nofun, fun s hs _ => ⟨absent_setNode hs hq, Nat.le_refl _, trivial⟩⟩
    dd
    cases s2.g.b.nodes.get? (s1.mem.id q) with
    | some _ =>
      refine ⟨accP_map nofun, fun s3 _ _ => ?_⟩
      dd
      cases s3.g.nodes.get? (s3.mem.key q) with
      | none => exact fin _
      | some _ =>
        dd
        split
        · trivial
        · exact ⟨accP_map nofun, fun s hs _ => ⟨absent_setNode hs hq, Nat.le_refl _, fin _⟩⟩
    | none =>
      refine ⟨accP_map nofun, fun s hs _ => ?_⟩
      dd
      cases hb : s.g.b.addNode s.mem q with
      | none => simp only; exact ⟨hs, Nat.le_refl _, trivial⟩
      | some b => simp only; exact ⟨absent_addNode hs hq hb, Nat.le_refl _, fin _⟩
  | node u =>
    refine ret ⟨accP_map nofun, fun s _ _ => ?_⟩
    dd
    cases s.g.nodes.get? u.str <;> trivial
  | nodes o => exact ret ⟨accP_map nofun, fun s _ _ => trivial⟩
  | removeNode u =>
    refine ret ⟨accP_map nofun, fun s hs _ => ?_⟩
    dd
    cases hk : s.g.nodes.get? u.str with
    | none => trivial
    | some q =>
      exact ⟨accP_ne (named_ne hs hk), fun s1 _ _ => ⟨accP_map nofun, fun s2 h2 _ => ⟨absent_removeNode h2 _, Nat.le_refl _,
        accP_map nofun, fun s3 h3 _ => ⟨absent_del h3 _, Nat.le_refl _, trivial⟩⟩⟩⟩
  | link fresh a f t opts =>
    refine ret (keeps_edge _ f t _ n fun r n => ?_)
    have main : MindsP (ρ := Res Err EPtr) p (.link fresh a f t opts) (.read .nodes fun s =>
      match s.g.nodes.get? f.str with
      | none => .runlock () <| .ret (.err .nodeNotFound)
      | some f => .read .nodes fun s =>
        match s.g.nodes.get? t.str with
        | none => .runlock () <| .ret (.err .nodeNotFound)
        | some t => .runlock () <| linkApplyP fresh a f t opts) n := by
      refine ⟨accP_map nofun, fun s hs _ => ?_⟩
      dd
      cases h1 : s.g.nodes.get? f.str with
      | none => trivial
      | some x =>
        refine ⟨accP_map nofun, fun s' hs' _ => ?_⟩
        dd
        cases h2 : s'.g.nodes.get? t.str with
        | none => trivial
        | some y =>
          refine ⟨accP_map nofun, fun s1 hs1 _ => ⟨?_, ?_, accP_ne (named_ne hs h1), fun s2 _ hn2 =>
            ⟨accP_ne (named_ne hs' h2), fun s3 _ hn3 => ⟨accP_map nofun, fun s4 hs4 hn4 => ?_⟩⟩⟩⟩
          · exact absent_makeEdge hs1 _ _ _ (named_ne hs h1) (named_ne hs' h2)
          · show s1.mem.edges.length ≤ (s1.mem.edges ++ _).length
            rw [List.length_append]; exact Nat.le_add_right _ _
          · have heok : s4.mem.EdgeOk (makeEdge s1.mem fresh a x y opts).1 :=
              Nat.lt_of_lt_of_le (makeEdge_new s1.mem fresh a x y opts).1 (Nat.le_trans hn2 (Nat.le_trans hn3 hn4))
            dd
            cases hb : s4.g.b.setWeightedEdge s4.mem (makeEdge s1.mem fresh a x y opts).1 with
            | none => simp only; exact ⟨hs4, Nat.le_refl _, trivial⟩
            | some b => simp only; exact ⟨absent_setWeightedEdge hs4 heok hb, Nat.le_refl _, trivial⟩
    cases r with
    | ok e => trivial
    | panic => trivial
    | err e => cases e <;> first | exact main | trivial
  | edge u v => exact keeps_edge _ u v _ n fun r n => trivial
  | edges o =>
    unfold prog edgesP
    simp only [Prog.bind, bind_ids]
    refine ⟨accP_map nofun, fun s hs _ => ?_⟩
    dsimp only
    have hall : ∀ q ∈ asked s.mem s.g.b o, q ≠ p := by
      unfold asked
      have hok := hs.edgesOk
      cases hed : s.g.b.edges with
      | directed fr to =>
        rintro q hq rfl
        simp only [Builder.allNodes, List.mem_map] at hq
        obtain ⟨⟨i, q'⟩, hm, rfl⟩ := hq
        exact hs.numbered i ((GoMap.get?_eq_some _ _ _).mpr ((o.nodes.mem_run _ _).1 hm))
      | undirected ed =>
        rw [hed] at hok
        intro q hq
        simp only [List.mem_flatMap, List.mem_map, List.mem_cons, List.not_mem_nil, or_false] at hq
        obtain ⟨e, ⟨⟨i, r⟩, hm, ⟨j, e'⟩, hm', rfl⟩, hq⟩ := hq
        have h1 := (GoMap.get?_eq_some _ _ _).mpr ((o.rows.mem_run _ _).1 hm)
        have h2 := (GoMap.get?_eq_some _ _ _).mpr (((o.row i).mem_run _ _).1 hm')
        have he : s.mem.EdgeOk e' := hok i j e' (by unfold Adj.at Adj.row; rw [h1]; exact h2)
        rcases hq with rfl | rfl
        · exact (hs.ends e' he).1
        · exact (hs.ends e' he).2
    revert hall
    generalize asked s.mem s.g.b o = ps
    generalize size s = n
    induction ps generalizing n with
    | nil => exact fun _ => trivial
    | cons q ps ih =>
      exact fun hall => ⟨accP_ne (hall q List.mem_cons_self), fun _ _ _ => ih _ fun x hx => hall x (List.mem_cons_of_mem _ hx)⟩
  | from' o u =>
    refine ret ⟨accP_map nofun, fun s hs _ => ?_⟩
    dd
    cases hk : s.g.nodes.get? u.str with
    | none => trivial
    | some q => exact ⟨accP_ne (named_ne hs hk), fun s1 _ _ => ⟨accP_map nofun, fun s2 _ _ => trivial⟩⟩
  | unlink f t =>
    refine ret ⟨accP_map nofun, fun s hs _ => ?_⟩
    dd
    dd
    cases h1 : s.g.nodes.get? f.str with
    | none => trivial
    | some x =>
      refine ⟨accP_map nofun, fun s' hs' _ => ?_⟩
      dd
      dd
      cases h2 : s'.g.nodes.get? t.str with
      | none => trivial
      | some y =>
        exact ⟨accP_ne (named_ne hs h1), fun s1 _ _ => ⟨accP_ne (named_ne hs' h2), fun s2 _ _ =>
          ⟨accP_map nofun, fun s3 h3 _ => ⟨absent_removeEdge h3 _ _, Nat.le_refl _, trivial⟩⟩⟩⟩
  | nodeDOT q => exact ⟨fun _ => .inr rfl, fun _ _ _ => trivial⟩
  | edgeDOT q => exact ⟨accP_map nofun, fun _ _ _ => trivial⟩
  | setNodeDOT q x => exact ⟨fun _ => .inl rfl, fun s hs _ => ⟨absent_same hs rfl, Nat.le_refl _, trivial⟩⟩
  | setEdgeDOT q x =>
    refine ⟨accP_map nofun, fun s hs _ => ⟨absent_setEdgeDOT hs q x, ?_, trivial⟩⟩
    show s.mem.edges.length ≤ (s.mem.edges.set _ _).length
    rw [List.length_set]; exact Nat.le_refl _

/-- The call in `Verif.Model.GraphPtr`. -/
def seqOp : DotIds.Op → Option GraphPtr.Op
  | .newNode o e opts => some (.newNode o e opts)
  | .addNode p opts => some (.addNode p opts)
  | .removeNode u => some (.removeNode u)
  | .link fresh a f t opts => some (.link fresh a f t opts)
  | .edge u v => some (.edge u v)
  | .unlink f t => some (.unlink f t)
  | .setNodeDOT p x => some (.setNodeDOT p x)
  | .setEdgeDOT p x => some (.setEdgeDOT p x)
  | _ => none

/-- What it returns here. -/
def seqOut : GraphPtr.Out → DotIds.Out
  | .node r => .node r
  | .unit r => .unit r
  | .edge r => .edge r

theorem eval_ids {ρ : Type} (ps : List NPtr) (k : DProg ρ) (s : St) : (idsOf ps k).eval s = k.eval s := by
  induction ps with
  | nil => rfl
  | cons p ps ih => simp only [idsOf, idOf, Prog.eval, ih]

theorem eval_bind {α β : Type} (q : DProg α) (f : α → DProg β) (s : St) :
    (q.bind f).eval s = (f (q.eval s).2).eval (q.eval s).1 := by
  induction q generalizing s with
  | ret r => rfl
  | lock _ k ih | acquire _ k ih | unlock _ k ih | rlock _ k ih | runlock _ k ih => exact ih s
  | read l k ih => exact ih s s
  | write l g k ih => exact ih s (g s)

theorem eval_edge (u v : Uid) (s : St) :
    (edgeP u v).eval s = (⟨(GraphPtr.edge s.mem s.g u v).2, s.g⟩, (GraphPtr.edge s.mem s.g u v).1) := by
  unfold edgeP GraphPtr.edge Builder.weightedEdge
  simp only [Prog.shared, Prog.bind, Prog.eval, eval_bind]
  cases h1 : s.g.nodes.get? u.str with
  | none => rfl
  | some a =>
    simp only [Prog.eval]
    cases h2 : s.g.nodes.get? v.str with
    | none => rfl
    | some b =>
      simp only [Prog.eval, idOf]
      cases s.g.b.edges with
      | directed fr to =>
        simp only
        cases fr.at (s.mem.id a) (s.mem.id b) <;> rfl
      | undirected ed =>
        simp only
        cases ed.at (s.mem.id a) (s.mem.id b) with
        | none => rfl
        | some e =>
          simp only [Prog.eval]
          by_cases hi : s.mem.id (s.mem.edge e).src = s.mem.id a
          · simp only [hi, if_true]; rfl
          · simp only [hi, if_false]; rfl

/-- Made alone, the calls do what `Verif.Model.GraphPtr` says. -/
theorem eval_prog {op : DotIds.Op} {op' : GraphPtr.Op} (h : seqOp op = some op') (s : St) :
    (prog op).eval s = ((GraphPtr.step s op').1, seqOut (GraphPtr.step s op').2) := by
  cases op <;> simp only [seqOp, reduceCtorEq, Option.some.injEq] at h <;> subst h
  case newNode o e opts =>
    simp only [prog, newNodeP, eval_bind, Prog.eval, GraphPtr.step, GraphPtr.newNode]
    cases s.g.b.newNodeID o with
    | none => rfl
    | some id =>
      have hk : (makeNode s.mem id e opts).2.key (makeNode s.mem id e opts).1 = e.uid.str := by
        unfold Mem.key makeNode
        rw [node_allocNode_new]; rfl
      simp only [Prog.eval, hk]
      cases s.g.nodes.get? e.uid.str <;> rfl
  case addNode p opts =>
    simp only [prog, addNodeP, eval_bind, Prog.excl, Prog.eval, GraphPtr.step, GraphPtr.addNode, idOf]
    cases h1 : s.g.b.nodes.get? (s.mem.id p) with
    | some x =>
      simp only [Prog.eval]
      cases h2 : s.g.nodes.get? (s.mem.key p) with
      | none => rfl
      | some y =>
        simp only
        split <;> rfl
    | none =>
      simp only [Prog.eval]
      cases s.g.b.addNode s.mem p <;> rfl
  case removeNode u =>
    simp only [prog, removeNodeP, eval_bind, Prog.eval, GraphPtr.step, GraphPtr.removeNode]
    cases s.g.nodes.get? u.str <;> rfl
  case link fresh a f t opts =>
    simp only [prog, linkP, eval_bind, Prog.eval, GraphPtr.step, GraphPtr.link, eval_edge]
    cases he : GraphPtr.edge s.mem s.g f t with
    | mk r m =>
      cases r with
      | ok e => rfl
      | panic => rfl
      | err e =>
        cases e with
        | edgeNotExist =>
          simp only [Prog.eval]
          cases s.g.nodes.get? f.str with
          | none => rfl
          | some x =>
            simp only [Prog.eval]
            cases s.g.nodes.get? t.str with
            | none => rfl
            | some y =>
              simp only [Prog.eval, linkApplyP, Prog.excl, eval_bind, idOf]
              cases s.g.b.setWeightedEdge (makeEdge m fresh a x y opts).2 (makeEdge m fresh a x y opts).1 <;> rfl
        | _ => rfl
  case edge u v => simp only [prog, eval_bind, Prog.eval, GraphPtr.step, eval_edge, seqOut]
  case unlink f t =>
    simp only [prog, unlinkP, eval_bind, Prog.eval, GraphPtr.step, GraphPtr.unlink]
    cases s.g.nodes.get? f.str with
    | none => rfl
    | some x =>
      simp only [Prog.eval]
      cases s.g.nodes.get? t.str <;> rfl
  case setNodeDOT p x => rfl
  case setEdgeDOT p x => rfl

end Netscrape.DotIds
