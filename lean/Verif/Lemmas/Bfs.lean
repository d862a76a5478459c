import Verif.Lemmas.Gonum
import Verif.Model.SubGraph

/-!
# What the breadth-first walk visits
-/

namespace Netscrape.Gonum
open Netscrape.Graph

variable {σ : Type}

theorem length_le_of_nodup_subset {α : Type} [DecidableEq α] (l l' : List α) (hl : l.Nodup)
    (h : ∀ a ∈ l, a ∈ l') : l.length ≤ l'.length := by
  induction l generalizing l' with
  | nil => simp
  | cons a l ih =>
    rw [List.nodup_cons] at hl
    have ha := h a List.mem_cons_self
    have := ih (l'.erase a) hl.2 (fun c hc => by
      refine (List.mem_erase_of_ne ?_).mpr (h c (List.mem_cons_of_mem _ hc))
      rintro rfl
      exact hl.1 hc)
    rw [List.length_erase_of_mem ha] at this
    have := List.length_pos_of_mem ha
    rw [List.length_cons]
    omega

/-- IDs within `k` edges of `r`. -/
def Within (b : Builder) (r : Int) : Nat → Int → Prop
  | 0, i => i = r
  | k + 1, i => Within b r k i ∨ ∃ j, Within b r k j ∧ (b.weightedEdge j i).isSome

theorem Within.mono {b : Builder} {r i : Int} {k k' : Nat} (h : k ≤ k') (hw : Within b r k i) :
    Within b r k' i := by
  induction h with
  | refl => exact hw
  | step _ ih => exact Or.inl ih

/-- The effect of the inner loop. -/
theorem foldl_meet (visit : σ → Node → σ) (ns : List Node) (w : Bfs σ) :
    ∃ new : List Node,
      let w' := ns.foldl (Bfs.meet visit) w
      w'.queue = w.queue ++ new ∧ w'.visited = (new.map Node.id).reverse ++ w.visited ∧
      w'.depth = w.depth ∧ w'.untilNext = w.untilNext ∧
      w'.children = w.children + (new.length : Int) ∧
      w'.acc = new.foldl visit w.acc ∧ (∀ n ∈ new, n ∈ ns) ∧ (new.map Node.id).Nodup ∧
      (∀ n ∈ new, n.id ∉ w.visited) ∧ (∀ n ∈ ns, n.id ∈ w'.visited) := by
  induction ns generalizing w with
  | nil => exact ⟨[], by simp⟩
  | cons n ns ih =>
    obtain ⟨new, h1, h2, h3, h4, h5, h6, h7, h8, h9, h10⟩ := ih (Bfs.meet visit w n)
    by_cases hv : n.id ∈ w.visited
    · have hm : Bfs.meet visit w n = w := by unfold Bfs.meet; rw [if_pos hv]
      rw [hm] at h1 h2 h3 h4 h5 h6 h9 h10
      refine ⟨new, ?_⟩
      simp only [List.foldl_cons, hm]
      refine ⟨h1, h2, h3, h4, h5, h6, fun m hm => List.mem_cons_of_mem _ (h7 m hm), h8, h9, ?_⟩
      intro m hm'
      rcases List.mem_cons.mp hm' with rfl | hm'
      · rw [h2]; exact List.mem_append_right _ hv
      · exact h10 m hm'
    · have hm : Bfs.meet visit w n =
          { w with
            acc := visit w.acc n, visited := n.id :: w.visited,
            children := w.children + 1, queue := w.queue ++ [n] } := by
        unfold Bfs.meet; rw [if_neg hv]
      rw [hm] at h1 h2 h3 h4 h5 h6 h9 h10
      simp only at h1 h2 h3 h4 h5 h6 h9 h10
      refine ⟨n :: new, ?_⟩
      simp only [List.foldl_cons, hm]
      refine ⟨?_, ?_, h3, h4, ?_, h6, ?_, ?_, ?_, ?_⟩
      · rw [h1]; simp
      · rw [h2]; simp
      · rw [h5]; simp only [List.length_cons]; omega
      · intro m hm'
        rcases List.mem_cons.mp hm' with rfl | hm'
        · exact List.mem_cons_self
        · exact List.mem_cons_of_mem _ (h7 m hm')
      · rw [List.map_cons, List.nodup_cons]
        refine ⟨?_, h8⟩
        intro hmem
        obtain ⟨m, hm', hid⟩ := List.mem_map.mp hmem
        exact h9 m hm' (by rw [hid]; exact List.mem_cons_self)
      · intro m hm'
        rcases List.mem_cons.mp hm' with rfl | hm'
        · exact hv
        · intro hc
          exact h9 m hm' (List.mem_cons_of_mem _ hc)
      · intro m hm'
        rcases List.mem_cons.mp hm' with rfl | hm'
        · rw [h2]; exact List.mem_append_right _ List.mem_cons_self
        · exact h10 m hm'

/-- The invariant of the outer loop; `n` is the current depth, `d` the bound. -/
structure LoopInv (b : Builder) (visit : σ → Node → σ) (root : Node) (acc₀ : σ) (d : Int)
    (w : Bfs σ) (vs cur next : List Node) (n : Nat) : Prop where
  queue : w.queue = cur ++ next
  untilNext : w.untilNext = (cur.length : Int)
  children : w.children = (next.length : Int)
  pos : cur = [] → next = []
  visited : w.visited = (vs.map Node.id).reverse
  nodup : (vs.map Node.id).Nodup
  acc : w.acc = vs.foldl visit acc₀
  start : ∃ tl, vs = root :: tl ∧ ∀ m ∈ tl, b.nodes.get? m.id = some m
  depth : w.depth = (n : Int)
  curIn : ∀ m ∈ cur, Within b root.id n m.id
  nextIn : ∀ m ∈ next, Within b root.id (n + 1) m.id ∧ ¬ Within b root.id n m.id
  full : ∀ i, Within b root.id n i → i ∈ w.visited
  sound : ∀ i ∈ w.visited, Within b root.id n i ∨ i ∈ next.map Node.id
  expanded : ∀ i ∈ w.visited, (∀ m ∈ w.queue, m.id ≠ i) →
    ∀ j, (b.weightedEdge i j).isSome → j ∈ w.visited
  bound : d < 0 ∨ (n : Int) < d ∨ ((n : Int) = d ∧ next = [])

theorem LoopInv.step {b : Builder} (hb : Inv b) {ord : Int → Order (Int × Edge)}
    {visit : σ → Node → σ} {root : Node} {acc₀ : σ} {d : Int} {w : Bfs σ}
    {vs cur next : List Node} {n : Nat} (h : LoopInv b visit root acc₀ d w vs cur next n)
    {t : Node} {q : List Node} (hq : w.queue = t :: q) (hstop : w.depth ≠ d) :
    ∃ vs' cur' next' n', LoopInv b visit root acc₀ d
      (((b.fromNodes (ord t.id) t.id).foldl (Bfs.meet visit) { w with queue := q }).level)
      vs' cur' next' n' ∧
      (((b.fromNodes (ord t.id) t.id).foldl (Bfs.meet visit) { w with queue := q }).level).queue.length
        + vs.length + 1 = w.queue.length + vs'.length := by
  -- the dequeued node is at the current level
  obtain ⟨cur, rfl⟩ : ∃ c, cur = t :: c := by
    cases cur with
    | nil =>
      have := h.queue
      rw [h.pos rfl, hq] at this
      cases this
    | cons c cs =>
      have := h.queue
      rw [hq] at this
      simp only [List.cons_append, List.cons.injEq] at this
      exact ⟨cs, by rw [this.1]⟩
  have hq' : q = cur ++ next := by
    have := h.queue
    rw [hq] at this
    simpa using this
  obtain ⟨new, h1, h2, h3, h4, h5, h6, h7, h8, h9, h10⟩ :=
    foldl_meet visit (b.fromNodes (ord t.id) t.id) { w with queue := q }
  simp only at h1 h2 h3 h4 h5 h6 h9
  generalize hw' : (b.fromNodes (ord t.id) t.id).foldl (Bfs.meet visit) { w with queue := q } = w'
    at h1 h2 h3 h4 h5 h6 h10
  have htn : Within b root.id n t.id := h.curIn t List.mem_cons_self
  have hnbound : d < 0 ∨ (n : Int) < d := by
    rcases h.bound with hd | hd | ⟨hd, -⟩
    · exact Or.inl hd
    · exact Or.inr hd
    · exact absurd (h.depth.trans hd) hstop
  have hnewR : ∀ m ∈ new, Within b root.id (n + 1) m.id ∧ ¬ Within b root.id n m.id ∧
      b.nodes.get? m.id = some m := by
    intro m hm
    obtain ⟨g1, g2⟩ := (mem_fromNodes hb _ _ _).mp (h7 m hm)
    exact ⟨Or.inr ⟨t.id, htn, g2⟩, fun hc => h9 m hm (h.full _ hc), g1⟩
  have hsucc : ∀ j, (b.weightedEdge t.id j).isSome → j ∈ w'.visited := by
    intro j hj
    obtain ⟨e, he⟩ := Option.isSome_iff_exists.mp hj
    obtain ⟨m, hm⟩ := (weightedEdge_ends hb he).2.2.right
    have hid := hb.nodeID _ _ hm
    have := h10 m ((mem_fromNodes hb _ _ _).mpr ⟨by rw [hid]; exact hm, by rw [hid]; exact hj⟩)
    rw [hid] at this
    exact this
  have hvisited : w'.visited = ((vs ++ new).map Node.id).reverse := by
    rw [h2, h.visited]; simp
  have hnodup : ((vs ++ new).map Node.id).Nodup := by
    rw [List.map_append, List.nodup_append]
    refine ⟨h.nodup, h8, ?_⟩
    rintro a ha c hc rfl
    obtain ⟨m, hm, hid⟩ := List.mem_map.mp hc
    exact h9 m hm (by rw [h.visited, hid]; exact List.mem_reverse.mpr ha)
  have hroot : ∃ tl, vs ++ new = root :: tl ∧ ∀ m ∈ tl, b.nodes.get? m.id = some m := by
    obtain ⟨tl, htl, hall⟩ := h.start
    refine ⟨tl ++ new, by rw [htl]; rfl, ?_⟩
    intro m hm
    rcases List.mem_append.mp hm with hm | hm
    · exact hall m hm
    · exact (hnewR m hm).2.2
  have hexp : ∀ i ∈ w'.visited, (∀ m ∈ w'.queue, m.id ≠ i) →
      ∀ j, (b.weightedEdge i j).isSome → j ∈ w'.visited := by
    intro i hi hnq j hj
    rw [h2] at hi
    rcases List.mem_append.mp hi with hi | hi
    · exfalso
      obtain ⟨m, hm, hid⟩ := List.mem_map.mp (List.mem_reverse.mp hi)
      exact hnq m (by rw [h1]; exact List.mem_append_right _ hm) hid
    · by_cases hit : i = t.id
      · subst hit; exact hsucc j hj
      · rw [h2]
        refine List.mem_append_right _ (h.expanded i hi ?_ j hj)
        intro m hm
        rw [hq] at hm
        rcases List.mem_cons.mp hm with rfl | hm
        · exact fun hc => hit hc.symm
        · exact hnq m (by rw [h1]; exact List.mem_append_left _ hm)
  have hacc : w'.acc = (vs ++ new).foldl visit acc₀ := by
    rw [h6, h.acc, List.foldl_append]
  have hfull : ∀ i, Within b root.id n i → i ∈ w'.visited := by
    intro i hi; rw [h2]; exact List.mem_append_right _ (h.full i hi)
  have hsound : ∀ i ∈ w'.visited, Within b root.id n i ∨ i ∈ (next ++ new).map Node.id := by
    intro i hi
    rw [h2] at hi
    rcases List.mem_append.mp hi with hi | hi
    · right
      rw [List.map_append]
      exact List.mem_append_right _ (List.mem_reverse.mp hi)
    · rcases h.sound i hi with hi | hi
      · exact Or.inl hi
      · right
        rw [List.map_append]
        exact List.mem_append_left _ hi
  have hnextIn : ∀ m ∈ next ++ new, Within b root.id (n + 1) m.id ∧ ¬ Within b root.id n m.id := by
    intro m hm
    rcases List.mem_append.mp hm with hm | hm
    · exact h.nextIn m hm
    · exact ⟨(hnewR m hm).1, (hnewR m hm).2.1⟩
  have hchildren : w'.children = ((next ++ new).length : Int) := by
    rw [h5, h.children, List.length_append]; push_cast; rfl
  have hqueue : w'.queue = cur ++ (next ++ new) := by rw [h1, hq', List.append_assoc]
  have huntil : w'.untilNext = ((cur.length + 1 : Nat) : Int) := by rw [h4, h.untilNext]; simp
  have hlen : w'.queue.length + vs.length + 1 = w.queue.length + (vs ++ new).length := by
    rw [h1, hq, List.length_append, List.length_append, List.length_cons]; omega
  unfold Bfs.level
  by_cases hlast : w'.untilNext - 1 = 0
  · -- the level is finished
    rw [if_pos hlast]
    have hcur : cur = [] := by
      rw [huntil] at hlast
      have : cur.length = 0 := by omega
      exact List.length_eq_zero_iff.mp this
    subst hcur
    have hfull' : ∀ i, Within b root.id (n + 1) i → i ∈ w'.visited := by
      intro i hi
      rcases hi with hi | ⟨j, hj, hji⟩
      · exact hfull i hi
      · refine hexp j (hfull j hj) ?_ i hji
        intro m hm
        rw [hqueue, List.nil_append] at hm
        intro hc
        exact (hnextIn m hm).2 (hc ▸ hj)
    refine ⟨vs ++ new, next ++ new, [], n + 1, ?_, hlen⟩
    refine ⟨by simpa using hqueue, hchildren, rfl, fun _ => rfl, hvisited, hnodup, hacc, hroot, ?_,
      fun m hm => (hnextIn m hm).1, by simp, hfull', ?_, hexp, ?_⟩
    · simp only [h3, h.depth]; push_cast; rfl
    · intro i hi
      left
      rcases hsound i hi with hi | hi
      · exact Or.inl hi
      · obtain ⟨m, hm, rfl⟩ := List.mem_map.mp hi
        exact (hnextIn m hm).1
    · rcases hnbound with hd | hd
      · exact Or.inl hd
      · push_cast
        by_cases hc : (n : Int) + 1 = d
        · exact Or.inr (Or.inr ⟨hc, rfl⟩)
        · exact Or.inr (Or.inl (by omega))
  · rw [if_neg hlast]
    refine ⟨vs ++ new, cur, next ++ new, n, ?_, hlen⟩
    refine ⟨hqueue, ?_, hchildren, ?_, hvisited, hnodup, hacc, hroot, h3.trans h.depth,
      fun m hm => h.curIn m (List.mem_cons_of_mem _ hm), hnextIn, hfull, hsound, hexp, ?_⟩
    · simp only [huntil]; push_cast; omega
    · intro hc
      subst hc
      rw [huntil] at hlast
      simp at hlast
    · rcases hnbound with hd | hd
      · exact Or.inl hd
      · exact Or.inr (Or.inl hd)

/-- Visited IDs are those of the root and of registered nodes. -/
theorem LoopInv.length_le {b : Builder} {visit : σ → Node → σ} {root : Node} {acc₀ : σ} {d : Int}
    {w : Bfs σ} {vs cur next : List Node} {n : Nat}
    (h : LoopInv b visit root acc₀ d w vs cur next n) : vs.length ≤ b.nodes.size + 1 := by
  obtain ⟨tl, htl, hall⟩ := h.start
  have hnd := h.nodup
  rw [htl, List.map_cons, List.nodup_cons] at hnd
  have hsub : (tl.map Node.id).length ≤ b.nodes.keys.length := by
    refine length_le_of_nodup_subset _ _ hnd.2 ?_
    intro i hi
    obtain ⟨m, hm, rfl⟩ := List.mem_map.mp hi
    exact (GoMap.mem_keys _ _).mpr ⟨m, hall m hm⟩
  rw [htl, List.length_cons]
  simp only [List.length_map] at hsub
  have hk : b.nodes.keys.length = b.nodes.size := by simp [GoMap.keys, GoMap.size]
  omega

theorem loop_spec {b : Builder} (hb : Inv b) (ord : Int → Order (Int × Edge))
    (visit : σ → Node → σ) (root : Node) (acc₀ : σ) (d : Int) (fuel : Nat) (w : Bfs σ)
    (vs cur next : List Node) (n : Nat) (h : LoopInv b visit root acc₀ d w vs cur next n)
    (hfuel : b.nodes.size + 1 + w.queue.length < fuel + vs.length) :
    ∃ w' vs', Bfs.loop b ord visit (fun _ k => k == d) fuel w = some w' ∧
      w'.acc = vs'.foldl visit acc₀ ∧ (vs'.map Node.id).Nodup ∧
      (∃ tl, vs' = root :: tl ∧ ∀ m ∈ tl, b.nodes.get? m.id = some m) ∧
      ∀ i, i ∈ vs'.map Node.id ↔ ∃ k : Nat, (d < 0 ∨ (k : Int) ≤ d) ∧ Within b root.id k i := by
  induction fuel generalizing w vs cur next n with
  | zero =>
    exfalso
    have := h.length_le
    omega
  | succ fuel ih =>
    unfold Bfs.loop
    have hmemvs : ∀ i, i ∈ w.visited ↔ i ∈ vs.map Node.id := by
      intro i; rw [h.visited, List.mem_reverse]
    have hstopped : next = [] → ((n : Int) = d ∨ cur = []) →
        ∀ i, i ∈ vs.map Node.id ↔ ∃ k : Nat, (d < 0 ∨ (k : Int) ≤ d) ∧ Within b root.id k i := by
      intro hnext hwhy i
      rw [← hmemvs]
      constructor
      · intro hi
        rcases h.sound i hi with hs | hs
        · refine ⟨n, ?_, hs⟩
          rcases h.bound with hd | hd | ⟨hd, -⟩
          · exact Or.inl hd
          · exact Or.inr (Int.le_of_lt hd)
          · exact Or.inr (Int.le_of_eq hd)
        · rw [hnext] at hs; cases hs
      · rintro ⟨k, hk, hw⟩
        rcases hwhy with hnd | hcur
        · rcases hk with hk | hk
          · omega
          · exact h.full i (hw.mono (k' := n) (by omega))
        · -- everything visited is expanded
          have hclosed : ∀ k i, Within b root.id k i → i ∈ w.visited := by
            intro k
            induction k with
            | zero => intro i hi; exact h.full i (Within.mono (Nat.zero_le _) hi)
            | succ k ihk =>
              intro i hi
              rcases hi with hi | ⟨j, hj, hji⟩
              · exact ihk i hi
              · refine h.expanded j (ihk j hj) ?_ i hji
                rw [h.queue, hcur, hnext]
                simp
          exact hclosed k i hw
    cases hq : w.queue with
    | nil =>
      have := h.queue
      rw [hq] at this
      obtain ⟨hc, hn⟩ := List.append_eq_nil_iff.mp this.symm
      exact ⟨w, vs, rfl, h.acc, h.nodup, h.start, hstopped hn (Or.inr hc)⟩
    | cons t q =>
      simp only
      by_cases hd : w.depth = d
      · rw [if_pos (by simpa using hd)]
        have hnd : (n : Int) = d := h.depth.symm.trans hd
        have hnext : next = [] := by
          rcases h.bound with hb' | hb' | ⟨-, hb'⟩
          · omega
          · omega
          · exact hb'
        exact ⟨_, vs, rfl, h.acc, h.nodup, h.start, hstopped hnext (Or.inl hnd)⟩
      · rw [if_neg (by simpa using hd)]
        obtain ⟨vs', cur', next', n', hi, hlen⟩ := h.step hb (ord := ord) hq hd
        exact ih _ vs' cur' next' n' hi (by rw [hq] at hlen hfuel; omega)

/-- The nodes the walk visits, in order: the root, then registered nodes, all different, namely those
within the depth bound. It does not run out of fuel. -/
theorem walk_spec {b : Builder} (hb : Inv b) (ord : Int → Order (Int × Edge))
    (visit : σ → Node → σ) (root : Node) (acc : σ) (d : Int) :
    ∃ w vs, Bfs.walk b ord visit (fun _ k => k == d) root acc = some w ∧
      w.acc = vs.foldl visit acc ∧ (vs.map Node.id).Nodup ∧
      (∃ tl, vs = root :: tl ∧ ∀ m ∈ tl, b.nodes.get? m.id = some m) ∧
      ∀ i, i ∈ vs.map Node.id ↔ ∃ k : Nat, (d < 0 ∨ (k : Int) ≤ d) ∧ Within b root.id k i := by
  refine loop_spec hb ord visit root acc d _ _ [root] [root] [] 0 ?_ ?_
  · refine ⟨rfl, rfl, rfl, by simp, rfl, by simp, rfl, ⟨[], rfl, by simp⟩, rfl, ?_, by simp, ?_, ?_,
      ?_, ?_⟩
    · intro m hm
      rw [List.mem_singleton.mp hm]
      rfl
    · intro i hi
      have hi' : i = root.id := hi
      simp [hi']
    · intro i hi
      left
      exact List.mem_singleton.mp hi
    · intro i hi hnq
      exact absurd (List.mem_singleton.mp hi).symm (hnq root (by simp))
    · by_cases h1 : d < 0
      · exact Or.inl h1
      · by_cases h2 : (0 : Int) = d
        · exact Or.inr (Or.inr ⟨h2, rfl⟩)
        · exact Or.inr (Or.inl (by show ((0 : Nat) : Int) < d; omega))
  · simp

end Netscrape.Gonum
