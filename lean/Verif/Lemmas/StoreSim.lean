import Verif.Lemmas.Store

/-!
# The store simulates the reference store
-/

namespace Netscrape.Store
open Netscrape.Graph (Ent Node Edge WG St Opt)
open Netscrape.Spec.Graph (Reach Fits NoReplace Disciplined)
open Netscrape.Spec.Store

/-- A store state and a reference state tell the same story. -/
structure Sim (s : St) (a : AStore) : Prop where
  ent : ∀ u, (Graph.node s.g u).toOption.map Node.ent = a.ent u.str
  adj : ∀ u v, (∃ x, Graph.edge s.g u v = .ok x) ↔ a.adj u.str v.str = true

theorem Sim.present {s : St} {a : AStore} (h : Sim s a) {u : Uid} {n : Node}
    (hn : Graph.node s.g u = .ok n) : a.ent u.str = some n.ent := by
  rw [← h.ent, hn]; rfl

theorem Sim.absent {s : St} {a : AStore} (h : Sim s a) {u : Uid}
    (hn : Graph.node s.g u = .err .nodeNotFound) : a.ent u.str = none := by
  rw [← h.ent, hn]; rfl

theorem sim_new (d : Bool) (h : Heap) (fresh : Uid) (opts : List Opt) :
    Sim ⟨h, Graph.new d fresh opts⟩ AStore.empty := by
  refine ⟨?_, ?_⟩
  · intro u; cases d <;> rfl
  · intro u v
    constructor
    · rintro ⟨x, hx⟩
      cases d <;> cases hx
    · intro hx; cases hx

theorem add_sim {d : Bool} {k : Nat} {s : St} {a : AStore} (hs : SInv d k s) (hk : k < 2 ^ 63)
    (hsim : Sim s a) (o : Order (Int × Unit)) (e : Ent) (opts : List SOpt) :
    (add s o e opts).1 = (a.add e (upserts opts)).1 ∧
    Sim (add s o e opts).2 (a.add e (upserts opts)).2 ∧ SInv d (k + 1) (add s o e opts).2 := by
  rcases node_cases s.g e.uid with ⟨m, hm⟩ | hm
  · obtain ⟨h', g', h1, h2, h3, -, -, h5⟩ := add_present hs hk o e opts m hm
    rw [h1]
    simp only [AStore.add, hsim.present hm]
    refine ⟨trivial, ⟨?_, ?_⟩, h5⟩
    · intro u; simp only [h2]; exact hsim.ent u
    · intro u v; simp only [h3]; exact hsim.adj u v
  · obtain ⟨n, h', g', h1, ⟨hn, -⟩, -, h2, h3, h4, h5⟩ := add_absent hs hk o e opts hm
    rw [h1]
    simp only [AStore.add, hsim.absent hm]
    refine ⟨trivial, ⟨?_, ?_⟩, h5⟩
    · intro u
      simp only
      by_cases hu : u.str = e.uid.str
      · rw [if_pos hu, show Graph.node g' u = .ok n by
          rw [← h2]; unfold Graph.node; rw [hu], ← hn]
        rfl
      · rw [if_neg hu, h3 u hu]; exact hsim.ent u
    · intro u v; simp only [h4]; exact hsim.adj u v

theorem delete_sim {d : Bool} {k : Nat} {s : St} {a : AStore} (hs : SInv d k s)
    (hsim : Sim s a) (u : Uid) : Sim (delete s u).2 (a.delete u.str) := by
  obtain ⟨h1, -, h3, h4, -, h6, -⟩ := Props.c22_removeNode hs.disc u
  refine ⟨?_, ?_⟩
  · intro v
    simp only [delete, AStore.delete]
    by_cases hv : v.str = u.str
    · rw [if_pos hv, show Graph.node (Graph.removeNode s.g u) v = .err .nodeNotFound by
        rw [← h1]; unfold Graph.node; rw [hv]]
      rfl
    · rw [if_neg hv, h4 v hv]; exact hsim.ent v
  · intro p q
    simp only [delete, AStore.delete]
    by_cases hp : p.str = u.str
    · simp only [hp, bne_self_eq_false, Bool.and_false, Bool.false_and]
      constructor
      · rintro ⟨x, hx⟩
        exact absurd (show Graph.edge (Graph.removeNode s.g u) u q = .ok x by
          rw [← hx]; unfold Graph.edge; rw [hp]) (h3 q x).1
      · intro h; cases h
    · by_cases hq : q.str = u.str
      · simp only [hq, bne_self_eq_false, Bool.and_false]
        constructor
        · rintro ⟨x, hx⟩
          exact absurd (show Graph.edge (Graph.removeNode s.g u) p u = .ok x by
            rw [← hx]; unfold Graph.edge; rw [hq]) (h3 p x).2
        · intro h; cases h
      · rw [h6 p q hp hq, hsim.adj]
        simp [hp, hq]

theorem unlink_sim {d : Bool} {k : Nat} {s : St} {a : AStore} (hs : SInv d k s)
    (hsim : Sim s a) (f t : Uid) : Sim (unlink s f t).2 (a.unlink d f.str t.str) := by
  obtain ⟨h1, h2, h3, -, h5, -, -⟩ := Props.c21_unlink hs.disc f t
  refine ⟨fun u => by simp only [unlink, AStore.unlink, h3]; exact hsim.ent u, ?_⟩
  intro p q
  simp only [unlink, AStore.unlink]
  by_cases c1 : p.str = f.str ∧ q.str = t.str
  · simp only [c1.1, c1.2]
    constructor
    · rintro ⟨x, hx⟩
      exact absurd (show Graph.edge (Graph.unlink s.g f t) f t = .ok x by
        rw [← hx]; unfold Graph.edge; rw [c1.1, c1.2]) (h1 x)
    · simp
  · by_cases c2 : d = false ∧ p.str = t.str ∧ q.str = f.str
    · simp only [c2.2.1, c2.2.2, c2.1]
      constructor
      · rintro ⟨x, hx⟩
        exact absurd (show Graph.edge (Graph.unlink s.g f t) t f = .ok x by
          rw [← hx]; unfold Graph.edge; rw [c2.2.1, c2.2.2]) (h2 c2.1 x)
      · simp
    · rw [h5 p q c1 c2, hsim.adj]
      have e1 : (p.str == f.str && q.str == t.str) = false := by
        rw [Bool.eq_false_iff]; simpa using c1
      have e2 : (!d && p.str == t.str && q.str == f.str) = false := by
        rw [Bool.eq_false_iff]
        intro h
        simp only [Bool.and_eq_true, Bool.not_eq_true', beq_iff_eq] at h
        exact c2 ⟨h.1.1, h.1.2, h.2⟩
      rw [e1, e2]; simp

theorem link_sim {d : Bool} {k : Nat} {s : St} {a : AStore} (hs : SInv d k s)
    (hsim : Sim s a) (fresh : Uid) (na : Nat) (f t : Uid) (opts : List SOpt) :
    (link s fresh na f t opts).1 = (a.link d f.str t.str).1 ∧
    Sim (link s fresh na f t opts).2 (a.link d f.str t.str).2 := by
  have hmiss : (Graph.node s.g f = .err .nodeNotFound ∨ Graph.node s.g t = .err .nodeNotFound) →
      link s fresh na f t opts = (.err .entityNotFound, s) ∧
      a.link d f.str t.str = (.err .entityNotFound, a) := by
    intro hm
    refine ⟨?_, ?_⟩
    · unfold link; rw [Props.link_missing fresh na _ hm]
    · unfold AStore.link
      rcases hm with hm | hm
      · rw [hsim.absent hm]
      · rw [hsim.absent hm]
        cases a.ent f.str <;> rfl
  rcases node_cases s.g f with ⟨x, hx⟩ | hx
  · rcases node_cases s.g t with ⟨y, hy⟩ | hy
    · by_cases hft : f.str = t.str
      · have hp := (Props.c20_link_panic_partial hs.disc fresh na f t
          [.withAttrs (applyAll opts).attrs]).mpr ⟨hft, x, hx⟩
        have habs : a.link d f.str t.str = (.panic, a) := by
          unfold AStore.link
          rw [hsim.present hx, hsim.present hy]
          simp only [hft, if_true]
        have hg : link s fresh na f t opts = (.panic,
            ⟨(Graph.link s.heap s.g fresh na f t [.withAttrs (applyAll opts).attrs]).2.2, s.g⟩) := by
          have hg' : (Graph.link s.heap s.g fresh na f t
              [.withAttrs (applyAll opts).attrs]).2.1 = s.g := by
            revert hp
            unfold Graph.link
            split
            · intro _; rfl
            · unfold Graph.linkApply
              simp only
              split
              · intro _; rfl
              · intro h; cases h
          unfold link
          split <;> rename_i heq <;> rw [heq] at hp hg' <;> simp only at hp hg'
          · cases hp
          · cases hp
          · cases hp
          · rw [heq, hg']
        rw [hg, habs]
        exact ⟨rfl, hsim.ent, hsim.adj⟩
      · have habs : a.link d f.str t.str = (.ok (), { a with
            adj := fun p q => a.adj p q || (p == f.str && q == t.str) ||
              (!d && p == t.str && q == f.str) }) := by
          unfold AStore.link
          rw [hsim.present hx, hsim.present hy]
          simp only [hft, if_false]
        obtain ⟨-, hex, hnew⟩ := Props.c19_link hs.disc fresh na f t hft
          [.withAttrs (applyAll opts).attrs]
        by_cases hE : ∃ e, Graph.edge s.g f t = .ok e
        · obtain ⟨e, he⟩ := hE
          have hl : link s fresh na f t opts = (.ok (), s) := by
            unfold link; rw [hex e he]
          rw [hl, habs]
          refine ⟨rfl, hsim.ent, ?_⟩
          intro p q
          rw [hsim.adj]
          have hft' := (hsim.adj f t).mp ⟨e, he⟩
          simp only [Bool.or_eq_true, Bool.and_eq_true, beq_iff_eq, Bool.not_eq_true']
          constructor
          · intro h; exact .inl (.inl h)
          · rintro ((h | ⟨h1, h2⟩) | ⟨⟨h1, h2⟩, h3⟩)
            · exact h
            · rw [h1, h2]; exact hft'
            · subst h1
              obtain ⟨e', he', -⟩ := Props.c23_undirected
                (hs.reach.mono (fun _ _ _ => trivial)) f t e he
              rw [h2, h3]
              exact (hsim.adj t f).mp ⟨e', he'⟩
        · obtain ⟨e, g', h', hl, -, -, -, -, h1, h2, h3, h4⟩ := hnew x y hx hy
            (fun e he => hE ⟨e, he⟩)
          have hl' : link s fresh na f t opts = (.ok (), ⟨h', g'⟩) := by
            unfold link; rw [hl]
          rw [hl', habs]
          refine ⟨rfl, fun u => by simp only [h3]; exact hsim.ent u, ?_⟩
          intro p q
          simp only
          by_cases c1 : p.str = f.str ∧ q.str = t.str
          · simp only [c1.1, c1.2, beq_self_eq_true, Bool.and_true, Bool.or_true, Bool.true_or,
              iff_true]
            exact ⟨e, by rw [← h1]; unfold Graph.edge; rw [c1.1, c1.2]⟩
          · by_cases c2 : d = false ∧ p.str = t.str ∧ q.str = f.str
            · simp only [c2.1, c2.2.1, c2.2.2, beq_self_eq_true, Bool.and_true, Bool.or_true,
                Bool.not_false, iff_true]
              exact ⟨e.rev, by rw [← h2 c2.1]; unfold Graph.edge; rw [c2.2.1, c2.2.2]⟩
            · rw [h4 p q c1 c2, hsim.adj]
              have e1 : (p.str == f.str && q.str == t.str) = false := by
                rw [Bool.eq_false_iff]; simpa using c1
              have e2 : (!d && p.str == t.str && q.str == f.str) = false := by
                rw [Bool.eq_false_iff]
                intro h
                simp only [Bool.and_eq_true, Bool.not_eq_true', beq_iff_eq] at h
                exact c2 ⟨h.1.1, h.1.2, h.2⟩
              rw [e1, e2]; simp
    · obtain ⟨h1, h2⟩ := hmiss (.inr hy)
      rw [h1, h2]; exact ⟨rfl, hsim⟩
  · obtain ⟨h1, h2⟩ := hmiss (.inl hx)
    rw [h1, h2]; exact ⟨rfl, hsim⟩

/-- Loops of simulating calls simulate. Each call counts for `c` additions. -/
theorem loop_sim {α : Type} {d : Bool} (c : Nat) (f : St → α → Res Err Unit × St)
    (fa : AStore → α → Res Err Unit × AStore)
    (hf : ∀ k s a x, SInv d k s → k + c ≤ 2 ^ 63 → Sim s a →
      (f s x).1 = (fa a x).1 ∧ Sim (f s x).2 (fa a x).2 ∧ SInv d (k + c) (f s x).2)
    (xs : List α) : ∀ k s a, SInv d k s → k + c * xs.length ≤ 2 ^ 63 → Sim s a →
      (loop f s xs).1 = (stopAtFirst fa a xs).1 ∧
      Sim (loop f s xs).2 (stopAtFirst fa a xs).2 ∧ SInv d (k + c * xs.length) (loop f s xs).2 := by
  induction xs with
  | nil => intro k s a h1 _ h2; exact ⟨rfl, h2, h1.mono (Nat.le_add_right _ _)⟩
  | cons x xs ih =>
    intro k s a h1 hk h2
    rw [List.length_cons, Nat.mul_succ] at hk
    obtain ⟨h3, h4, h5⟩ := hf k s a x h1 (by omega) h2
    unfold loop stopAtFirst
    rw [← h3]
    cases hfx : f s x with
    | mk r s' =>
      rw [hfx] at h3 h4 h5
      simp only at h3 h4 h5
      cases r with
      | ok y =>
        simp only [if_true]
        obtain ⟨g1, g2, g3⟩ := ih (k + c) s' (fa a x).2 h5 (by omega) h4
        exact ⟨g1, g2, g3.mono (by rw [List.length_cons, Nat.mul_succ]; omega)⟩
      | err z =>
        simp only [reduceCtorEq, if_false]
        exact ⟨h3, h4, h5.mono (by rw [List.length_cons, Nat.mul_succ]; omega)⟩
      | panic =>
        simp only [reduceCtorEq, if_false]
        exact ⟨h3, h4, h5.mono (by rw [List.length_cons, Nat.mul_succ]; omega)⟩

theorem step_sim {d : Bool} {k : Nat} {s : St} {a : AStore} (hs : SInv d k s) (hsim : Sim s a)
    (op : Op) (hk : k + adds [op] ≤ 2 ^ 63) :
    (step s op).1 = (a.step d op).1 ∧ Sim (step s op).2 (a.step d op).2 ∧
    SInv d (k + adds [op]) (step s op).2 := by
  cases op with
  | add o e opts => exact add_sim hs (by simp [adds] at hk; omega) hsim o e opts
  | delete u => exact ⟨rfl, delete_sim hs hsim u, delete_sInv hs u⟩
  | link fr na f t opts =>
    obtain ⟨h1, h2⟩ := link_sim hs hsim fr na f t opts
    exact ⟨h1, h2, link_sInv hs fr na f t opts⟩
  | unlink f t => exact ⟨rfl, unlink_sim hs hsim f t, unlink_sInv hs f t⟩
  | bulkAdd es opts =>
    have := loop_sim (d := d) 1 (fun s x => add s x.1 x.2 opts)
      (fun a (x : Order (Int × Unit) × Ent) => a.add x.2 (upserts opts))
      (fun k s a x h1 h2 h3 => add_sim h1 (by omega) h3 x.1 x.2 opts) es k s a hs
      (by simp [adds] at hk; omega) hsim
    simpa [step, AStore.step, bulkAdd, adds] using this
  | bulkDelete us =>
    have := loop_sim (d := d) 0 delete (fun a (u : Uid) => (.ok (), a.delete u.str))
      (fun k s a x h1 h2 h3 => ⟨rfl, delete_sim h1 h3 x, delete_sInv h1 x⟩) us k s a hs
      (by simp [adds] at hk; omega) hsim
    simpa [step, AStore.step, bulkDelete, adds] using this
  | bulkLink f us opts =>
    have := loop_sim (d := d) 0 (fun s (x : Uid × Nat × Uid) => link s x.1 x.2.1 f x.2.2 opts)
      (fun a x => a.link d f.str x.2.2.str)
      (fun k s a x h1 h2 h3 => ⟨(link_sim h1 h3 _ _ _ _ opts).1, (link_sim h1 h3 _ _ _ _ opts).2,
        link_sInv h1 _ _ _ _ opts⟩) us k s a hs
      (by simp [adds] at hk; omega) hsim
    simpa [step, AStore.step, bulkLink, adds] using this
  | bulkUnlink f us =>
    have := loop_sim (d := d) 0 (fun s u => unlink s f u)
      (fun a (u : Uid) => (.ok (), a.unlink d f.str u.str))
      (fun k s a x h1 h2 h3 => ⟨rfl, unlink_sim h1 h3 f x, unlink_sInv h1 f x⟩) us k s a hs
      (by simp [adds] at hk; omega) hsim
    simpa [step, AStore.step, bulkUnlink, adds] using this
  | env h => exact ⟨rfl, ⟨hsim.ent, hsim.adj⟩, env_sInv hs h⟩

theorem adds_cons (op : Op) (ops : List Op) : adds (op :: ops) = adds [op] + adds ops := by
  cases op <;> simp [adds] <;> omega

theorem run_sim {d : Bool} (ops : List Op) : ∀ {k : Nat} {s : St} {a : AStore}, SInv d k s → Sim s a →
    k + adds ops ≤ 2 ^ 63 →
    results s ops = AStore.results d a ops ∧ Sim (run s ops) (AStore.run d a ops) ∧
      SInv d (k + adds ops) (run s ops) := by
  induction ops with
  | nil => intro k s a h1 h2 _; exact ⟨rfl, h2, h1⟩
  | cons op ops ih =>
    intro k s a h1 h2 hk
    rw [adds_cons] at hk ⊢
    obtain ⟨h3, h4, h5⟩ := step_sim h1 h2 op (by omega)
    obtain ⟨g1, g2, g3⟩ := ih h5 h4 (by omega)
    refine ⟨?_, g2, ?_⟩
    · unfold results AStore.results; rw [h3, g1]
    · rw [← Nat.add_assoc]; exact g3

end Netscrape.Store
