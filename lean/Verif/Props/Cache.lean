import Verif.Lemmas.Cache

/-!
# C07–C13: the link cache
-/

namespace Netscrape.Props
open Netscrape Netscrape.Cache Netscrape.Spec.Cache

/-- **C13.** After any history of calls, in any iteration order, `GetFrom` and `GetTo` return exactly
the content (at most one link) of the register the history determines for that UID. -/
theorem c13_retention (hist : List Op) (o : Order (Uid × Link)) (u : Uid) :
    getFrom (Cache.run hist) o u = (heldFrom hist u).toList ∧
    getTo (Cache.run hist) o u = (heldTo hist u).toList :=
  ⟨getFrom_run hist o u, getTo_run hist o u⟩

/-- Links used by the examples: `a→b`, `a→c`, another `a→b`. -/
def exLinkAB : Link := ⟨⟨10, "ab"⟩, ⟨1, "a"⟩, ⟨2, "b"⟩, 0⟩
def exLinkAC : Link := ⟨⟨11, "ac"⟩, ⟨1, "a"⟩, ⟨3, "c"⟩, 0⟩
def exLinkAB' : Link := ⟨⟨12, "ab2"⟩, ⟨1, "a"⟩, ⟨2, "b"⟩, 0⟩

/-- Non-vacuity of C13: kept, displaced, upserted and deleted links. -/
example :
    heldFrom [.put exLinkAB false, .put exLinkAB' false] ⟨1, "a"⟩ = some exLinkAB ∧
    heldFrom [.put exLinkAB false, .put exLinkAC false] ⟨1, "a"⟩ = some exLinkAC ∧
    heldTo [.put exLinkAB false, .put exLinkAC false] ⟨2, "b"⟩ = some exLinkAB ∧
    heldFrom [.put exLinkAB false, .bulkDelete [⟨1, "a"⟩]] ⟨1, "a"⟩ = none := by decide

/-! ## C07 -/

/-- C07 as stated: a put link stays visible from both ends until an end is deleted or the cache
cleared. -/
def ReturnsEveryLinkPut : Prop :=
  ∀ (h₁ h₂ : List Op) (l : Link) (up : Bool) (o : Order (Uid × Link)),
    (∀ op ∈ singles h₂, ¬ Forgets l.src op ∧ ¬ Forgets l.dst op) →
    (∃ l' ∈ getFrom (Cache.run (h₁ ++ .put l up :: h₂)) o l.src, l'.src = l.src ∧ l'.dst = l.dst) ∧
    (∃ l' ∈ getTo (Cache.run (h₁ ++ .put l up :: h₂)) o l.dst, l'.src = l.src ∧ l'.dst = l.dst)

/-- **C07 fails**: putting `a→c` after `a→b` makes `GetFrom a` forget `a→b`. -/
theorem c07_violated : ¬ ReturnsEveryLinkPut := by
  intro h
  have := (h [] [.put exLinkAC false] exLinkAB false Order.id (by
    intro op hop
    have : op = .put exLinkAC false := by simpa [singles, expand] using hop
    subst this
    simp [Forgets])).1
  revert this
  decide

theorem register_near (near far : Link → Uid) (ops : List Op) (u : Uid) (x : Option Link)
    (hx : ∀ l, x = some l → near l = u) :
    ∀ l, ops.foldl (update near far u) x = some l → near l = u := by
  induction ops generalizing x with
  | nil => exact hx
  | cons op ops ih =>
    refine ih _ ?_
    intro l hl
    cases op with
    | put l' up =>
      simp only [update] at hl
      split at hl
      · rename_i hn
        cases x with
        | none => simp only [Option.some.injEq] at hl; subst hl; exact hn
        | some m =>
          simp only at hl
          split at hl
          · exact hx l hl
          · simp only [Option.some.injEq] at hl; subst hl; exact hn
      · exact hx l hl
    | delete v =>
      simp only [update] at hl
      split at hl
      · cases hl
      · exact hx l hl
    | clear => cases hl
    | bulkPut => exact hx l hl
    | bulkDelete => exact hx l hl

private theorem register_keeps (near far : Link → Uid) (ops : List Op) (l : Link)
    (hf : ∀ op ∈ ops, ¬ Forgets (near l) op)
    (hp : ∀ m up, Op.put m up ∈ ops → near m = near l → far m = far l) (x : Link)
    (hx : near x = near l ∧ far x = far l) :
    ∃ y, ops.foldl (update near far (near l)) (some x) = some y ∧ near y = near l ∧
      far y = far l := by
  induction ops generalizing x with
  | nil => exact ⟨x, rfl, hx⟩
  | cons op ops ih =>
    have ih := ih (fun o ho => hf o (by simp [ho])) (fun m up hm => hp m up (by simp [hm]))
    have hop := hf op (by simp)
    rw [List.foldl_cons]
    cases op with
    | put m up =>
      by_cases hn : near m = near l
      · have hfar := hp m up (by simp) hn
        simp only [update, hn, if_true]
        by_cases hc : far x = far m ∧ up = false
        · rw [if_pos hc]; exact ih x hx
        · rw [if_neg hc]; exact ih m ⟨hn, hfar⟩
      · simp only [update, if_neg hn]; exact ih x hx
    | delete v =>
      have : ¬ v = near l := hop
      simp only [update, if_neg this]; exact ih x hx
    | clear => exact (hop trivial).elim
    | bulkPut => exact ih x hx
    | bulkDelete => exact ih x hx

private theorem split_put (near far : Link → Uid) (h₁ h₂ : List Op) (l : Link) (up : Bool)
    (u : Uid) : register near far (h₁ ++ .put l up :: h₂) u =
      (singles h₂).foldl (update near far u)
        (update near far u (register near far h₁ u) (.put l up)) := by
  simp [register, singles, expand]

private theorem split_delete (near far : Link → Uid) (h₁ h₂ : List Op) (v : Uid) (u : Uid) :
    register near far (h₁ ++ .delete v :: h₂) u =
      (singles h₂).foldl (update near far u)
        (update near far u (register near far h₁ u) (.delete v)) := by
  simp [register, singles, expand]

private theorem update_put (near far : Link → Uid) (l : Link) (up : Bool) (x : Option Link)
    (hx : ∀ m, x = some m → near m = near l) :
    ∃ y, update near far (near l) x (.put l up) = some y ∧ near y = near l ∧ far y = far l := by
  cases x with
  | none => exact ⟨l, by simp [update], rfl, rfl⟩
  | some m =>
    by_cases hc : far m = far l ∧ up = false
    · exact ⟨m, by simp [update, hc.1, hc.2], hx m rfl, hc.1⟩
    · exact ⟨l, by simp only [update, if_true, if_neg hc], rfl, rfl⟩

/-- **C07, what holds.** A put link (or one with the same ends) stays visible through `GetFrom` as
long as no later `Put` goes from its origin to a different end and the origin is not deleted nor the
cache cleared; symmetrically for `GetTo`. -/
theorem c07_visible_partial (h₁ h₂ : List Op) (l : Link) (up : Bool) (o : Order (Uid × Link)) :
    ((∀ op ∈ singles h₂, ¬ Forgets l.src op) →
      (∀ m up', Op.put m up' ∈ singles h₂ → m.src = l.src → m.dst = l.dst) →
      ∃ l' ∈ getFrom (Cache.run (h₁ ++ .put l up :: h₂)) o l.src,
        l'.src = l.src ∧ l'.dst = l.dst) ∧
    ((∀ op ∈ singles h₂, ¬ Forgets l.dst op) →
      (∀ m up', Op.put m up' ∈ singles h₂ → m.dst = l.dst → m.src = l.src) →
      ∃ l' ∈ getTo (Cache.run (h₁ ++ .put l up :: h₂)) o l.dst,
        l'.src = l.src ∧ l'.dst = l.dst) := by
  constructor
  · intro hf hp
    obtain ⟨y, hy, hy'⟩ := update_put Link.src Link.dst l up (heldFrom h₁ l.src)
      (register_near _ _ _ _ _ (by simp))
    obtain ⟨z, hz, hz1, hz2⟩ := register_keeps Link.src Link.dst (singles h₂) l hf hp y hy'
    refine ⟨z, ?_, hz1, hz2⟩
    rw [getFrom_run]
    unfold heldFrom at hy ⊢
    rw [split_put, hy, hz]
    simp
  · intro hf hp
    obtain ⟨y, hy, hy'⟩ := update_put Link.dst Link.src l up (heldTo h₁ l.dst)
      (register_near _ _ _ _ _ (by simp))
    obtain ⟨z, hz, hz1, hz2⟩ := register_keeps Link.dst Link.src (singles h₂) l hf hp y hy'
    refine ⟨z, ?_, hz2, hz1⟩
    rw [getTo_run]
    unfold heldTo at hy ⊢
    rw [split_put, hy, hz]
    simp

/-- Non-vacuity of the partial: the hypotheses hold although other links are put and deleted. -/
example :
    let h₂ : List Op := [.put ⟨⟨13, "cd"⟩, ⟨3, "c"⟩, ⟨4, "d"⟩, 0⟩ false, .delete ⟨4, "d"⟩,
      .put exLinkAB' true]
    (∀ op ∈ singles h₂, ¬ Forgets exLinkAB.src op) ∧
    (∀ m up', Op.put m up' ∈ singles h₂ → m.src = exLinkAB.src → m.dst = exLinkAB.dst) ∧
    getFrom (Cache.run (.put exLinkAB false :: h₂)) Order.id ⟨1, "a"⟩ = [exLinkAB'] := by
  refine ⟨?_, ?_, by decide⟩
  · simp [singles, expand, Forgets, exLinkAB]
  · intro m up' h
    simp only [singles, expand, List.flatMap_cons, List.flatMap_nil, List.append_nil,
      List.singleton_append, List.mem_cons, Op.put.injEq, reduceCtorEq, false_or,
      List.not_mem_nil, or_false] at h
    rcases h with ⟨rfl, _⟩ | ⟨rfl, _⟩ <;> decide

/-! ## C08 -/

/-- C08 as stated: after `Delete u`, no query returns a link with an end at `u` until one is put. -/
def DeleteRemovesAll : Prop :=
  ∀ (h₁ h₂ : List Op) (u v : Uid) (o : Order (Uid × Link)),
    (∀ l up, Op.put l up ∈ singles h₂ → l.src ≠ u ∧ l.dst ≠ u) →
    ∀ l, (l ∈ getFrom (Cache.run (h₁ ++ .delete u :: h₂)) o v ∨
      l ∈ getTo (Cache.run (h₁ ++ .delete u :: h₂)) o v) → l.src ≠ u ∧ l.dst ≠ u

/-- **C08 fails**: after `Put a→b`, `Delete a`, `GetTo b` still returns `a→b`. -/
theorem c08_violated : ¬ DeleteRemovesAll := by
  intro h
  have := h [.put exLinkAB false] [] ⟨1, "a"⟩ ⟨2, "b"⟩ Order.id (by simp [singles]) exLinkAB
    (.inr (by decide))
  exact absurd rfl this.1

private theorem register_none (near far : Link → Uid) (ops : List Op) (u : Uid)
    (hp : ∀ m up, Op.put m up ∈ ops → near m ≠ u) :
    ops.foldl (update near far u) none = none := by
  induction ops with
  | nil => rfl
  | cons op ops ih =>
    have ih := ih (fun m up hm => hp m up (by simp [hm]))
    have : update near far u none op = none := by
      cases op with
      | put m up => simp [update, hp m up (by simp)]
      | delete v => simp [update]
      | _ => rfl
    rw [List.foldl_cons, this, ih]

/-- **C08, what holds.** After `Delete u` queries for `u` itself return nothing until a link with
that end is put, and queries for every other UID are answered as before. -/
theorem c08_delete_partial (h₁ h₂ : List Op) (u : Uid) (o : Order (Uid × Link)) :
    ((∀ l up, Op.put l up ∈ singles h₂ → l.src ≠ u) →
      getFrom (Cache.run (h₁ ++ .delete u :: h₂)) o u = []) ∧
    ((∀ l up, Op.put l up ∈ singles h₂ → l.dst ≠ u) →
      getTo (Cache.run (h₁ ++ .delete u :: h₂)) o u = []) ∧
    (∀ v o', v ≠ u →
      getFrom (Cache.run (h₁ ++ [.delete u])) o v = getFrom (Cache.run h₁) o' v ∧
      getTo (Cache.run (h₁ ++ [.delete u])) o v = getTo (Cache.run h₁) o' v) := by
  refine ⟨?_, ?_, ?_⟩
  · intro h
    rw [getFrom_run, heldFrom, split_delete]
    simp [update, register_none _ _ _ _ h]
  · intro h
    rw [getTo_run, heldTo, split_delete]
    simp [update, register_none _ _ _ _ h]
  · intro v o' hv
    rw [getTo_run, heldTo, split_delete, getTo_run,
      getFrom_run, heldFrom, split_delete, getFrom_run]
    simp [update, Ne.symm hv, singles, heldFrom, heldTo]

/-- Non-vacuity: the deleted UID was an end of a held link, another link survives. -/
example :
    getFrom (Cache.run [.put exLinkAB false, .delete ⟨1, "a"⟩]) Order.id ⟨1, "a"⟩ = [] ∧
    getFrom (Cache.run [.put exLinkAB false, .delete ⟨2, "b"⟩]) Order.id ⟨1, "a"⟩ = [exLinkAB] := by
  decide

/-! ## C09 -/

/-- C09 as stated: both indexes hold the same links. -/
def IndexesAgree (hist : List Op) : Prop :=
  ∀ (o o' : Order (Uid × Link)) (f t : Uid) (l : Link),
    (l ∈ getFrom (Cache.run hist) o f ∧ l.dst = t) ↔ (l ∈ getTo (Cache.run hist) o' t ∧ l.src = f)

/-- **C09 fails.** -/
theorem c09_violated : ¬ ∀ hist, IndexesAgree hist := by
  intro h
  have := (h [.put exLinkAB false, .put exLinkAC false] Order.id Order.id ⟨1, "a"⟩ ⟨2, "b"⟩
    exLinkAB).mpr (by decide)
  revert this
  decide

/-- **C09 fails differently**: even when the same pair of ends is put again, after a `Delete` of one
end the two indexes return different links for that pair. -/
theorem c09_violated_after_delete :
    let hist : List Op := [.put exLinkAB false, .delete ⟨2, "b"⟩, .put exLinkAB' false]
    getFrom (Cache.run hist) Order.id ⟨1, "a"⟩ = [exLinkAB] ∧
    getTo (Cache.run hist) Order.id ⟨2, "b"⟩ = [exLinkAB'] := by
  decide

/-- **C09, what holds.** When no UID is deleted and the links put pair up origins and ends one to
one, the indexes agree. -/
theorem c09_agree_partial (hist : List Op)
    (hd : ∀ u, Op.delete u ∉ singles hist)
    (hm : ∀ l up l' up', Op.put l up ∈ singles hist → Op.put l' up' ∈ singles hist →
      (l.src = l'.src ↔ l.dst = l'.dst)) : IndexesAgree hist := by
  have key : ∀ (ops : List Op) (F T : Uid → Option Link),
      (∀ u, Op.delete u ∉ ops) → (∀ op ∈ ops, Single op) →
      (∀ op ∈ ops, op ∈ singles hist) →
      (∀ u l, F u = some l → l.src = u ∧ ∃ up, Op.put l up ∈ singles hist) →
      (∀ u l, T u = some l → l.dst = u ∧ ∃ up, Op.put l up ∈ singles hist) →
      (∀ l, F l.src = some l ↔ T l.dst = some l) →
      ∀ l, ops.foldl (update Link.src Link.dst l.src) (F l.src) = some l ↔
        ops.foldl (update Link.dst Link.src l.dst) (T l.dst) = some l := by
    intro ops
    induction ops with
    | nil => intro F T _ _ _ _ _ h; exact h
    | cons op ops ih =>
      intro F T hdel hsing hsub hF hT hFT
      simp only [List.foldl_cons]
      refine ih (fun u => update Link.src Link.dst u (F u) op)
        (fun u => update Link.dst Link.src u (T u) op) (fun u hu => hdel u (by simp [hu]))
        (fun o ho => hsing o (by simp [ho])) (fun o ho => hsub o (by simp [ho])) ?_ ?_ ?_
      all_goals
        have hin := hsub op (by simp)
        cases op with
        | bulkPut ls up => exact False.elim (hsing (.bulkPut ls up) (by simp))
        | bulkDelete us => exact False.elim (hsing (.bulkDelete us) (by simp))
        | delete u => exact (hdel u (by simp)).elim
        | clear => simp [update]
        | put l up => ?_
      · intro u m hmem
        simp only [update] at hmem
        split at hmem
        · rename_i hs
          split at hmem
          · rename_i l' hl'
            split at hmem
            · cases hmem; exact hF u m hl'
            · cases hmem; exact ⟨hs, up, hin⟩
          · cases hmem; exact ⟨hs, up, hin⟩
        · exact hF u m hmem
      · intro u m hmem
        simp only [update] at hmem
        split at hmem
        · rename_i hs
          split at hmem
          · rename_i l' hl'
            split at hmem
            · cases hmem; exact hT u m hl'
            · cases hmem; exact ⟨hs, up, hin⟩
          · cases hmem; exact ⟨hs, up, hin⟩
        · exact hT u m hmem
      · intro m
        -- the two registers of `l` hold the same link before, hence after, the `Put`
        have hsame : F l.src = T l.dst := by
          cases hx : F l.src with
          | some x =>
            obtain ⟨hxs, up', hxp⟩ := hF _ _ hx
            have hxd : x.dst = l.dst := (hm x up' l up hxp hin).mp hxs
            rw [← hxs] at hx
            have := (hFT x).mp hx
            rw [hxd] at this
            exact this.symm
          | none =>
            cases hy : T l.dst with
            | none => rfl
            | some y =>
              obtain ⟨hyd, up', hyp⟩ := hT _ _ hy
              have hys : y.src = l.src := (hm y up' l up hyp hin).mpr hyd
              rw [← hyd] at hy
              have := (hFT y).mpr hy
              rw [hys, hx] at this
              cases this
        obtain ⟨r, hr, hrs, hrd⟩ : ∃ r, update Link.src Link.dst l.src (F l.src) (.put l up) = some r ∧
            r.src = l.src ∧ r.dst = l.dst :=
          update_put _ _ _ _ _ (fun m hm => (hF _ m hm).1)
        have hr' : update Link.dst Link.src l.dst (T l.dst) (.put l up) = some r := by
          rw [← hr, ← hsame]
          simp only [update, if_true]
          cases hx : F l.src with
          | none => rfl
          | some x =>
            have h1 := (hF _ _ hx).1
            have h2 := (hT _ x (hsame ▸ hx)).1
            simp [h1, h2]
        by_cases hs : m.src = l.src
        · by_cases hd' : m.dst = l.dst
          · rw [hs, hd', hr, hr']
          · rw [hs, hr]
            have hne : ¬ l.dst = m.dst := fun h => hd' h.symm
            simp only [update, if_neg hne]
            constructor
            · intro h; cases h; exact (hd' hrd).elim
            · intro h
              obtain ⟨_, up', hmp⟩ := hT _ _ h
              exact (hd' ((hm m up' l up hmp hin).mp hs)).elim
        · have hne : ¬ l.src = m.src := fun h => hs h.symm
          by_cases hd' : m.dst = l.dst
          · rw [hd', hr']
            simp only [update, if_neg hne]
            constructor
            · intro h
              obtain ⟨_, up', hmp⟩ := hF _ _ h
              exact (hs ((hm m up' l up hmp hin).mpr hd')).elim
            · intro h; cases h; exact (hs hrs).elim
          · have hne' : ¬ l.dst = m.dst := fun h => hd' h.symm
            simp only [update, if_neg hne, if_neg hne']
            exact hFT m
  have hk := key (singles hist) (fun _ => none) (fun _ => none) hd
    (by
      intro op hop
      obtain ⟨o, _, ho⟩ := List.mem_flatMap.mp hop
      exact expand_single o op ho)
    (fun _ h => h) (by simp) (by simp) (by simp)
  intro o o' f t l
  rw [getFrom_run, getTo_run, Option.mem_toList, Option.mem_toList]
  constructor
  · rintro ⟨h1, h2⟩
    have hs := register_near Link.src Link.dst _ _ _ (by simp) _ h1
    subst hs; subst h2
    exact ⟨(hk l).mp h1, rfl⟩
  · rintro ⟨h1, h2⟩
    have hs := register_near Link.dst Link.src _ _ _ (by simp) _ h1
    subst hs; subst h2
    exact ⟨(hk l).mpr h1, rfl⟩

/-- Non-vacuity of the partial: two different links for the same pair and a separate pair. -/
example :
    let hist : List Op := [.put exLinkAB false, .put ⟨⟨13, "cd"⟩, ⟨3, "c"⟩, ⟨4, "d"⟩, 0⟩ false,
      .put exLinkAB' true]
    (∀ u, Op.delete u ∉ singles hist) ∧
    (∀ l up l' up', Op.put l up ∈ singles hist → Op.put l' up' ∈ singles hist →
      (l.src = l'.src ↔ l.dst = l'.dst)) ∧
    getTo (Cache.run hist) Order.id ⟨2, "b"⟩ = [exLinkAB'] := by
  refine ⟨?_, ?_, by decide⟩
  · simp [singles, expand]
  · intro l up l' up' h h'
    simp only [singles, expand, List.flatMap_cons, List.flatMap_nil, List.append_nil,
      List.singleton_append, List.mem_cons, Op.put.injEq,
      List.not_mem_nil, or_false] at h h'
    rcases h with ⟨rfl, _⟩ | ⟨rfl, _⟩ | ⟨rfl, _⟩ <;> rcases h' with ⟨rfl, _⟩ | ⟨rfl, _⟩ | ⟨rfl, _⟩ <;>
      decide

/-! ## C10 -/

/-- **C10.** When both indexes hold a link from `f` to `t`, a `Put` for the same pair without upsert
changes no answer of the cache, and with upsert exactly the answers for `f` and `t` change, to the
new link alone. -/
theorem c10_put_existing (hist : List Op) (l x y : Link) (o : Order (Uid × Link))
    (hx : x ∈ getFrom (Cache.run hist) o l.src) (hxd : x.dst = l.dst)
    (hy : y ∈ getTo (Cache.run hist) o l.dst) (hys : y.src = l.src) :
    (∀ u o', getFrom (Cache.run (hist ++ [.put l false])) o' u = getFrom (Cache.run hist) o' u ∧
      getTo (Cache.run (hist ++ [.put l false])) o' u = getTo (Cache.run hist) o' u) ∧
    (∀ u o', getFrom (Cache.run (hist ++ [.put l true])) o' u =
        (if u = l.src then [l] else getFrom (Cache.run hist) o' u) ∧
      getTo (Cache.run (hist ++ [.put l true])) o' u =
        (if u = l.dst then [l] else getTo (Cache.run hist) o' u)) := by
  simp only [getFrom_run, getTo_run] at *
  simp only [heldFrom, heldTo, split_put, singles, List.flatMap_nil,
    List.foldl_nil] at *
  rw [Option.mem_toList] at hx hy
  constructor
  · intro u o'
    constructor
    · by_cases hu : l.src = u
      · subst hu; rw [hx]; simp [update, hxd]
      · simp [update, hu]
    · by_cases hu : l.dst = u
      · subst hu; rw [hy]; simp [update, hys]
      · simp [update, hu]
  · intro u o'
    constructor
    · by_cases hu : l.src = u
      · subst hu; rw [hx]; simp [update]
      · simp [update, hu, Ne.symm hu]
    · by_cases hu : l.dst = u
      · subst hu; rw [hy]; simp [update]
      · simp [update, hu, Ne.symm hu]

/-- Non-vacuity of C10. -/
example : exLinkAB ∈ getFrom (Cache.run [.put exLinkAB false]) Order.id exLinkAB'.src ∧
    exLinkAB ∈ getTo (Cache.run [.put exLinkAB false]) Order.id exLinkAB'.dst ∧
    exLinkAB.dst = exLinkAB'.dst ∧ exLinkAB.src = exLinkAB'.src ∧
    getFrom (Cache.run ([.put exLinkAB false] ++ [.put exLinkAB' true])) Order.id ⟨1, "a"⟩ =
      [exLinkAB'] := by decide

/-! ## C11 -/

/-- C11 as stated. -/
def LooksUpByValue : Prop :=
  ∀ (hist : List Op) (u v : Uid) (o : Order (Uid × Link)), u.str = v.str →
    getFrom (Cache.run hist) o u = getFrom (Cache.run hist) o v ∧
    getTo (Cache.run hist) o u = getTo (Cache.run hist) o v ∧
    ∀ w, getFrom (Cache.run (hist ++ [.delete u])) o w = getFrom (Cache.run (hist ++ [.delete v])) o w

/-- **C11 fails**: a UID object rebuilt from the same string does not find the link. -/
theorem c11_violated : ¬ LooksUpByValue := by
  intro h
  have := (h [.put exLinkAB false] ⟨1, "a"⟩ ⟨77, "a"⟩ Order.id rfl).1
  revert this
  decide

private theorem foldl_byValue (near far : Link → Uid) (U : Uid → Prop) (u : Uid) (hu : U u)
    (hU : ∀ a b, U a → U b → a.str = b.str → a = b) (ops : List Op)
    (hn : ∀ l up, Op.put l up ∈ ops → U (near l) ∧ U (far l))
    (hd : ∀ v, Op.delete v ∈ ops → U v) (x : Option Link) (hx : ∀ l, x = some l → U (far l)) :
    ops.foldl (update near far u) x = ops.foldl (updateByValue near far u.str) x := by
  induction ops generalizing x with
  | nil => rfl
  | cons op ops ih =>
    have ih := ih (fun l up h => hn l up (by simp [h])) (fun v h => hd v (by simp [h]))
    have hstep : update near far u x op = updateByValue near far u.str x op := by
      cases op with
      | put l up =>
        obtain ⟨h1, h2⟩ := hn l up (by simp)
        have e1 : (near l).str = u.str ↔ near l = u :=
          ⟨hU _ _ h1 hu, fun h => by rw [h]⟩
        simp only [update, updateByValue, e1]
        cases x with
        | none => rfl
        | some l' =>
          have e2 : (far l').str = (far l).str ↔ far l' = far l :=
            ⟨hU _ _ (hx l' rfl) h2, fun h => by rw [h]⟩
          simp only [e2]
      | delete v =>
        have e1 : v.str = u.str ↔ v = u := ⟨hU _ _ (hd v (by simp)) hu, fun h => by rw [h]⟩
        simp only [update, updateByValue, e1]
      | _ => rfl
    rw [List.foldl_cons, List.foldl_cons, ← hstep]
    refine ih _ ?_
    intro l hl
    cases op with
    | put m up =>
      simp only [update] at hl
      split at hl
      · split at hl
        · split at hl
          · cases hl; exact hx _ rfl
          · cases hl; exact (hn _ up (by simp)).2
        · cases hl; exact (hn _ up (by simp)).2
      · exact hx l hl
    | delete v =>
      simp only [update] at hl
      split at hl
      · cases hl
      · exact hx l hl
    | clear => cases hl
    | bulkPut => exact hx l hl
    | bulkDelete => exact hx l hl

/-- **C11, what holds.** When each UID string of the history and the query is carried by one object,
the cache behaves as one that compares UIDs by value. -/
theorem c11_interned_partial (hist : List Op) (u : Uid) (o : Order (Uid × Link))
    (h : Interned hist u) :
    getFrom (Cache.run hist) o u = (registerByValue Link.src Link.dst hist u.str).toList ∧
    getTo (Cache.run hist) o u = (registerByValue Link.dst Link.src hist u.str).toList := by
  have hp : ∀ l up, Op.put l up ∈ singles hist →
      l.src ∈ u :: (singles hist).flatMap uidsOf ∧ l.dst ∈ u :: (singles hist).flatMap uidsOf := by
    intro l up hl
    constructor <;> refine List.mem_cons_of_mem _ (List.mem_flatMap.mpr ⟨_, hl, ?_⟩) <;>
      simp [uidsOf]
  have hdel : ∀ v, Op.delete v ∈ singles hist → v ∈ u :: (singles hist).flatMap uidsOf := by
    intro v hv
    exact List.mem_cons_of_mem _ (List.mem_flatMap.mpr ⟨_, hv, by simp [uidsOf]⟩)
  constructor
  · rw [getFrom_run]
    exact congrArg Option.toList (foldl_byValue Link.src Link.dst
      (· ∈ u :: (singles hist).flatMap uidsOf) u (by simp) (fun a b ha hb => h a ha b hb) _
      hp hdel none (by simp))
  · rw [getTo_run]
    exact congrArg Option.toList (foldl_byValue Link.dst Link.src
      (· ∈ u :: (singles hist).flatMap uidsOf) u (by simp) (fun a b ha hb => h a ha b hb) _
      (fun l up hl => (hp l up hl).symm) hdel none (by simp))

/-- Non-vacuity: an interned history with a hit. -/
example : Interned [.put exLinkAB false, .delete ⟨3, "c"⟩] ⟨1, "a"⟩ ∧
    registerByValue Link.src Link.dst [.put exLinkAB false, .delete ⟨3, "c"⟩] "a" =
      some exLinkAB := by
  unfold Interned; decide

/-! ## C12 -/

private theorem get?_bulkGetLoop (ix : Index) (os : Nat → Order (Uid × Link)) (u : Uid) (r : List Link)
    (hr : ∀ o m, ix.get? u = some m → get o m = r) (i : Nat) (us : List Uid)
    (m : GoMap Uid (List Link)) :
    (bulkGetLoop ix os i us m).get? u =
      if u ∈ us ∧ ix.get? u ≠ none then some r else m.get? u := by
  induction us generalizing i m with
  | nil => simp [bulkGetLoop]
  | cons v us ih =>
    cases hv : ix.get? v with
    | none =>
      simp only [bulkGetLoop, hv, ih]
      by_cases huv : u = v
      · subst huv; simp [hv]
      · simp [huv]
    | some inn =>
      simp only [bulkGetLoop, hv, ih, List.nil_append, GoMap.get?_set]
      by_cases huv : u = v
      · subst huv; simp [hv, hr _ _ hv]
      · simp [huv]

/-- **C12.** Bulk writes leave the cache exactly as their single forms in order; bulk reads map
each requested UID with an answer to that answer and omit the others; `Clear` leaves a cache without
answers that also behaves as new in the future. -/
theorem c12_bulk (hist : List Op) :
    (∀ ls up, Cache.run (hist ++ [.bulkPut ls up]) =
      Cache.run (hist ++ ls.map (fun l => .put l up))) ∧
    (∀ us, Cache.run (hist ++ [.bulkDelete us]) = Cache.run (hist ++ us.map .delete)) ∧
    (∀ os us o u, (bulkGetFrom (Cache.run hist) os us).get? u =
      if u ∈ us ∧ getFrom (Cache.run hist) o u ≠ [] then some (getFrom (Cache.run hist) o u)
      else none) ∧
    (∀ os us o u, (bulkGetTo (Cache.run hist) os us).get? u =
      if u ∈ us ∧ getTo (Cache.run hist) o u ≠ [] then some (getTo (Cache.run hist) o u)
      else none) ∧
    (∀ o u, getFrom (Cache.run (hist ++ [.clear])) o u = [] ∧
      getTo (Cache.run (hist ++ [.clear])) o u = []) ∧
    (∀ more, Cache.run (hist ++ .clear :: more) = Cache.run more) := by
  refine ⟨?_, ?_, ?_, ?_, ?_, ?_⟩
  · intro ls up
    simp [Cache.run, List.foldl_append, step, bulkPut, List.foldl_map]
  · intro us
    simp [Cache.run, List.foldl_append, step, bulkDelete, List.foldl_map]
  · intro os us o u
    have hI := (inv_run hist).1 u
    rw [getFrom_run]
    cases hx : heldFrom hist u with
    | none =>
      rw [hx] at hI
      simp only [Holds] at hI
      rw [bulkGetFrom, get?_bulkGetLoop _ os u [] (by simp [hI])]
      simp [hI, GoMap.get?_empty]
    | some l =>
      rw [hx] at hI
      obtain ⟨m, hm, he⟩ := hI
      rw [bulkGetFrom, get?_bulkGetLoop _ os u [l] (by
        intro o' m' hm'
        rw [hm] at hm'; cases hm'
        have : o'.run [(l.dst, l)] = [(l.dst, l)] := List.perm_singleton.mp (o'.perm _)
        simp [Cache.get, he, this])]
      simp [hm, GoMap.get?_empty]
  · intro os us o u
    have hI := (inv_run hist).2 u
    rw [getTo_run]
    cases hx : heldTo hist u with
    | none =>
      rw [hx] at hI
      simp only [Holds] at hI
      rw [bulkGetTo, get?_bulkGetLoop _ os u [] (by simp [hI])]
      simp [hI, GoMap.get?_empty]
    | some l =>
      rw [hx] at hI
      obtain ⟨m, hm, he⟩ := hI
      rw [bulkGetTo, get?_bulkGetLoop _ os u [l] (by
        intro o' m' hm'
        rw [hm] at hm'; cases hm'
        have : o'.run [(l.src, l)] = [(l.src, l)] := List.perm_singleton.mp (o'.perm _)
        simp [Cache.get, he, this])]
      simp [hm, GoMap.get?_empty]
  · intro o u
    simp [Cache.run, List.foldl_append, step, clear, getFrom, getTo, GoMap.get?_empty]
  · intro more
    simp [Cache.run, List.foldl_append, step, clear, new]

/-- Non-vacuity of C12: a bulk read with a hit, a repeat and a miss. -/
example :
    let c := Cache.run [.bulkPut [exLinkAB, exLinkAC] false]
    (bulkGetTo c (fun _ => Order.id) [⟨2, "b"⟩, ⟨9, "z"⟩, ⟨2, "b"⟩]).entries =
      [(⟨2, "b"⟩, [exLinkAB])] := by decide

end Netscrape.Props
