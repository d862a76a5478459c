import Verif.Model.Cache
import Verif.Spec.Cache

namespace Netscrape.Cache

/-- The inner map of an index that holds exactly the (optional) link `x` under key `far x`. -/
def Holds (ix : Index) (far : Link → Uid) (u : Uid) (x : Option Link) : Prop :=
  match x with
  | none => ix.get? u = none
  | some l => ∃ m, ix.get? u = some m ∧ m.entries = [(far l, l)]

/-- One side of `put`. -/
def putSide (ix : Index) (a b : Uid) (l : Link) (up : Bool) : Index :=
  if up then assign (reset ix a b) a b l else assignIfAbsent (reset ix a b) a b l

theorem put_eq (c : Links) (l : Link) (up : Bool) :
    put c l up = { fr := putSide c.fr l.src l.dst l up, to := putSide c.to l.dst l.src l up } := by
  unfold put putSide
  cases up <;> simp

private theorem entries_set_single {K V : Type} [DecidableEq K] (m : GoMap K V) (k : K) (v v' : V)
    (h : m.entries = [(k, v)]) : (m.set k v').entries = [(k, v')] := by
  simp [GoMap.set, GoMap.del, h]

private theorem get?_single {K V : Type} [DecidableEq K] (m : GoMap K V) (k k' : K) (v : V)
    (h : m.entries = [(k, v)]) : m.get? k' = if k' = k then some v else none := by
  unfold GoMap.get?
  rw [h]
  by_cases hk : k' = k
  · simp [hk, List.lookup]
  · have : (k' == k) = false := by simpa using hk
    simp [hk, List.lookup, this]

theorem putSide_other (ix : Index) (a b u : Uid) (l : Link) (up : Bool) (h : u ≠ a) :
    (putSide ix a b l up).get? u = ix.get? u := by
  unfold putSide assign assignIfAbsent reset
  cases up <;> simp only [Bool.false_eq_true, if_false, if_true] <;>
    (repeat' split) <;> simp [assign, GoMap.get?_set_ne _ h]

theorem putSide_self (ix : Index) (near far : Link → Uid) (l : Link) (x : Option Link) (up : Bool)
    (h : Holds ix far (near l) x) :
    Holds (putSide ix (near l) (far l) l up) far (near l)
      (Spec.Cache.update near far (near l) x (.put l up)) := by
  unfold Spec.Cache.update
  simp only [if_true]
  cases x with
  | none =>
    simp only [Holds] at h
    have hr : reset ix (near l) (far l) = ix.set (near l) GoMap.empty := by
      simp [reset, inner, h]
    refine ⟨(GoMap.empty : GoMap Uid Link).set (far l) l, ?_, rfl⟩
    unfold putSide
    rw [hr]
    cases up <;> simp [assign, assignIfAbsent, inner]
  | some l' =>
    obtain ⟨m, hm, he⟩ := h
    have hin : inner ix (near l) = m := by simp [inner, hm]
    have hg := get?_single m (far l') (far l) l' he
    by_cases hf : far l' = far l
    · have hg' : m.get? (far l) = some l' := by rw [hg, if_pos hf.symm]
      have hr : reset ix (near l) (far l) = ix := by simp [reset, hin, hg']
      cases up with
      | false =>
        simp only [hf, and_self, if_true]
        exact ⟨m, by simp [putSide, hr, assignIfAbsent, hin, hg', hm], he⟩
      | true =>
        simp only [Bool.true_eq_false, and_false, if_false]
        refine ⟨m.set (far l) l, ?_, entries_set_single m (far l) l' l (hf ▸ he)⟩
        simp [putSide, hr, assign, hin]
    · have hg' : m.get? (far l) = none := by rw [hg, if_neg (Ne.symm hf)]
      have hr : reset ix (near l) (far l) = ix.set (near l) GoMap.empty := by
        simp [reset, hin, hg']
      simp only [hf, false_and, if_false]
      refine ⟨(GoMap.empty : GoMap Uid Link).set (far l) l, ?_, rfl⟩
      unfold putSide
      rw [hr]
      cases up <;> simp [assign, assignIfAbsent, inner]

/-- Both indexes hold exactly what the registers say. -/
def Inv (c : Links) (f t : Uid → Option Link) : Prop :=
  (∀ u, Holds c.fr Link.dst u (f u)) ∧ (∀ u, Holds c.to Link.src u (t u))

theorem holds_del (ix : Index) (far : Link → Uid) (u v : Uid) (x : Option Link)
    (h : Holds ix far u x) : Holds (ix.del v) far u (if v = u then none else x) := by
  by_cases hv : v = u
  · subst hv; simp [Holds]
  · rw [if_neg hv]
    cases x with
    | none => simpa [Holds, GoMap.get?_del_ne _ (Ne.symm hv)] using h
    | some l => simpa [Holds, GoMap.get?_del_ne _ (Ne.symm hv)] using h

theorem holds_put (ix : Index) (near far : Link → Uid) (l : Link) (up : Bool) (u : Uid)
    (x : Option Link) (h : Holds ix far u x) :
    Holds (putSide ix (near l) (far l) l up) far u
      (Spec.Cache.update near far u x (.put l up)) := by
  by_cases hu : near l = u
  · subst hu; exact putSide_self ix near far l x up h
  · have : Spec.Cache.update near far u x (.put l up) = x := by
      simp [Spec.Cache.update, hu]
    rw [this]
    have ho := putSide_other ix (near l) (far l) u l up (Ne.symm hu)
    cases x with
    | none => simpa [Holds, ho] using h
    | some l => simpa [Holds, ho] using h

/-- A single (non-bulk) call. -/
def Single : Op → Prop
  | .put _ _ => True
  | .delete _ => True
  | .clear => True
  | _ => False

theorem inv_single (c : Links) (f t : Uid → Option Link) (op : Op) (hs : Single op)
    (h : Inv c f t) :
    Inv (step c op) (fun u => Spec.Cache.update Link.src Link.dst u (f u) op)
      (fun u => Spec.Cache.update Link.dst Link.src u (t u) op) := by
  cases op with
  | put l up =>
    simp only [step, put_eq]
    exact ⟨fun u => holds_put _ Link.src Link.dst l up u _ (h.1 u),
      fun u => holds_put _ Link.dst Link.src l up u _ (h.2 u)⟩
  | delete v =>
    exact ⟨fun u => holds_del _ _ u v _ (h.1 u), fun u => holds_del _ _ u v _ (h.2 u)⟩
  | clear => exact ⟨fun u => rfl, fun u => rfl⟩
  | bulkPut => exact hs.elim
  | bulkDelete => exact hs.elim

theorem step_expand (c : Links) (op : Op) : step c op = (Spec.Cache.expand op).foldl step c := by
  cases op with
  | bulkPut ls up => simp [Spec.Cache.expand, step, bulkPut, List.foldl_map]
  | bulkDelete us =>
    simp only [Spec.Cache.expand, step, bulkDelete, List.foldl_map]
  | _ => simp [Spec.Cache.expand]

theorem expand_single (op op' : Op) (h : op' ∈ Spec.Cache.expand op) : Single op' := by
  cases op with
  | bulkPut ls up =>
    simp only [Spec.Cache.expand, List.mem_map] at h
    obtain ⟨l, _, rfl⟩ := h; trivial
  | bulkDelete us =>
    simp only [Spec.Cache.expand, List.mem_map] at h
    obtain ⟨l, _, rfl⟩ := h; trivial
  | _ => simp only [Spec.Cache.expand, List.mem_singleton] at h; subst h; trivial

theorem run_expand (hist : List Op) :
    run hist = (hist.flatMap Spec.Cache.expand).foldl step new := by
  unfold run
  generalize new = c
  induction hist generalizing c with
  | nil => rfl
  | cons op hist ih =>
    rw [List.foldl_cons, ih, List.flatMap_cons, List.foldl_append, step_expand]

theorem inv_singles (ops : List Op) (hs : ∀ op ∈ ops, Single op) (c : Links)
    (f t : Uid → Option Link) (h : Inv c f t) :
    Inv (ops.foldl step c)
      (fun u => ops.foldl (Spec.Cache.update Link.src Link.dst u) (f u))
      (fun u => ops.foldl (Spec.Cache.update Link.dst Link.src u) (t u)) := by
  induction ops generalizing c f t with
  | nil => exact h
  | cons op ops ih =>
    simp only [List.foldl_cons]
    exact ih (fun o ho => hs o (by simp [ho])) _ _ _ (inv_single c f t op (hs op (by simp)) h)

theorem inv_run (hist : List Op) :
    Inv (run hist) (Spec.Cache.heldFrom hist) (Spec.Cache.heldTo hist) := by
  rw [run_expand]
  have := inv_singles (hist.flatMap Spec.Cache.expand) (by
    intro op hop
    obtain ⟨o, _, ho⟩ := List.mem_flatMap.mp hop
    exact expand_single o op ho) new (fun _ => none) (fun _ => none)
    ⟨fun u => rfl, fun u => rfl⟩
  exact this

private theorem getIndex_of_holds (ix : Index) (far : Link → Uid) (o : Order (Uid × Link)) (u : Uid)
    (x : Option Link) (h : Holds ix far u x) :
    (match ix.get? u with | some m => get o m | none => []) = x.toList := by
  cases x with
  | none => simp only [Holds] at h; simp [h]
  | some l =>
    obtain ⟨m, hm, he⟩ := h
    have : o.run [(far l, l)] = [(far l, l)] := List.perm_singleton.mp (o.perm _)
    simp [hm, get, he, this]

theorem getFrom_run (hist : List Op) (o : Order (Uid × Link)) (u : Uid) :
    getFrom (run hist) o u = (Spec.Cache.heldFrom hist u).toList :=
  getIndex_of_holds _ _ o u _ ((inv_run hist).1 u)

theorem getTo_run (hist : List Op) (o : Order (Uid × Link)) (u : Uid) :
    getTo (run hist) o u = (Spec.Cache.heldTo hist u).toList :=
  getIndex_of_holds _ _ o u _ ((inv_run hist).2 u)

end Netscrape.Cache
