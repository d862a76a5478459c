/-!
# Go maps

A Go map is modelled as an association list with distinct keys.  The order of the list
is an artefact of the model: Go leaves the iteration order of `range` over a map
unspecified, so every model function that ranges over a map takes an `Order`, an
arbitrary rearrangement of the entries.
-/

namespace Netscrape

/-- Go `map[K]V`: entries with pairwise distinct keys. -/
structure GoMap (K V : Type) where
  entries : List (K × V)
  nodup : (entries.map Prod.fst).Nodup

/-- An iteration order chosen by the Go runtime for one `range` loop: any function that
permutes the list it is given.  Theorems quantify over it. -/
structure Order (α : Type) where
  run : List α → List α
  perm : ∀ l, (run l).Perm l

namespace Order
variable {α : Type}

/-- The order that visits entries as stored. -/
def id : Order α := ⟨fun l => l, fun _ => .refl _⟩

/-- The order that visits entries last to first. -/
def rev : Order α := ⟨List.reverse, fun l => List.reverse_perm l⟩

@[simp] theorem mem_run (o : Order α) (l : List α) (a : α) : a ∈ o.run l ↔ a ∈ l :=
  (o.perm l).mem_iff

@[simp] theorem length_run (o : Order α) (l : List α) : (o.run l).length = l.length :=
  (o.perm l).length_eq

@[simp] theorem run_nil (o : Order α) : o.run [] = [] :=
  (o.perm []).eq_nil

theorem nodup_run (o : Order α) {l : List α} (h : l.Nodup) : (o.run l).Nodup :=
  (o.perm l).nodup_iff.mpr h

end Order

namespace GoMap
variable {K V : Type}

/-- `make(map[K]V)` -/
def empty : GoMap K V := ⟨[], List.nodup_nil⟩

instance : Inhabited (GoMap K V) := ⟨empty⟩

instance [DecidableEq K] [DecidableEq V] : DecidableEq (GoMap K V) := fun a b =>
  if h : a.entries = b.entries then
    isTrue (by cases a; cases b; cases h; rfl)
  else isFalse (fun e => h (e ▸ rfl))

instance [Repr K] [Repr V] : Repr (GoMap K V) := ⟨fun m n => reprPrec m.entries n⟩

variable [DecidableEq K]

/-- `v, ok := m[k]` -/
def get? (m : GoMap K V) (k : K) : Option V := m.entries.lookup k

/-- `delete(m, k)` -/
def del (m : GoMap K V) (k : K) : GoMap K V :=
  ⟨m.entries.filter (fun e => e.1 ≠ k),
   List.Nodup.sublist (List.filter_sublist.map Prod.fst) m.nodup⟩

/-- `m[k] = v` -/
def set (m : GoMap K V) (k : K) (v : V) : GoMap K V :=
  ⟨(k, v) :: (m.del k).entries, by
    rw [List.map_cons, List.nodup_cons]
    refine ⟨?_, (m.del k).nodup⟩
    intro h
    obtain ⟨e, he, hk⟩ := List.mem_map.mp h
    have := (List.mem_filter.mp he).2
    simp at this
    exact this hk⟩

/-- `len(m)` -/
def size (m : GoMap K V) : Nat := m.entries.length

def keys (m : GoMap K V) : List K := m.entries.map Prod.fst

def vals (m : GoMap K V) : List V := m.entries.map Prod.snd

omit [DecidableEq K] in
theorem keys_nodup (m : GoMap K V) : m.keys.Nodup := m.nodup

@[simp] theorem get?_empty (k : K) : (empty : GoMap K V).get? k = none := rfl

omit [DecidableEq K] in
@[simp] theorem entries_empty : (empty : GoMap K V).entries = [] := rfl

private theorem lookup_mem {l : List (K × V)} (hn : (l.map Prod.fst).Nodup) (k : K) (v : V) :
    l.lookup k = some v ↔ (k, v) ∈ l := by
  induction l with
  | nil => simp
  | cons e l ih =>
    obtain ⟨k', v'⟩ := e
    rw [List.map_cons, List.nodup_cons] at hn
    rw [List.lookup_cons]
    by_cases h : k = k'
    · subst h
      simp only [beq_self_eq_true, List.mem_cons, Prod.mk.injEq, true_and, Option.some.injEq]
      constructor
      · intro h; exact .inl h.symm
      · rintro (h | h)
        · exact h.symm
        · exact absurd (List.mem_map.mpr ⟨_, h, rfl⟩) hn.1
    · have hb : (k == k') = false := by simpa using h
      rw [hb]
      simp [h, ih hn.2]

theorem get?_eq_some (m : GoMap K V) (k : K) (v : V) :
    m.get? k = some v ↔ (k, v) ∈ m.entries := lookup_mem m.nodup k v

theorem get?_eq_none (m : GoMap K V) (k : K) : m.get? k = none ↔ k ∉ m.keys := by
  constructor
  · intro h hk
    obtain ⟨⟨k', v⟩, he, rfl⟩ := List.mem_map.mp hk
    rw [(get?_eq_some m _ v).mpr he] at h
    cases h
  · intro h
    cases hg : m.get? k with
    | none => rfl
    | some v => exact absurd (List.mem_map.mpr ⟨_, (get?_eq_some m k v).mp hg, rfl⟩) h

theorem mem_keys (m : GoMap K V) (k : K) : k ∈ m.keys ↔ ∃ v, m.get? k = some v := by
  constructor
  · intro h
    cases hg : m.get? k with
    | none => exact absurd h ((get?_eq_none m k).mp hg)
    | some v => exact ⟨v, rfl⟩
  · rintro ⟨v, hv⟩
    exact List.mem_map.mpr ⟨_, (get?_eq_some m k v).mp hv, rfl⟩

theorem mem_vals (m : GoMap K V) (v : V) : v ∈ m.vals ↔ ∃ k, m.get? k = some v := by
  constructor
  · intro h
    obtain ⟨⟨k, v'⟩, he, rfl⟩ := List.mem_map.mp h
    exact ⟨k, (get?_eq_some m k v').mpr he⟩
  · rintro ⟨k, hv⟩
    exact List.mem_map.mpr ⟨_, (get?_eq_some m k v).mp hv, rfl⟩

theorem get?_del (m : GoMap K V) (k k' : K) :
    (m.del k).get? k' = if k' = k then none else m.get? k' := by
  by_cases h : k' = k
  · subst h
    rw [if_pos rfl, get?_eq_none]
    intro hk
    obtain ⟨e, he, hk⟩ := List.mem_map.mp hk
    have := (List.mem_filter.mp he).2
    simp at this
    exact this hk
  · rw [if_neg h]
    apply Option.ext
    intro v
    rw [get?_eq_some, get?_eq_some]
    simp [del, h]

theorem get?_set (m : GoMap K V) (k k' : K) (v : V) :
    (m.set k v).get? k' = if k' = k then some v else m.get? k' := by
  by_cases h : k' = k
  · subst h
    rw [if_pos rfl, get?_eq_some]
    simp [set]
  · rw [if_neg h]
    have := get?_del m k k'
    rw [if_neg h] at this
    rw [← this]
    apply Option.ext
    intro w
    rw [get?_eq_some, get?_eq_some]
    simp [set, h]

@[simp] theorem get?_set_self (m : GoMap K V) (k : K) (v : V) : (m.set k v).get? k = some v := by
  rw [get?_set, if_pos rfl]

@[simp] theorem get?_del_self (m : GoMap K V) (k : K) : (m.del k).get? k = none := by
  rw [get?_del, if_pos rfl]

theorem get?_set_ne (m : GoMap K V) {k k' : K} (h : k' ≠ k) (v : V) :
    (m.set k v).get? k' = m.get? k' := by rw [get?_set, if_neg h]

theorem get?_del_ne (m : GoMap K V) {k k' : K} (h : k' ≠ k) :
    (m.del k).get? k' = m.get? k' := by rw [get?_del, if_neg h]

/-- Entries are determined, up to order, by lookups. -/
theorem entries_perm_of_get? {m m' : GoMap K V} (h : ∀ k, m.get? k = m'.get? k) :
    m.entries.Perm m'.entries := by
  have nd : ∀ x : GoMap K V, x.entries.Nodup := fun x =>
    List.Pairwise.of_map Prod.fst (fun a b hab e => hab (e ▸ rfl)) x.nodup
  refine (List.perm_ext_iff_of_nodup (nd m) (nd m')).mpr ?_
  rintro ⟨k, v⟩
  rw [← get?_eq_some, ← get?_eq_some, h]

omit [DecidableEq K] in
theorem entries_nodup (m : GoMap K V) : m.entries.Nodup :=
  List.Pairwise.of_map Prod.fst (fun _ _ hab e => hab (e ▸ rfl)) m.nodup

theorem del_of_none (m : GoMap K V) (k : K) (h : m.get? k = none) : m.del k = m := by
  rw [get?_eq_none] at h
  cases m with
  | mk es nd =>
    unfold del
    congr
    rw [List.filter_eq_self]
    intro e he
    simp only [ne_eq, decide_not, Bool.not_eq_eq_eq_not, Bool.not_true, decide_eq_false_iff_not]
    intro hk
    exact h (List.mem_map.mpr ⟨e, he, hk⟩)

theorem size_set_of_none (m : GoMap K V) (k : K) (v : V) (h : m.get? k = none) :
    (m.set k v).size = m.size + 1 := by
  simp [size, set, del_of_none m k h]

omit [DecidableEq K] in
@[simp] theorem size_empty : (empty : GoMap K V).size = 0 := rfl

theorem size_eq_zero (m : GoMap K V) : m.size = 0 ↔ ∀ k, m.get? k = none := by
  constructor
  · intro h k
    have : m.entries = [] := List.length_eq_zero_iff.mp h
    simp [get?, this]
  · intro h
    apply List.length_eq_zero_iff.mpr
    rw [List.eq_nil_iff_forall_not_mem]
    rintro ⟨k, v⟩ he
    have := (get?_eq_some m k v).mpr he
    rw [h k] at this
    cases this

end GoMap
end Netscrape
