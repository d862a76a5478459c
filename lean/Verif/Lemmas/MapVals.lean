import Verif.Go.Map

/-!
# Applying a function to the values of a map
-/

namespace Netscrape.GoMap
variable {K V W : Type}

def mapVals (f : V → W) (m : GoMap K V) : GoMap K W :=
  ⟨m.entries.map fun e => (e.1, f e.2), by
    rw [List.map_map]
    exact m.nodup⟩

@[simp] theorem mapVals_empty (f : V → W) : (empty : GoMap K V).mapVals f = empty := rfl

theorem entries_mapVals (f : V → W) (m : GoMap K V) :
    (m.mapVals f).entries = m.entries.map fun e => (e.1, f e.2) := rfl

@[simp] theorem keys_mapVals (f : V → W) (m : GoMap K V) : (m.mapVals f).keys = m.keys := by
  simp [keys, entries_mapVals, Function.comp_def]

@[simp] theorem size_mapVals (f : V → W) (m : GoMap K V) : (m.mapVals f).size = m.size := by
  simp [size, entries_mapVals]

theorem ext_entries {m m' : GoMap K V} (h : m.entries = m'.entries) : m = m' := by
  cases m; cases m'; cases h; rfl

theorem mapVals_congr {f g : V → W} {m : GoMap K V} (h : ∀ e ∈ m.entries, f e.2 = g e.2) :
    m.mapVals f = m.mapVals g := by
  refine ext_entries ?_
  rw [entries_mapVals, entries_mapVals]
  exact List.map_congr_left fun e he => by rw [h e he]

variable [DecidableEq K]

@[simp] theorem get?_mapVals (f : V → W) (m : GoMap K V) (k : K) :
    (m.mapVals f).get? k = (m.get? k).map f := by
  unfold get?
  rw [entries_mapVals]
  induction m.entries with
  | nil => rfl
  | cons e l ih =>
    rw [List.map_cons, List.lookup_cons, List.lookup_cons]
    split <;> simp_all

theorem mapVals_del (f : V → W) (m : GoMap K V) (k : K) : (m.del k).mapVals f = (m.mapVals f).del k := by
  refine ext_entries ?_
  simp [del, entries_mapVals, List.filter_map, Function.comp_def]

theorem mapVals_set (f : V → W) (m : GoMap K V) (k : K) (v : V) :
    (m.set k v).mapVals f = (m.mapVals f).set k (f v) := by
  refine ext_entries ?_
  have := congrArg GoMap.entries (mapVals_del f m k)
  simp only [set, entries_mapVals, List.map_cons] at *
  rw [this]

theorem get?_congr_mapVals {f g : V → W} {m : GoMap K V}
    (h : ∀ k v, m.get? k = some v → f v = g v) : m.mapVals f = m.mapVals g :=
  mapVals_congr fun e he => h e.1 e.2 ((get?_eq_some m e.1 e.2).mpr he)

end Netscrape.GoMap
