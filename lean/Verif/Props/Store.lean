import Verif.Lemmas.StoreSim

/-!
# C32 – C38: the in-memory store

Histories are bounded by 2^63 attempted additions: beyond that the ID allocator panics.
-/

namespace Netscrape.Props
open Netscrape Netscrape.Store
open Netscrape.Graph (Ent Node Edge WG St)
open Netscrape.Spec.Store

theorem sInv_start {d : Bool} {s : St} (h : Start d s) : SInv d 0 s ∧ Sim s AStore.empty := by
  cases h with
  | default h fresh => exact ⟨sInv_new false h fresh [], sim_new false h fresh []⟩
  | given d h fresh gf go => exact ⟨sInv_new d h gf go, sim_new d h gf go⟩

theorem run_start {d : Bool} {s₀ : St} (h0 : Start d s₀) (ops : List Op) (hn : adds ops ≤ 2 ^ 63) :
    results s₀ ops = AStore.results d AStore.empty ops ∧
    Sim (run s₀ ops) (AStore.run d AStore.empty ops) ∧ SInv d (adds ops) (run s₀ ops) := by
  obtain ⟨h1, h2⟩ := sInv_start h0
  have := run_sim ops h1 h2 (by omega)
  rwa [Nat.zero_add] at this

/-- The observable content of `Get` follows the simulation. -/
theorem get_sim {s : St} {a : AStore} (h : Sim s a) (u : Uid) :
    match a.ent u.str with
    | some e => ∃ n, get s u = .ok n ∧ n.ent = e
    | none => get s u = .err .entityNotFound := by
  rcases node_cases s.g u with ⟨n, hn⟩ | hn
  · rw [h.present hn]; exact ⟨n, (get_ok _ _ _).mpr hn, rfl⟩
  · rw [h.absent hn]; exact (get_err _ _).mpr hn

/-! ## Examples -/

def exStore : St := newStore Heap.empty none ⟨0, "graph"⟩
def exE (i : Nat) (name typ : String) : Ent := ⟨⟨i, name⟩, typ, 0, none⟩

/-- Two entities added and linked, one of them deleted and added again, a bulk addition that fails
half-way. -/
def exHist : List Op :=
  [.add Order.id (exE 1 "a" "x") [], .add Order.id (exE 2 "b" "y") [.withUpsert],
   .link ⟨10, "e"⟩ 11 ⟨3, "a"⟩ ⟨4, "b"⟩ [], .delete ⟨5, "b"⟩,
   .bulkAdd [(Order.id, exE 6 "b" "z"), (Order.id, exE 7 "a" "w"), (Order.id, exE 8 "c" "v")] [],
   .bulkLink ⟨1, "a"⟩ [(⟨12, "e2"⟩, 13, ⟨2, "b"⟩), (⟨14, "e3"⟩, 15, ⟨9, "q"⟩)] []]

/-! ## C32 -/

/-- **C32** (refinement). After any history of calls, single and bulk, on a new store the calls have
returned what the reference store returns, and `Get` finds what the reference store holds. -/
theorem c32_refines {d : Bool} {s₀ : St} (h0 : Start d s₀) (ops : List Op)
    (hn : adds ops ≤ 2 ^ 63) :
    results s₀ ops = AStore.results d AStore.empty ops ∧
    ∀ u, match (AStore.run d AStore.empty ops).ent u.str with
      | some e => ∃ n, get (run s₀ ops) u = .ok n ∧ n.ent = e
      | none => get (run s₀ ops) u = .err .entityNotFound := by
  obtain ⟨h1, h2, -⟩ := run_start h0 ops hn
  exact ⟨h1, get_sim h2⟩

private theorem run_snoc (d : Bool) (a : AStore) (ops : List Op) (op : Op) :
    AStore.run d a (ops ++ [op]) = ((AStore.run d a ops).step d op).2 := by
  simp [AStore.run]

private theorem ent_earliest (d : Bool) (k : String) (rev : List Op)
    (hs : ∀ op ∈ rev, single op = true) :
    (AStore.run d AStore.empty rev.reverse).ent k = earliest k rev.reverse := by
  induction rev with
  | nil => rfl
  | cons op rev ih =>
    have ih := ih (fun x hx => hs x (List.mem_cons_of_mem _ hx))
    have hop := hs op List.mem_cons_self
    rw [List.reverse_cons, run_snoc]
    have hkeep : keeps k op = true →
        earliest k (rev.reverse ++ [op]) = (earliest k rev.reverse).or (addsAs k op) := by
      intro hp
      unfold earliest sinceDelete
      simp only [List.reverse_append, List.reverse_cons, List.reverse_nil, List.nil_append,
        List.reverse_reverse, List.cons_append, List.takeWhile_cons, hp, if_true,
        List.findSome?_append, List.findSome?_cons, List.findSome?_nil]
      congr 1
      cases addsAs k op <;> rfl
    cases op with
    | add o e opts =>
      rw [hkeep rfl, ← ih]
      simp only [AStore.step, AStore.add, addsAs]
      by_cases hk : e.uid.str = k
      · subst hk
        cases he : (AStore.run d AStore.empty rev.reverse).ent e.uid.str with
        | some x => simp [he]
        | none => simp
      · rw [if_neg hk, Option.or_none]
        split
        · rfl
        · simp [Ne.symm hk]
    | delete u =>
      by_cases hk : u.str = k
      · simp only [AStore.step, AStore.delete, if_pos hk.symm]
        simp [earliest, sinceDelete, keeps, hk]
      · rw [hkeep (by simpa [keeps] using hk), ← ih]
        simp [AStore.step, AStore.delete, addsAs, Ne.symm hk]
    | link f a u v o =>
      rw [hkeep rfl, ← ih]
      simp only [AStore.step, AStore.link, addsAs, Option.or_none]
      split
      · split <;> rfl
      · rfl
    | unlink u v =>
      rw [hkeep rfl, ← ih]
      simp [AStore.step, AStore.unlink, addsAs]
    | env h =>
      rw [hkeep rfl, ← ih]
      simp [AStore.step, addsAs]
    | bulkAdd => cases hop
    | bulkDelete => cases hop
    | bulkLink => cases hop
    | bulkUnlink => cases hop

/-- **C32.** After any history of single calls, `Get u` returns the entity of the earliest addition
under `u`'s string since that string was last deleted, and `ErrEntityNotFound` when there is none. -/
theorem c32_get {d : Bool} {s₀ : St} (h0 : Start d s₀) (ops : List Op) (hn : adds ops ≤ 2 ^ 63)
    (hs : ∀ op ∈ ops, single op = true) (u : Uid) :
    match earliest u.str ops with
    | some e => ∃ n, get (run s₀ ops) u = .ok n ∧ n.ent = e
    | none => get (run s₀ ops) u = .err .entityNotFound := by
  have := (c32_refines h0 ops hn).2 u
  have h := ent_earliest d u.str ops.reverse (fun x hx => hs x (List.mem_reverse.mp hx))
  rw [List.reverse_reverse] at h
  rwa [h] at this

/-- **C32** (duplicates). Adding under a UID that `Get` finds, without upsert, returns
`ErrAlreadyExists` and leaves the graph as it is; no attribute set changes. -/
theorem c32_duplicate {d : Bool} {s₀ : St} (h0 : Start d s₀) (ops : List Op)
    (hn : adds ops < 2 ^ 63) (o : Order (Int × Unit)) (e : Ent) (opts : List SOpt) (n : Node)
    (hp : get (run s₀ ops) e.uid = .ok n) (hu : SOpt.withUpsert ∉ opts) :
    (add (run s₀ ops) o e opts).1 = .err .alreadyExists ∧
    (add (run s₀ ops) o e opts).2.g = (run s₀ ops).g ∧
    (add (run s₀ ops) o e opts).2.heap.Extends (run s₀ ops).heap := by
  obtain ⟨-, -, h3⟩ := run_start h0 ops (by omega)
  have hu' : upserts opts = false := by
    rw [Bool.eq_false_iff]; unfold upserts; simpa using hu
  obtain ⟨h', g', h4, -, -, h5, h6, -⟩ := add_present h3 hn o e opts n ((get_ok _ _ _).mp hp)
  rw [h4, hu']
  exact ⟨rfl, h5 hu', h6⟩

/-- **C32** (deletion). `Delete u` succeeds, `Get` no longer finds `u`, and finds everything else as
before. -/
theorem c32_delete {d : Bool} {s₀ : St} (h0 : Start d s₀) (ops : List Op)
    (hn : adds ops ≤ 2 ^ 63) (u : Uid) :
    (delete (run s₀ ops) u).1 = .ok () ∧
    get (delete (run s₀ ops) u).2 u = .err .entityNotFound ∧
    ∀ v : Uid, v.str ≠ u.str → get (delete (run s₀ ops) u).2 v = get (run s₀ ops) v := by
  obtain ⟨-, -, h3⟩ := run_start h0 ops hn
  obtain ⟨h1, -, -, h4, -⟩ := c22_removeNode h3.disc u
  refine ⟨rfl, (get_err _ _).mpr h1, ?_⟩
  intro v hv
  unfold Store.get
  simp only [delete, h4 v hv]

/-- Non-vacuity of C32: deleted and re-added, kept against a later duplicate, absent. -/
example : Start false exStore ∧ adds exHist ≤ 2 ^ 63 ∧
    results exStore exHist = [.ok (), .ok (), .ok (), .ok (), .err .alreadyExists,
      .err .entityNotFound] ∧
    ((get (run exStore exHist) ⟨90, "b"⟩).toOption.map fun n => n.ent.typ) = some "z" ∧
    ((get (run exStore exHist) ⟨90, "a"⟩).toOption.map fun n => n.ent.typ) = some "x" ∧
    get (run exStore exHist) ⟨90, "c"⟩ = .err .entityNotFound :=
  ⟨.default _ _, by decide, by decide, by decide, by decide, by decide⟩

example : (∀ op ∈ exHist.take 4, single op = true) ∧ earliest "a" (exHist.take 4) = some (exE 1 "a" "x") ∧
    earliest "b" (exHist.take 4) = none := by decide

/-! ## C33 -/

/-- An upsert makes `Get` return the new entity. -/
def UpsertStores : Prop :=
  ∀ (d : Bool) (s₀ : St) (ops : List Op) (o : Order (Int × Unit)) (e : Ent) (opts : List SOpt),
    Start d s₀ → adds ops < 2 ^ 63 → SOpt.withUpsert ∈ opts →
    ∃ n, get (add (run s₀ ops) o e opts).2 e.uid = .ok n ∧ n.ent = e

/-- **C33 fails**: an upsert of a known UID reports success and keeps the old entity. -/
theorem c33_violated : ¬ UpsertStores := by
  intro h
  obtain ⟨n, h1, h2⟩ := h false exStore exHist Order.id (exE 20 "a" "new") [.withUpsert]
    (.default _ _) (by decide) (by decide)
  have h3 : (get (add (run exStore exHist) Order.id (exE 20 "a" "new") [.withUpsert]).2
      (exE 20 "a" "new").uid).toOption.map (fun n => n.ent.typ) = some "x" := by decide
  rw [h1] at h3
  simp only [Res.toOption, Option.map_some, h2] at h3
  revert h3
  decide

/-- **C33, what holds**: an upsert always succeeds; it stores the entity when its UID is new, and
otherwise changes no `Get` at all. -/
theorem c33_upsert_partial {d : Bool} {s₀ : St} (h0 : Start d s₀) (ops : List Op)
    (hn : adds ops < 2 ^ 63) (o : Order (Int × Unit)) (e : Ent) (opts : List SOpt)
    (hu : SOpt.withUpsert ∈ opts) :
    (add (run s₀ ops) o e opts).1 = .ok () ∧
    (get (run s₀ ops) e.uid = .err .entityNotFound →
      ∃ n, get (add (run s₀ ops) o e opts).2 e.uid = .ok n ∧ n.ent = e) ∧
    (∀ m, get (run s₀ ops) e.uid = .ok m →
      ∀ v, get (add (run s₀ ops) o e opts).2 v = get (run s₀ ops) v) ∧
    (∀ v : Uid, v.str ≠ e.uid.str →
      get (add (run s₀ ops) o e opts).2 v = get (run s₀ ops) v) := by
  obtain ⟨-, -, h3⟩ := run_start h0 ops (by omega)
  have hu' : upserts opts = true := by unfold upserts; simpa using hu
  rcases node_cases (run s₀ ops).g e.uid with ⟨m, hm⟩ | hm
  · obtain ⟨h', g', h4, h5, -, -, -, -⟩ := add_present h3 hn o e opts m hm
    have hall : ∀ v, get (add (run s₀ ops) o e opts).2 v = get (run s₀ ops) v := by
      intro v; unfold Store.get; rw [h4]; simp only [h5]
    refine ⟨by rw [h4, hu']; rfl, ?_, fun _ _ => hall, fun v _ => hall v⟩
    intro habs
    rw [get_err, hm] at habs
    cases habs
  · obtain ⟨n, h', g', h4, ⟨h5, -⟩, -, h6, h7, -, -⟩ := add_absent h3 hn o e opts hm
    refine ⟨by rw [h4], fun _ => ⟨n, by rw [h4]; exact (get_ok _ _ _).mpr h6, h5⟩, ?_, ?_⟩
    · intro m hm'
      rw [get_ok, hm] at hm'
      cases hm'
    · intro v hv; unfold Store.get; rw [h4]; simp only [h7 v hv]

/-! ## C34 -/

/-- The entity `Get` returns carries the attributes the entity had when it was added. -/
def AttrsKept : Prop :=
  ∀ (d : Bool) (s₀ : St) (ops : List Op) (o : Order (Int × Unit)) (e : Ent) (n : Node),
    Start d s₀ → adds ops < 2 ^ 63 → (run s₀ ops).heap.Valid e.attrs →
    (add (run s₀ ops) o e []).1 = .ok () → get (add (run s₀ ops) o e []).2 e.uid = .ok n →
    (add (run s₀ ops) o e []).2.heap.read n.attrs = (run s₀ ops).heap.read e.attrs

/-- **C34 fails** for every entity that has an attribute: `Get` returns it with none. -/
theorem c34_violated_always {d : Bool} {s₀ : St} (h0 : Start d s₀) (ops : List Op)
    (hn : adds ops < 2 ^ 63) (o : Order (Int × Unit)) (e : Ent) (k v : String)
    (hkv : ((run s₀ ops).heap.read e.attrs).get? k = some v) (n : Node)
    (hok : (add (run s₀ ops) o e []).1 = .ok ())
    (hget : get (add (run s₀ ops) o e []).2 e.uid = .ok n) :
    (add (run s₀ ops) o e []).2.heap.read n.attrs = GoMap.empty ∧
    (add (run s₀ ops) o e []).2.heap.read n.attrs ≠ (run s₀ ops).heap.read e.attrs := by
  obtain ⟨-, -, h3⟩ := run_start h0 ops (by omega)
  have hempty : (add (run s₀ ops) o e []).2.heap.read n.attrs = GoMap.empty := by
    rcases node_cases (run s₀ ops).g e.uid with ⟨m, hm⟩ | hm
    · obtain ⟨h', g', h4, -⟩ := add_present h3 hn o e [] m hm
      rw [h4] at hok
      cases hok
    · obtain ⟨n', h', g', h4, -, h5, h6, -⟩ := add_absent h3 hn o e [] hm
      rw [h4] at hget ⊢
      rw [get_ok] at hget
      simp only at hget
      rw [h6] at hget
      cases hget
      have hh : n.attrs = ((run s₀ ops).heap.alloc GoMap.empty).1 ∧
          h' = ((run s₀ ops).heap.alloc GoMap.empty).2 := by
        have h5' : (n.attrs, h') = (run s₀ ops).heap.alloc GoMap.empty := h5
        rw [← h5']; exact ⟨rfl, rfl⟩
      rw [hh.1, hh.2]
      exact Heap.read_alloc_new _ _
  refine ⟨hempty, ?_⟩
  rw [hempty]
  intro h
  rw [← h] at hkv
  simp at hkv

def exAttrs : AttrMap := GoMap.set GoMap.empty "k" "v"
def exStoreA : St := newStore ⟨[exAttrs]⟩ none ⟨0, "graph"⟩

theorem c34_violated : ¬ AttrsKept := by
  intro h
  exact (c34_violated_always (s₀ := exStoreA) (.default ⟨[exAttrs]⟩ ⟨0, "graph"⟩) [] (by decide) Order.id
    (exE 1 "a" "x") "k" "v" (by decide) ⟨exE 1 "a" "x", 0, "a", 1⟩ (by decide) (by decide)).2
    (h false exStoreA [] Order.id (exE 1 "a" "x") ⟨exE 1 "a" "x", 0, "a", 1⟩
      (.default ⟨[exAttrs]⟩ ⟨0, "graph"⟩) (by decide) (by decide) (by decide) (by decide))

/-- **C34, what holds**: UID and type are the added entity's, and the attributes are the very set
given by the `WithAttrs` option; passing the entity's own set keeps its attributes. -/
theorem c34_attrs_partial {d : Bool} {s₀ : St} (h0 : Start d s₀) (ops : List Op)
    (hn : adds ops < 2 ^ 63) (o : Order (Int × Unit)) (e : Ent) (opts : List SOpt)
    (habs : get (run s₀ ops) e.uid = .err .entityNotFound) :
    ∃ n, get (add (run s₀ ops) o e opts).2 e.uid = .ok n ∧ n.uid = e.uid ∧ n.ent.typ = e.typ ∧
      (∀ r, attrsOption opts = some r → n.attrs = r ∧
        (add (run s₀ ops) o e opts).2.heap = (run s₀ ops).heap) ∧
      (attrsOption opts = none →
        (add (run s₀ ops) o e opts).2.heap.read n.attrs = GoMap.empty ∧
        ¬ (run s₀ ops).heap.Valid n.attrs) := by
  obtain ⟨-, -, h3⟩ := run_start h0 ops (by omega)
  obtain ⟨n, h', g', h4, ⟨h5, -⟩, h6, h7, -⟩ := add_absent h3 hn o e opts ((get_err _ _).mp habs)
  refine ⟨n, by rw [h4]; exact (get_ok _ _ _).mpr h7, by unfold Node.uid; rw [h5], by rw [h5], ?_, ?_⟩
  · intro r hr
    rw [hr] at h6
    rw [h4]
    exact h6
  · intro hr
    rw [hr] at h6
    have hh : n.attrs = ((run s₀ ops).heap.alloc GoMap.empty).1 ∧
        h' = ((run s₀ ops).heap.alloc GoMap.empty).2 := by
      have h6' : (n.attrs, h') = (run s₀ ops).heap.alloc GoMap.empty := h6
      rw [← h6']; exact ⟨rfl, rfl⟩
    rw [h4, hh.1]
    simp only
    rw [hh.2]
    exact ⟨Heap.read_alloc_new _ _, Heap.alloc_fresh _ _⟩

/-- Non-vacuity of C34. -/
example : get exStoreA ⟨1, "a"⟩ = .err .entityNotFound ∧
    attrsOption [.withAttrs (some 7), .withUpsert, .withAttrs (some 0)] = some 0 ∧
    exStoreA.heap.Valid 0 := by decide

/-! ## C35 -/

/-- `BulkGet` returns, place by place, what `Get` returns. -/
def BulkGetContract : Prop :=
  ∀ (d : Bool) (s₀ : St) (ops : List Op) (us : List Uid), Start d s₀ → adds ops ≤ 2 ^ 63 →
    (∀ u ∈ us, ∃ n, get (run s₀ ops) u = .ok n) →
    ∃ ns, bulkGet (run s₀ ops) us = .ok ns ∧ ns.length = us.length ∧
      ∀ (i : Nat) (u : Uid), us[i]? = some u → ∃ n, get (run s₀ ops) u = .ok n ∧ ns[i]? = some (some n)

/-- **C35 fails**: asking for two entities returns the second followed by nil. -/
theorem c35_violated : ¬ BulkGetContract := by
  intro h
  obtain ⟨ns, h1, h2, h3⟩ := h false exStore exHist [⟨1, "a"⟩, ⟨2, "b"⟩] (.default _ _) (by decide) (by
    intro u hu
    simp only [List.mem_cons, List.not_mem_nil, or_false] at hu
    rcases hu with rfl | rfl
    · exact ⟨⟨exE 1 "a" "x", 0, "a", 0⟩, by decide⟩
    · exact ⟨⟨exE 6 "b" "z", 1, "b", 3⟩, by decide⟩)
  obtain ⟨n, -, h5⟩ := h3 1 ⟨2, "b"⟩ rfl
  have h6 : bulkGet (run exStore exHist) [⟨1, "a"⟩, ⟨2, "b"⟩] =
      .ok [some ⟨exE 6 "b" "z", 1, "b", 3⟩, none] := by decide
  rw [h6] at h1
  cases h1
  simp at h5

private theorem bulkGetLoop_ok (s : St) (us : List Uid) : ∀ ents : List (Option Node), ents ≠ [] →
    (∀ u ∈ us, ∃ n, get s u = .ok n) →
    ∃ ns, bulkGetLoop s us ents = .ok ns ∧ ns.length = ents.length ∧ ns.tail = ents.tail ∧
      (match us.getLast? with
        | none => ns = ents
        | some u => ∃ n, get s u = .ok n ∧ ns[0]? = some (some n)) := by
  induction us with
  | nil => intro ents _ _; exact ⟨ents, rfl, rfl, rfl, rfl⟩
  | cons u us ih =>
    intro ents he hall
    obtain ⟨n, hn⟩ := hall u List.mem_cons_self
    obtain ⟨x, xs, rfl⟩ := List.exists_cons_of_ne_nil he
    obtain ⟨ns, h1, h2, h3, h4⟩ := ih (some n :: xs) (by simp)
      (fun v hv => hall v (List.mem_cons_of_mem _ hv))
    refine ⟨ns, by unfold bulkGetLoop; rw [hn]; exact h1, h2, h3, ?_⟩
    rw [List.getLast?_cons]
    cases hl : us.getLast? with
    | none => rw [hl] at h4; simp only at h4; rw [h4]; exact ⟨n, hn, rfl⟩
    | some v => rw [hl] at h4; exact h4

private theorem bulkGetLoop_err (s : St) (us : List Uid) : ∀ ents : List (Option Node),
    (∃ u ∈ us, get s u = .err .entityNotFound) → bulkGetLoop s us ents = .err .entityNotFound := by
  induction us with
  | nil => rintro ents ⟨u, hu, -⟩; cases hu
  | cons u us ih =>
    rintro ents ⟨v, hv, he⟩
    unfold bulkGetLoop
    rcases node_cases s.g u with ⟨n, hn⟩ | hn
    · rw [(get_ok _ _ _).mpr hn]
      refine ih _ ?_
      rcases List.mem_cons.mp hv with rfl | hv
      · rw [get_err, hn] at he; cases he
      · exact ⟨v, hv, he⟩
    · rw [(get_err _ _).mpr hn]

/-- **C35, what holds** (any store state): `BulkGet` fails with `ErrEntityNotFound` exactly when one
of the UIDs is not stored; otherwise the list has the right length, its first place holds the
entity of the *last* UID and all other places are nil. So only lists of length one come out right. -/
theorem c35_bulkGet_partial (s : St) (us : List Uid) :
    ((∃ u ∈ us, get s u = .err .entityNotFound) → bulkGet s us = .err .entityNotFound) ∧
    ((∀ u ∈ us, ∃ n, get s u = .ok n) →
      ∃ ns, bulkGet s us = .ok ns ∧ ns.length = us.length ∧
        (∀ i : Nat, 0 < i → i < us.length → ns[i]? = some none) ∧
        (∀ u, us.getLast? = some u → ∃ n, get s u = .ok n ∧ ns[0]? = some (some n))) := by
  refine ⟨fun h => bulkGetLoop_err s us _ h, ?_⟩
  intro hall
  cases us with
  | nil => exact ⟨[], rfl, rfl, by simp, by simp⟩
  | cons u us =>
    obtain ⟨ns, h1, h2, h3, h4⟩ := bulkGetLoop_ok s (u :: us)
      (List.replicate (u :: us).length none) (by simp) hall
    refine ⟨ns, h1, by simpa using h2, ?_, ?_⟩
    · intro i hi hlt
      obtain ⟨j, rfl⟩ : ∃ j, i = j + 1 := ⟨i - 1, by omega⟩
      have : ns.tail[j]? = some none := by
        rw [h3]
        simp only [List.length_cons] at hlt
        simp only [List.tail_replicate, List.length_cons]
        rw [List.getElem?_replicate, if_pos (by omega)]
      rwa [List.getElem?_tail] at this
    · intro v hv
      rw [hv] at h4
      exact h4

/-- Non-vacuity of C35: both cases occur, with three UIDs. -/
example : (bulkGet (run exStore exHist) [⟨1, "a"⟩, ⟨2, "b"⟩, ⟨3, "c"⟩] = .err .entityNotFound) ∧
    bulkGet (run exStore exHist) [⟨2, "b"⟩] = .ok [some ⟨exE 6 "b" "z", 1, "b", 3⟩] := by decide

/-! ## C36 -/

/-- The bulk call's outcome `(r, t)` is that of making the single calls in order from `s` and stopping
at the first that does not return nil. -/
def InOrder (s : St) (calls : List Op) (r : Res Err Unit) (t : St) : Prop :=
  ∃ k, k ≤ calls.length ∧ (∀ x ∈ results s (calls.take k), x = .ok ()) ∧
    ((k = calls.length ∧ r = .ok () ∧ t = run s calls) ∨
     (∃ c, calls[k]? = some c ∧ r ≠ .ok () ∧ step (run s (calls.take k)) c = (r, t)))

private theorem loop_inOrder {α : Type} (f : St → α → Res Err Unit × St) (mk : α → Op)
    (hf : ∀ s x, f s x = step s (mk x)) (xs : List α) :
    ∀ s, InOrder s (xs.map mk) (loop f s xs).1 (loop f s xs).2 := by
  induction xs with
  | nil => intro s; exact ⟨0, by simp, by simp [results], .inl ⟨rfl, rfl, rfl⟩⟩
  | cons x xs ih =>
    intro s
    unfold loop
    cases hx : f s x with
    | mk r t =>
      have hstep : step s (mk x) = (r, t) := by rw [← hf, hx]
      cases r with
      | ok y =>
        obtain ⟨k, h1, h2, h3⟩ := ih t
        refine ⟨k + 1, by simpa using h1, ?_, ?_⟩
        · intro z hz
          simp only [List.map_cons, List.take_succ_cons, results, hstep, List.mem_cons] at hz
          rcases hz with rfl | hz
          · rfl
          · exact h2 z hz
        · rcases h3 with ⟨e1, e2, e3⟩ | ⟨c, e1, e2, e3⟩
          · left
            refine ⟨by simpa using e1, e2, ?_⟩
            simp only [List.map_cons, run, List.foldl_cons, hstep]
            exact e3
          · right
            refine ⟨c, by simpa using e1, e2, ?_⟩
            simp only [List.map_cons, List.take_succ_cons, run, List.foldl_cons, hstep]
            exact e3
      | err z =>
        exact ⟨0, by simp, by simp [results], .inr ⟨mk x, by simp, by simp, by
          simpa [run] using hstep⟩⟩
      | panic =>
        exact ⟨0, by simp, by simp [results], .inr ⟨mk x, by simp, by simp, by
          simpa [run] using hstep⟩⟩

/-- **C36.** From any store state, each bulk write has the effect and the result of the corresponding
single calls made in order and stopped at the first that fails. -/
theorem c36_bulk_in_order (s : St) :
    (∀ ents opts, InOrder s (ents.map fun x => .add x.1 x.2 opts) (bulkAdd s ents opts).1
      (bulkAdd s ents opts).2) ∧
    (∀ us, InOrder s (us.map .delete) (bulkDelete s us).1 (bulkDelete s us).2) ∧
    (∀ f us opts, InOrder s (us.map fun x => .link x.1 x.2.1 f x.2.2 opts) (bulkLink s f us opts).1
      (bulkLink s f us opts).2) ∧
    (∀ f us, InOrder s (us.map (.unlink f)) (bulkUnlink s f us).1 (bulkUnlink s f us).2) :=
  ⟨fun ents _ => loop_inOrder _ _ (fun _ _ => rfl) ents s,
   fun us => loop_inOrder _ _ (fun _ _ => rfl) us s,
   fun _ us _ => loop_inOrder _ _ (fun _ _ => rfl) us s,
   fun _ us => loop_inOrder _ _ (fun _ _ => rfl) us s⟩

/-- **C36** (determinism of the description). A bulk call has at most one such outcome. -/
theorem c36_inOrder_unique (s : St) (calls : List Op) (r r' : Res Err Unit) (t t' : St)
    (h : InOrder s calls r t) (h' : InOrder s calls r' t') : r = r' ∧ t = t' := by
  have res_get : ∀ (calls : List Op) (s : St) (j : Nat) (c : Op), calls[j]? = some c →
      (results s calls)[j]? = some (step (run s (calls.take j)) c).1 := by
    intro calls
    induction calls with
    | nil => intro s j c h; simp at h
    | cons x xs ih =>
      intro s j c h
      cases j with
      | zero => simp at h; subst h; simp [results, run]
      | succ j =>
        simp only [List.getElem?_cons_succ] at h
        simp only [results, List.getElem?_cons_succ, List.take_succ_cons, run, List.foldl_cons]
        exact ih _ _ _ h
  have bad : ∀ k k' : Nat, k < k' → (∀ x ∈ results s (calls.take k'), x = .ok ()) → ∀ c,
      calls[k]? = some c → (step (run s (calls.take k)) c).1 = .ok () := by
    intro k k' hlt hall c hc
    have h1 : (calls.take k')[k]? = some c := by rw [List.getElem?_take, if_pos hlt]; exact hc
    have h2 := res_get (calls.take k') s k c h1
    rw [List.take_take, Nat.min_eq_left (Nat.le_of_lt hlt)] at h2
    exact hall _ (List.mem_of_getElem? h2)
  obtain ⟨k, hk, hall, hcase⟩ := h
  obtain ⟨k', hk', hall', hcase'⟩ := h'
  rcases hcase with ⟨e1, e2, e3⟩ | ⟨c, e1, e2, e3⟩ <;>
    rcases hcase' with ⟨e1', e2', e3'⟩ | ⟨c', e1', e2', e3'⟩
  · exact ⟨by rw [e2, e2'], by rw [e3, e3']⟩
  · have hlt : k' < k := by
      have := (List.getElem?_eq_some_iff.mp e1').1; omega
    have := bad k' k hlt hall c' e1'
    rw [e3'] at this
    exact absurd this e2'
  · have hlt : k < k' := by
      have := (List.getElem?_eq_some_iff.mp e1).1; omega
    have := bad k k' hlt hall' c e1
    rw [e3] at this
    exact absurd this e2
  · rcases Nat.lt_trichotomy k k' with hlt | heq | hlt
    · have := bad k k' hlt hall' c e1
      rw [e3] at this
      exact absurd this e2
    · subst heq
      rw [e1] at e1'
      cases e1'
      rw [e3] at e3'
      cases e3'
      exact ⟨rfl, rfl⟩
    · have := bad k' k hlt hall c' e1'
      rw [e3'] at this
      exact absurd this e2'

/-- Non-vacuity of C36: a bulk addition that fails at its second entity keeps the first and never
reaches the third. -/
example :
    let r := bulkAdd (run exStore (exHist.take 4))
      [(Order.id, exE 6 "b" "z"), (Order.id, exE 7 "a" "w"), (Order.id, exE 8 "c" "v")] []
    r.1 = .err .alreadyExists ∧ ((get r.2 ⟨1, "b"⟩).toOption.map fun n => n.ent.typ) = some "z" ∧
    get r.2 ⟨1, "c"⟩ = .err .entityNotFound := by decide

/-! ## C37 -/

/-- **C37.** After every history: the store's graph enumerates exactly the nodes `Get` finds, UIDs and
IDs determine each other, every edge the graph enumerates joins two different entities that `Get`
finds, and none touches an absent UID. -/
theorem c37_well_formed {d : Bool} {s₀ : St} (h0 : Start d s₀) (ops : List Op)
    (hn : adds ops ≤ 2 ^ 63) (o : Order (Int × Node)) (eo : Gonum.EdgeOrder) :
    let s := run s₀ ops
    (∀ n, n ∈ Graph.nodesList s.g o ↔ get s n.uid = .ok n) ∧
    (∀ u v m n, get s u = .ok m → get s v = .ok n → (m.id = n.id ↔ u.str = v.str)) ∧
    ((Graph.nodesList s.g o).map (fun n => n.uid.str)).Nodup ∧
    ((Graph.nodesList s.g o).map Node.id).Nodup ∧
    (∀ e ∈ Graph.edgesList s.g eo, get s e.src.uid = .ok e.src ∧ get s e.dst.uid = .ok e.dst ∧
      e.src.uid.str ≠ e.dst.uid.str) ∧
    (∀ u, get s u = .err .entityNotFound → ∀ e ∈ Graph.edgesList s.g eo,
      e.src.uid.str ≠ u.str ∧ e.dst.uid.str ≠ u.str) := by
  intro s
  obtain ⟨-, -, h3⟩ := run_start h0 ops hn
  obtain ⟨h4, -, h5, h6⟩ := c17_agree_partial h3.reach o
  have hinv := Graph.wgInv_reach h3.disc
  have hmem : ∀ n, n ∈ Graph.nodesList s.g o ↔ get s n.uid = .ok n := fun n => by
    rw [get_ok]; exact h4 n
  have hedge : ∀ e ∈ Graph.edgesList s.g eo, get s e.src.uid = .ok e.src ∧
      get s e.dst.uid = .ok e.dst ∧ e.src.uid.str ≠ e.dst.uid.str := by
    intro e he
    obtain ⟨-, -, h7⟩ := c26_nodes_partial h3.disc eo e he
    obtain ⟨h8, h9⟩ := h7 h3.reach o
    obtain ⟨-, -, hne⟩ := c26_ids_partial (h3.reach.mono fun _ _ _ => trivial) eo o e (.inl he)
    have h8' := (hmem _).mp h8
    have h9' := (hmem _).mp h9
    refine ⟨h8', h9', ?_⟩
    intro hstr
    rw [get_ok] at h8' h9'
    exact hne ((hinv.id_inj ((hinv.node_eq _ _).mp h8') ((hinv.node_eq _ _).mp h9')).mpr hstr)
  refine ⟨hmem, ?_, h5, h6, hedge, ?_⟩
  · intro u v m n hm hn'
    rw [get_ok] at hm hn'
    exact hinv.id_inj ((hinv.node_eq _ _).mp hm) ((hinv.node_eq _ _).mp hn')
  · intro u hu e he
    obtain ⟨h7, h8, -⟩ := hedge e he
    have hcong : ∀ v : Uid, v.str = u.str → get s v = .err .entityNotFound := by
      intro v hv
      rw [← hu]; unfold Store.get Graph.node; rw [hv]
    constructor
    · intro h; rw [hcong _ h] at h7; cases h7
    · intro h; rw [hcong _ h] at h8; cases h8

/-- Non-vacuity of C37: a store with nodes, an edge, and an absent UID. -/
example : Graph.nodesList (run exStore exHist).g Order.id ≠ [] ∧
    ((Graph.edgesList (run exStore exHist).g Gonum.EdgeOrder.id).map
      fun e => (e.src.uid.str, e.dst.uid.str)) = [("a", "b")] ∧
    get (run exStore exHist) ⟨9, "q"⟩ = .err .entityNotFound := by decide

/-! ## C38 -/

/-- Two entities are adjacent when the store's graph has an edge between them, as seen through
`Graph().Edge`. -/
def Adjacent (s : St) (u v : Uid) : Prop := ∃ x, Graph.edge s.g u v = .ok x

/-- **C38** (Link). Linking two different stored entities succeeds and makes them adjacent, in both
directions in an undirected store; no other pair and no `Get` changes. With a missing end the call
returns `ErrEntityNotFound` and nothing changes. -/
theorem c38_link {d : Bool} {s₀ : St} (h0 : Start d s₀) (ops : List Op) (hn : adds ops ≤ 2 ^ 63)
    (fresh : Uid) (na : Nat) (f t : Uid) (opts : List SOpt) :
    let s := run s₀ ops
    let r := link s fresh na f t opts
    ((get s f = .err .entityNotFound ∨ get s t = .err .entityNotFound) →
      r = (.err .entityNotFound, s)) ∧
    (∀ m n, get s f = .ok m → get s t = .ok n → f.str ≠ t.str →
      r.1 = .ok () ∧ Adjacent r.2 f t ∧ (d = false → Adjacent r.2 t f) ∧
      (∀ u, get r.2 u = get s u) ∧
      (∀ p q : Uid, ¬ (p.str = f.str ∧ q.str = t.str) →
        ¬ (d = false ∧ p.str = t.str ∧ q.str = f.str) → (Adjacent r.2 p q ↔ Adjacent s p q))) := by
  intro s r
  obtain ⟨-, -, h3⟩ := run_start h0 ops hn
  refine ⟨?_, ?_⟩
  · intro hm
    rw [get_err, get_err] at hm
    show link s fresh na f t opts = _
    unfold link
    rw [link_missing fresh na _ hm]
  · intro m n hm hn' hft
    rw [get_ok] at hm hn'
    obtain ⟨-, hex, hnew⟩ := c19_link h3.disc fresh na f t hft [.withAttrs (applyAll opts).attrs]
    by_cases hE : ∃ e, Graph.edge s.g f t = .ok e
    · obtain ⟨e, he⟩ := hE
      have hl : r = (.ok (), s) := by
        show link s fresh na f t opts = _
        unfold link; rw [hex e he]
      rw [hl]
      refine ⟨rfl, ⟨e, he⟩, ?_, fun _ => rfl, fun _ _ _ _ => Iff.rfl⟩
      intro hd
      subst hd
      obtain ⟨e', he', -⟩ := c23_undirected (h3.reach.mono fun _ _ _ => trivial) f t e he
      exact ⟨e', he'⟩
    · obtain ⟨e, g', h', hl, -, -, -, -, g1, g2, g3, g4⟩ := hnew m n hm hn' (fun e he => hE ⟨e, he⟩)
      have hl' : r = (.ok (), ⟨h', g'⟩) := by
        show link s fresh na f t opts = _
        unfold link; rw [hl]
      rw [hl']
      refine ⟨rfl, ⟨e, g1⟩, fun hd => ⟨_, g2 hd⟩, fun u => ?_, fun p q h1 h2 => ?_⟩
      · unfold Store.get; simp only [g3]; rfl
      · unfold Adjacent; simp only [g4 p q h1 h2]; exact Iff.rfl

/-- **C38** (Unlink). `Unlink` always succeeds; afterwards the pair is not adjacent (in neither
direction in an undirected store); no other pair and no `Get` changes. -/
theorem c38_unlink {d : Bool} {s₀ : St} (h0 : Start d s₀) (ops : List Op) (hn : adds ops ≤ 2 ^ 63)
    (f t : Uid) :
    let s := run s₀ ops
    let r := unlink s f t
    r.1 = .ok () ∧ ¬ Adjacent r.2 f t ∧ (d = false → ¬ Adjacent r.2 t f) ∧
    (∀ u, get r.2 u = get s u) ∧
    (∀ p q : Uid, ¬ (p.str = f.str ∧ q.str = t.str) →
      ¬ (d = false ∧ p.str = t.str ∧ q.str = f.str) → (Adjacent r.2 p q ↔ Adjacent s p q)) := by
  intro s r
  obtain ⟨-, -, h3⟩ := run_start h0 ops hn
  obtain ⟨h1, h2, h4, -, h5, -⟩ := c21_unlink h3.disc f t
  refine ⟨rfl, fun ⟨e, he⟩ => h1 e he, fun hd ⟨e, he⟩ => h2 hd e he, fun u => ?_, fun p q c1 c2 => ?_⟩
  · show get (unlink s f t).2 u = get s u
    unfold Store.get; simp only [unlink]; rw [h4]
  · unfold Adjacent
    show (∃ x, Graph.edge (unlink s f t).2.g p q = .ok x) ↔ _
    simp only [unlink]; rw [h5 p q c1 c2]

/-- **C38** (whole histories). Which pairs are adjacent is what the reference store says. -/
theorem c38_adjacency {d : Bool} {s₀ : St} (h0 : Start d s₀) (ops : List Op)
    (hn : adds ops ≤ 2 ^ 63) (u v : Uid) :
    Adjacent (run s₀ ops) u v ↔ (AStore.run d AStore.empty ops).adj u.str v.str = true :=
  (run_start h0 ops hn).2.1.adj u v

/-- Linking an entity with itself is outside C38's claim: it panics. -/
theorem c38_self_link_panics {d : Bool} {s₀ : St} (h0 : Start d s₀) (ops : List Op)
    (hn : adds ops ≤ 2 ^ 63) (fresh : Uid) (na : Nat) (u v : Uid) (opts : List SOpt) (n : Node)
    (hu : get (run s₀ ops) u = .ok n) (huv : u.str = v.str) :
    (link (run s₀ ops) fresh na u v opts).1 = .panic := by
  obtain ⟨-, h2, h3⟩ := run_start h0 ops hn
  rw [(link_sim h3 h2 fresh na u v opts).1]
  have hp := h2.present ((get_ok _ _ _).mp hu)
  unfold AStore.link
  rw [← huv, hp]
  simp

/-- Non-vacuity of C38: linked, not linked, missing end. -/
example : Adjacent (run exStore exHist) ⟨1, "a"⟩ ⟨2, "b"⟩ ∧
    (AStore.run false AStore.empty exHist).adj "b" "a" = true ∧
    ¬ Adjacent (run exStore (exHist.take 4)) ⟨1, "a"⟩ ⟨2, "b"⟩ ∧
    get (run exStore exHist) ⟨9, "q"⟩ = .err .entityNotFound := by
  refine ⟨⟨⟨⟨12, "e2"⟩, 5, ⟨exE 1 "a" "x", 0, "a", 0⟩, ⟨exE 6 "b" "z", 1, "b", 3⟩, "e2", 0⟩, by decide⟩,
    by decide, ?_, by decide⟩
  rintro ⟨x, hx⟩
  have : Graph.edge (run exStore (exHist.take 4)).g ⟨1, "a"⟩ ⟨2, "b"⟩ = .err .nodeNotFound := by decide
  rw [this] at hx
  cases hx

end Netscrape.Props
