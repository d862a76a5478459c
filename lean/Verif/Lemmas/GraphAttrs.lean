import Verif.Spec.GraphAttrs
import Verif.Lemmas.RelyState
import Verif.Lemmas.Dot
import Verif.Lemmas.SubGraph

/-!
# A graph and its attributes used at once: what each call relies on
-/

namespace Netscrape.GraphAttrs
open Netscrape Netscrape.Conc Netscrape.Graph Netscrape.Spec Netscrape.Spec.GraphAttrs
open Netscrape.Spec.AttrsConc (Held Had)
open Netscrape.Spec.Graph (Pointwise)

/-! ## The invariant of the memory and what others may do to it -/

structure GInv (h : Heap) (W : Ref → String → String → Prop) (s : St) : Prop where
  b : Gonum.Inv s.g.b
  len : h.cells.length ≤ s.heap.cells.length
  held : ∀ r, h.Valid r → ∀ k v, (s.heap.read r).get? k = some v → Held h W r k v
  had : ∀ r, h.Valid r → ∀ k, Had h r k → Had s.heap r k

structure GRel (W : Ref → String → String → Prop) (s s' : St) : Prop where
  len : s.heap.cells.length ≤ s'.heap.cells.length
  had : ∀ r k, Had s.heap r k → Had s'.heap r k
  new : ∀ r k, s.heap.Valid r → Had s'.heap r k → Had s.heap r k ∨ ∃ v, W r k v
  frozen : ∀ r, s.heap.Valid r → (∀ k v, ¬ W r k v) → s'.heap.read r = s.heap.read r

theorem GRel.refl {W : Ref → String → String → Prop} (s : St) : GRel W s s :=
  ⟨Nat.le_refl _, fun _ _ h => h, fun _ _ _ h => .inl h, fun _ _ _ => rfl⟩

theorem GRel.valid {W : Ref → String → String → Prop} {s s' : St} (h : GRel W s s') {r : Ref}
    (hr : s.heap.Valid r) : s'.heap.Valid r := Nat.lt_of_lt_of_le hr h.len

theorem GRel.trans {W : Ref → String → String → Prop} {s s' s'' : St} (h : GRel W s s') (h' : GRel W s' s'') :
    GRel W s s'' := by
  refine ⟨Nat.le_trans h.len h'.len, fun r k hk => h'.had r k (h.had r k hk), ?_, ?_⟩
  · intro r k hr hk
    rcases h'.new r k (h.valid hr) hk with h1 | h1
    · exact h.new r k hr h1
    · exact .inr h1
  · intro r hr hf
    rw [h'.frozen r (h.valid hr) hf, h.frozen r hr hf]

theorem read_invalid {h : Heap} {r : Ref} (hr : ¬ h.Valid r) : h.read r = GoMap.empty := by
  have : h.cells.length ≤ r := Nat.le_of_not_lt hr
  simp [Heap.read, List.getD, List.getElem?_eq_none this]

theorem had_valid {h : Heap} {r : Ref} {k : String} (hk : Had h r k) : h.Valid r := by
  refine Classical.byContradiction fun hr => hk ?_
  rw [read_invalid hr]
  rfl

/-- Only new attribute sets. -/
theorem gRel_extends {W : Ref → String → String → Prop} {s s' : St} (hx : s'.heap.Extends s.heap) : GRel W s s' := by
  refine ⟨?_, ?_, ?_, ?_⟩
  · obtain ⟨e, he⟩ := hx
    rw [he, List.length_append]
    exact Nat.le_add_right _ _
  · intro r k hk
    unfold Had
    rw [hx.read (had_valid hk)]
    exact hk
  · intro r k hr hk
    unfold Had at hk
    rw [hx.read hr] at hk
    exact .inl hk
  · intro r hr _
    exact hx.read hr

theorem gInv_extends {h : Heap} {W : Ref → String → String → Prop} {s s' : St} (hs : GInv h W s)
    (hx : s'.heap.Extends s.heap) (hb : Gonum.Inv s'.g.b) : GInv h W s' := by
  have hv : ∀ r, h.Valid r → s.heap.Valid r := fun r hr => Nat.lt_of_lt_of_le hr hs.len
  refine ⟨hb, Nat.le_trans hs.len (gRel_extends (W := W) hx).len, ?_, ?_⟩
  · intro r hr k v hk
    rw [hx.read (hv r hr)] at hk
    exact hs.held r hr k v hk
  · intro r hr k hk
    exact (gRel_extends (W := W) hx).had r k (hs.had r hr k hk)

theorem read_set_cases (d : Heap) (r r' : Ref) (k v : String) :
    (Attrs.set d r k v).read r' = d.read r' ∨ (r' = r ∧ (Attrs.set d r k v).read r' = (d.read r).set k v) := by
  unfold Attrs.set
  by_cases e : r' = r
  · subst e
    by_cases hv : d.Valid r'
    · exact .inr ⟨rfl, Heap.read_write_self _ _ _ hv⟩
    · left
      have hv' : d.cells.length ≤ r' := Nat.le_of_not_lt hv
      simp only [Heap.read, Heap.write, List.set_eq_of_length_le hv']
  · exact .inl (Heap.read_write_ne _ _ _ _ e)

theorem gInv_set {h : Heap} {W : Ref → String → String → Prop} {s : St} {r : Ref} {k v : String} (hs : GInv h W s)
    (hW : W r k v) : GInv h W ⟨Attrs.set s.heap r k v, s.g⟩ ∧ GRel W s ⟨Attrs.set s.heap r k v, s.g⟩ := by
  have hlen : (Attrs.set s.heap r k v).cells.length = s.heap.cells.length := by
    simp [Attrs.set, Heap.write]
  have hadd : ∀ r' x, Had s.heap r' x → Had (Attrs.set s.heap r k v) r' x := by
    intro r' x hx
    rcases read_set_cases s.heap r r' k v with e | ⟨rfl, e⟩
    · unfold Had; rw [e]; exact hx
    · unfold Had
      rw [e, GoMap.get?_set]
      split
      · exact fun e => nomatch e
      · exact hx
  refine ⟨⟨hs.b, by rw [hlen]; exact hs.len, ?_, fun r' hr' x hx => hadd r' x (hs.had r' hr' x hx)⟩,
    Nat.le_of_eq hlen.symm, hadd, ?_, ?_⟩
  · intro r' hr' x y hxy
    rcases read_set_cases s.heap r r' k v with e | ⟨rfl, e⟩
    · rw [e] at hxy; exact hs.held r' hr' x y hxy
    · rw [e, GoMap.get?_set] at hxy
      split at hxy
      · next e2 => cases hxy; subst e2; exact .inr hW
      · exact hs.held _ hr' x y hxy
  · intro r' x _ hx
    rcases read_set_cases s.heap r r' k v with e | ⟨rfl, e⟩
    · unfold Had at hx; rw [e] at hx; exact .inl hx
    · unfold Had at hx
      rw [e, GoMap.get?_set] at hx
      split at hx
      · next e2 => subst e2; exact .inr ⟨v, hW⟩
      · exact .inl hx
  · intro r' _ hf
    rcases read_set_cases s.heap r r' k v with e | ⟨rfl, e⟩
    · exact e
    · exact absurd hW (hf k v)

theorem size_le_of_had {m m' : AttrMap} (h : ∀ k, m.get? k ≠ none → m'.get? k ≠ none) : m.size ≤ m'.size := by
  have hsub : m.keys ⊆ m'.keys := by
    intro x hx
    obtain ⟨y, hy⟩ := (GoMap.mem_keys m x).mp hx
    have := h x (by rw [hy]; exact fun e => nomatch e)
    rw [GoMap.mem_keys]
    cases e : m'.get? x with
    | none => exact absurd e this
    | some w => exact ⟨w, rfl⟩
  have := Netscrape.Gonum.length_le_of_nodup_subset _ _ m.keys_nodup hsub
  simpa [GoMap.keys, GoMap.size] using this

/-! ## Copying -/

/-- From one moment to a later one. -/
abbrev Lat (W : Ref → String → String → Prop) (m m' : Moment St) : Prop := m.Later (GRel W) m'

/-- The call does its part and returns something in `Q`. -/
abbrev Does (h : Heap) (W : Ref → String → String → Prop) (Q : Out → Moment St → Prop) (p : AProg Out)
    (m : Moment St) : Prop := RGM (GInv h W) (GRel W) Q p m

section
variable {h : Heap} {W : Ref → String → String → Prop} {Q : Out → Moment St → Prop}

theorem Lat.refl (m : Moment St) : Lat W m m := ⟨.refl _, fun _ h => h⟩

theorem Lat.trans {m m' m'' : Moment St} (h1 : Lat W m m') (h2 : Lat W m' m'') : Lat W m m'' :=
  ⟨h1.rel.trans h2.rel, fun x hx => h2.past x (h1.past x hx)⟩

/-- A key is set that was not there, or the set did not exist. -/
def Adds (W : Ref → String → String → Prop) (s : St) (r : Ref) : Prop :=
  ¬ s.heap.Valid r ∨ ∃ k v, W r k v ∧ ¬ Had s.heap r k

theorem Adds.back {s s' : St} {r : Ref} (hr : GRel W s s') (ha : Adds W s' r) : Adds W s r := by
  rcases ha with ha | ⟨k, v, h1, h2⟩
  · exact .inl fun hv => ha (hr.valid hv)
  · exact .inr ⟨k, v, h1, fun hh => h2 (hr.had r k hh)⟩

theorem rgm_getEach (r : Ref) (k : List (String × String) → AProg Out) (bad : AProg Out) (ks : List String) :
    ∀ (acc : List (String × String)) (m : Moment St), GInv h W m.st → (∀ x, x ∈ ks → Had m.st.heap r x) →
      (∀ m' l, Lat W m m' → GInv h W m'.st → l.map Prod.fst = ks →
        (h.Valid r → ∀ x v, (x, v) ∈ l → Held h W r x v) → Does h W Q (k (acc ++ l)) m') →
      Does h W Q (ofAttrs (Attrs.getEach r ks acc) fun | .pairs l => k l | _ => bad) m := by
  induction ks with
  | nil =>
    intro acc m hi _ hQ
    have := hQ m [] (.refl _) hi rfl (fun _ _ _ hm => nomatch hm)
    rw [List.append_nil] at this
    exact this
  | cons x ks ih =>
    intro acc m _ hd hQ s hds hs _
    refine ih _ s hs (fun y hy => hds.rel.had r y (hd y (List.mem_cons_of_mem _ hy))) ?_
    intro s' l h1 h2 h3 h4
    rw [List.append_assoc]
    refine hQ s' _ (Lat.trans hds h1) h2 (by simp [h3]) ?_
    intro hv y v hm
    rcases List.mem_append.mp hm with hm | hm
    · rw [List.mem_singleton] at hm
      cases hm
      have hx : Had s.st.heap r x := hds.rel.had r x (hd x List.mem_cons_self)
      unfold Had at hx
      cases e : (s.st.heap.read r).get? x with
      | none => exact absurd e hx
      | some w =>
        simp only [Attrs.get, e, Option.getD_some]
        exact hs.held r hv x w e
    · exact h4 hv y v hm

/-- A copy started in `m`: it has the set's attributes, or it panics because a key was added. -/
theorem rgm_copyThen (o : Order (String × String)) (r : Ref) {bad : AProg Out}
    {k : List (String × String) → AProg Out} (m : Moment St)
    (hbad : ∀ m', Lat W m m' → GInv h W m'.st → Adds W m.st r → Does h W Q bad m')
    (hk : ∀ m' l, Lat W m m' → GInv h W m'.st → (h.Valid r → Listed h W r l) → Does h W Q (k l) m') :
    Does h W Q (copyThen o r bad k) m := by
  intro s hs0 hs _ s' hss' hs' _
  show RGM _ _ _ (ofAttrs (if (s.st.heap.read r).size < (s'.st.heap.read r).size then _ else _) _) s'
  split
  · next hlt =>
    refine hbad s' (Lat.trans hs0 hss') hs' (Adds.back hs0.rel ?_)
    by_cases hv : s.st.heap.Valid r
    · refine .inr (Classical.byContradiction fun hno => ?_)
      refine Nat.not_lt_of_le (size_le_of_had ?_) hlt
      intro x hx
      rcases hss'.rel.new r x hv hx with h1 | ⟨v, h1⟩
      · exact h1
      · exact Classical.byContradiction fun hh => hno ⟨x, v, h1, hh⟩
    · exact .inl hv
  · have hle : (s.st.heap.read r).size ≤ (s'.st.heap.read r).size := size_le_of_had (hss'.rel.had r)
    rw [Nat.sub_eq_zero_of_le hle, List.replicate_zero, List.append_nil]
    refine rgm_getEach r k bad _ [] s' hs' ?_ ?_
    · intro x hx
      obtain ⟨v, hv⟩ := (Attrs.mem_keys _ _ _ _).mp hx
      unfold Had
      rw [hv]; exact fun e => nomatch e
    · intro s'' l h1 h2 h3 h4
      rw [List.nil_append]
      refine hk s'' l (Lat.trans hs0 (Lat.trans hss' h1)) h2 fun hv => ⟨?_, h4 hv, ?_⟩
      · rw [h3]; exact Attrs.keys_nodup _ _ _
      · intro x hx
        have := hs'.had r hv x hx
        have : x ∈ l.map Prod.fst := by
          rw [h3, Attrs.mem_keys]
          unfold Had at this
          cases e : (s'.st.heap.read r).get? x with
          | none => exact absurd e this
          | some w => exact ⟨w, rfl⟩
        obtain ⟨⟨y, v⟩, hy, rfl⟩ := List.mem_map.mp this
        exact ⟨v, hy⟩

end

theorem get_ofPairs {l : List (String × String)} (hn : (l.map Prod.fst).Nodup) (k v : String) :
    (ofPairs l).get? k = some v ↔ (k, v) ∈ l := by
  have key : ∀ (l : List (String × String)) (m : AttrMap), (l.map Prod.fst).Nodup →
      ((l.foldl (fun acc e => acc.set e.1 e.2) m).get? k = some v ↔
        (k, v) ∈ l ∨ (k ∉ l.map Prod.fst ∧ m.get? k = some v)) := by
    intro l
    induction l with
    | nil => intro m _; simp
    | cons e l ih =>
      intro m hn
      obtain ⟨a, b⟩ := e
      simp only [List.map_cons, List.nodup_cons] at hn
      rw [List.foldl_cons, ih _ hn.2, GoMap.get?_set]
      by_cases hk : k = a
      · subst hk
        have : (k, v) ∉ l := fun hm => hn.1 (List.mem_map.mpr ⟨_, hm, rfl⟩)
        simp [this, hn.1, eq_comm]
      · simp [hk]
  rw [ofPairs, key l _ hn]
  simp [GoMap.empty, GoMap.get?]

theorem listed_copied {h : Heap} {W : Ref → String → String → Prop} {r : Ref} {l : List (String × String)}
    (hl : Listed h W r l) : Copied h W r (ofPairs l) := by
  constructor
  · intro k v hk
    exact hl.held k v ((get_ofPairs hl.once k v).mp hk)
  · intro k hk
    obtain ⟨v, hv⟩ := hl.all k hk
    rw [(get_ofPairs hl.once k v).mpr hv]
    exact fun e => nomatch e

/-! ## Methods that do not look into attribute sets -/

/-- Every write keeps the gonum graph sane and at most adds attribute sets. -/
def Steps {ρ : Type} : GProg Unit ρ → Prop
  | .ret _ => True
  | .lock _ p => Steps p
  | .acquire _ p => Steps p
  | .unlock _ p => Steps p
  | .rlock _ p => Steps p
  | .runlock _ p => Steps p
  | .read _ p => ∀ s, Steps (p s)
  | .write _ f p => ∀ s, (Gonum.Inv s.g.b → Gonum.Inv (f s).g.b) ∧ (f s).heap.Extends s.heap ∧ Steps (p s)

theorem Steps.bind {α β : Type} {p : GProg Unit α} {k : α → GProg Unit β} (hp : Steps p) (hk : ∀ a, Steps (k a)) :
    Steps (p.bind k) := by
  induction p with
  | ret a => exact hk a
  | lock m p ih => exact ih hp
  | acquire m p ih => exact ih hp
  | unlock m p ih => exact ih hp
  | rlock m p ih => exact ih hp
  | runlock m p ih => exact ih hp
  | read l p ih => exact fun s => ih s (hp s)
  | write l f p ih => exact fun s => ⟨(hp s).1, (hp s).2.1, ih s (hp s).2.2⟩

theorem Steps.excl {α : Type} {p : GProg Unit α} (hp : Steps p) : Steps (.excl () p) :=
  Steps.bind (p := p) (k := fun r => .unlock () (.ret r)) hp fun _ => trivial

theorem Steps.shared {α : Type} {p : GProg Unit α} (hp : Steps p) : Steps (.shared () p) :=
  Steps.bind (p := p) (k := fun r => .runlock () (.ret r)) hp fun _ => trivial

theorem rgm_ofGraph {h : Heap} {W : Ref → String → String → Prop} {Q : Out → Moment St → Prop} {ρ : Type}
    {p : GProg Unit ρ} {k : ρ → AProg Out} (hp : Steps p) (hk : ∀ r m, GInv h W m.st → Does h W Q (k r) m) :
    ∀ m : Moment St, GInv h W m.st → Does h W Q (ofGraph p k) m := by
  induction p with
  | ret a => exact fun m hs => hk a m hs
  | lock m p ih => exact ih hp
  | acquire m p ih => exact ih hp
  | unlock m p ih => exact ih hp
  | rlock m p ih => exact ih hp
  | runlock m p ih => exact ih hp
  | read l p ih => exact fun _ _ s _ hs _ => ih s.st (hp s.st) s hs
  | write l f p ih =>
    intro _ _ s _ hs _
    obtain ⟨h1, h2, h3⟩ := hp s.st
    have hi := gInv_extends hs h2 (h1 hs.b)
    exact ⟨hi, gRel_extends h2, ih s.st h3 ⟨f s.st, s.past⟩ hi⟩

theorem attrsOrNew_extends (h : Heap) (a : Option Ref) : (attrsOrNew h a).2.Extends h := by
  unfold attrsOrNew
  split
  · exact .refl _
  · exact .alloc _ _

theorem mkNode_extends (h : Heap) (id : Int) (e : Ent) (opts : List Opt) : (mkNode h id e opts).2.Extends h :=
  attrsOrNew_extends _ _

theorem mkEdge_extends (h : Heap) (fresh : Uid) (a : Nat) (f t : Node) (opts : List Opt) :
    (mkEdge h fresh a f t opts).2.Extends h :=
  attrsOrNew_extends _ _

theorem steps_edgeP (u v : Uid) : Steps (edgeP () u v) := by
  refine Steps.shared ?_
  intro s
  dsimp only
  split
  · trivial
  · intro s
    dsimp only
    split
    · trivial
    · intro s
      dsimp only
      split <;> trivial

theorem steps_linkApplyP (fresh : Uid) (a : Nat) (f t : Node) (opts : List Opt) :
    Steps (linkApplyP () fresh a f t opts) := by
  refine Steps.excl ?_
  intro s
  refine ⟨fun h => h, mkEdge_extends s.heap fresh a f t opts, fun s' => ⟨?_, ?_, ?_⟩⟩
  · intro hb
    dsimp only
    split
    · exact hb
    · next hb' => exact Gonum.setWeightedEdge_inv hb hb'
  · dsimp only
    split <;> exact .refl _
  · dsimp only
    split <;> trivial

theorem steps_addNodeP (n : Node) (opts : List Opt) : Steps (addNodeP () n opts) := by
  refine Steps.excl ?_
  intro s
  dsimp only
  split
  · intro s
    dsimp only
    split
    · split
      · trivial
      · exact fun s => ⟨fun h => h, .refl _, fun s => ⟨fun h => h, .refl _, trivial⟩⟩
    · exact fun s => ⟨fun h => h, .refl _, trivial⟩
  · intro s
    refine ⟨?_, ?_, ?_⟩
    · intro hb
      dsimp only
      split
      · exact hb
      · next hb' => exact Gonum.addNode_inv hb hb'
    · dsimp only
      split <;> exact .refl _
    · dsimp only
      split
      · trivial
      · exact fun s => ⟨fun h => h, .refl _, trivial⟩

theorem steps_newNodeP (o : Order (Int × Unit)) (e : Ent) (opts : List Opt) : Steps (newNodeP () o e opts) := by
  intro s
  dsimp only
  split
  · trivial
  · next id _ =>
    intro s
    refine ⟨fun h => h, mkNode_extends s.heap id e opts, fun s => ?_⟩
    dsimp only
    split <;> trivial

theorem steps_removeNodeP (u : Uid) : Steps (removeNodeP () u) := by
  intro s
  dsimp only
  split
  · trivial
  · exact fun s => ⟨fun h => Gonum.removeNode_inv h _, .refl _, fun s => ⟨fun h => h, .refl _, trivial⟩⟩

theorem steps_unlinkP (f t : Uid) : Steps (unlinkP () f t) := by
  intro s
  dsimp only
  split
  · trivial
  · intro s
    dsimp only
    split
    · trivial
    · exact fun s => ⟨fun h => Gonum.removeEdge_inv h _ _, .refl _, trivial⟩

theorem steps_linkP (fresh : Uid) (a : Nat) (f t : Uid) (opts : List Opt) : Steps (linkP () fresh a f t opts) := by
  refine Steps.bind (p := edgeP () f t) (steps_edgeP f t) fun r => ?_
  split
  · trivial
  · intro s
    dsimp only
    split
    · trivial
    · intro s
      dsimp only
      split
      · trivial
      · exact steps_linkApplyP _ _ _ _ _
  · trivial
  · trivial

/-- The methods that do not look into attribute sets. -/
theorem steps_prog (op : COp) (hl : ¬ Looks (.graph op)) : Steps (Graph.prog () op) := by
  cases op with
  | newNode o e opts => exact (steps_newNodeP o e opts).bind fun _ => trivial
  | addNode n opts => exact (steps_addNodeP n opts).bind fun _ => trivial
  | addForeign => trivial
  | node u =>
    refine Steps.bind (p := nodeP () u) (Steps.shared ?_) fun _ => trivial
    intro s
    dsimp only
    split <;> trivial
  | nodes o => exact fun _ => trivial
  | removeNode u => exact (steps_removeNodeP u).bind fun _ => trivial
  | link fresh a f t opts => exact (steps_linkP fresh a f t opts).bind fun _ => trivial
  | edge u v => exact (steps_edgeP u v).bind fun _ => trivial
  | edges o => exact fun _ => trivial
  | from' o u =>
    refine Steps.bind (p := fromP () o u) ?_ fun _ => trivial
    intro s
    dsimp only
    split
    · trivial
    · exact fun _ => trivial
  | unlink f t => exact (steps_unlinkP f t).bind fun _ => trivial
  | subGraph => exact absurd trivial hl
  | dot => exact absurd trivial hl

end Netscrape.GraphAttrs
