import Verif.Lemmas.GraphAttrsCalls
import Verif.Lemmas.GraphConc
import Verif.Lemmas.GraphEx
import Verif.Lemmas.NotLin
import Verif.Lemmas.Progress

/-!
# C100: a graph and its attributes used at once
-/

namespace Netscrape.Props
open Netscrape Netscrape.Conc Netscrape.Graph Netscrape.GraphAttrs Netscrape.Spec Netscrape.Spec.GraphAttrs
open Netscrape.Spec.AttrsConc (Held Had about)
open Netscrape.Spec.Graph (Any ShowsAttrs)
open Netscrape.Gonum (Builder Bfs)

/-! ## Examples -/

/-- Calls that make the nodes a and b, linked with weight 7. -/
def gaOps : List Graph.Op :=
  [.addNode { exNode 0 "a" with attrs := 1 } [], .addNode { exNode 1 "b" with attrs := 1 } [],
   .link ⟨100, "e1"⟩ 200 uA uB [.withWeight 7, .withAttrs (some 0)]]

/-- The edge has the attributes x and y, the nodes have none. -/
def gaSt : St := Graph.run ⟨⟨[(GoMap.empty.set "x" "0").set "y" "0", GoMap.empty]⟩, new true ⟨0, "graph"⟩ []⟩ gaOps

theorem gaSt_reach : Graph.Reach Any true gaSt := reach_run_any gaOps (.init _ _ _)

def gaOra : SubOracle :=
  ⟨⟨900, "sub"⟩, fun _ => Order.id, Order.id, fun _ => Order.id, fun _ _ => ⟨Order.id, Order.id, fun _ => Order.id⟩,
    fun _ => Order.rev, fun k => ⟨1000 + k, "e"⟩⟩

def gaSub : GraphAttrs.Op := .graph (.subGraph gaOra uA (-1) [])
def gaSet (k v : String) : GraphAttrs.Op := .attrs (.set 0 k v)

/-! ## Races -/

/-- **C100**: goroutines may use a graph while others use the attributes of its nodes and edges, without races on
these. -/
def GraphAttrsRaceStatement : Prop :=
  ∀ (d : Bool) (s : St), Graph.Reach Any d s → ∀ (c : ACfg), Conc.Reach prog (fun _ => True) s c →
    ∀ r, ¬ Race c (.attrs r)

/-- **C100 is violated**: `SubGraph` reads the attributes of an edge without any lock. -/
theorem c100_race_violated : ¬ GraphAttrsRaceStatement := by
  intro hst
  have hrun : (exec prog (.init gaSt) (.call 1 (gaSet "x" "1") :: .call 0 gaSub :: List.replicate 10 (.tau 0))).map
      (fun c => ((c.calls 1).map access, (c.calls 0).map access)) =
      some (some (some (.attrs 0, true)), some (some (.attrs 0, false))) := by decide +kernel
  obtain ⟨c, hc, he⟩ := Option.map_eq_some_iff.mp hrun
  simp only [Prod.mk.injEq] at he
  obtain ⟨k0, hk0, ha0⟩ := Option.map_eq_some_iff.mp he.1
  obtain ⟨k1, hk1, ha1⟩ := Option.map_eq_some_iff.mp he.2
  exact hst _ _ gaSt_reach c (reach_exec _ .init (fun _ _ _ _ _ => trivial) hc) 0
    ⟨1, 0, k0, k1, false, by decide, hk0, hk1, ha0, ha1⟩

/-- So does `DOT`, as the read lock of the graph does not protect attributes. -/
example : (exec prog (.init gaSt) (.call 1 (gaSet "x" "1") :: .call 0 (.dot .id) :: List.replicate 6 (.tau 0))).map
    (fun c => ((c.calls 1).map access, (c.calls 0).map access)) =
    some (some (some (.attrs 0, true)), some (some (.attrs 0, false))) := by decide +kernel

/-- What a call may access: `Looks` calls read attribute sets, attribute calls access theirs, and only `Set` writes
it; other calls do not access attribute sets. -/
def May (op : GraphAttrs.Op) : GraphAttrs.Loc → Bool → Prop
  | .graph _, _ => ∀ a, op ≠ .attrs a
  | .attrs r, w => (Looks op ∧ w = false) ∨
      ∃ a, op = .attrs a ∧ about a = r ∧ (w = true → ∃ k v, a = .set r k v)

/-- All accesses of the program are in `P`. -/
def Accesses (P : GraphAttrs.Loc → Bool → Prop) : AProg GraphAttrs.Out → Prop
  | .ret _ => True
  | .lock _ p => Accesses P p
  | .acquire _ p => Accesses P p
  | .unlock _ p => Accesses P p
  | .rlock _ p => Accesses P p
  | .runlock _ p => Accesses P p
  | .read l p => P l false ∧ ∀ s, Accesses P (p s)
  | .write l _ p => P l true ∧ ∀ s, Accesses P (p s)

theorem accesses_ofGraph {P : GraphAttrs.Loc → Bool → Prop} (hP : ∀ l w, P (.graph l) w) {ρ : Type}
    (p : GProg Unit ρ) {k : ρ → AProg GraphAttrs.Out} (hk : ∀ r, Accesses P (k r)) : Accesses P (ofGraph p k) := by
  induction p with
  | ret a => exact hk a
  | lock m p ih => exact ih
  | acquire m p ih => exact ih
  | unlock m p ih => exact ih
  | rlock m p ih => exact ih
  | runlock m p ih => exact ih
  | read l p ih => exact ⟨hP l _, ih⟩
  | write l f p ih => exact ⟨hP l _, ih⟩

theorem accesses_getEach {P : GraphAttrs.Loc → Bool → Prop} (r : Ref) (hr : P (.attrs r) false)
    {f : Attrs.COut → AProg GraphAttrs.Out} (hf : ∀ out, Accesses P (f out)) (ks : List String) :
    ∀ acc, Accesses P (ofAttrs (Attrs.getEach r ks acc) f) := by
  induction ks with
  | nil => exact fun _ => hf _
  | cons k ks ih => exact fun acc => ⟨hr, fun s => ih _⟩

theorem accesses_keysThen {P : GraphAttrs.Loc → Bool → Prop} (o : Order (String × String)) (r : Ref)
    (hr : P (.attrs r) false) {k : List String → Attrs.CProg} {f : Attrs.COut → AProg GraphAttrs.Out}
    (hf : ∀ out, Accesses P (f out)) (hk : ∀ l, Accesses P (ofAttrs (k l) f)) :
    Accesses P (ofAttrs (Attrs.keysThen o r k) f) := by
  refine ⟨hr, fun s => ⟨hr, fun s' => ?_⟩⟩
  show Accesses P (ofAttrs (if _ then _ else _) f)
  split
  · exact hf _
  · exact hk _

theorem accesses_copyThen {P : GraphAttrs.Loc → Bool → Prop} (o : Order (String × String)) (r : Ref)
    (hr : P (.attrs r) false) {bad : AProg GraphAttrs.Out} {k : List (String × String) → AProg GraphAttrs.Out} (hb : Accesses P bad)
    (hk : ∀ l, Accesses P (k l)) : Accesses P (copyThen o r bad k) := by
  have hf : ∀ out : Attrs.COut, Accesses P (match out with | .pairs l => k l | _ => bad) := by
    intro out
    split
    · exact hk _
    · exact hb
  exact accesses_keysThen o r hr hf fun l => accesses_getEach r hr hf l []

theorem accesses_linkAllA {P : GraphAttrs.Loc → Bool → Prop} (hg : ∀ l w, P (.graph l) w)
    (hr : ∀ r, P (.attrs r) false) (ora : SubOracle) (x y : Uid) {k : WG → AProg GraphAttrs.Out}
    (hk : ∀ sg, Accesses P (k sg)) (es : List Edge) : ∀ sg, Accesses P (linkAllA ora x y es sg k) := by
  induction es with
  | nil => exact hk
  | cons e es ih =>
    intro sg
    refine ⟨hg _ _, fun s => accesses_copyThen _ _ (hr _) trivial fun l => ⟨hg _ _, fun s => ?_⟩⟩
    dsimp only
    split
    · exact ih _
    · trivial
    · trivial

theorem accesses_linkPeersA {P : GraphAttrs.Loc → Bool → Prop} (hg : ∀ l w, P (.graph l) w)
    (hr : ∀ r, P (.attrs r) false) (ora : SubOracle) (sgNodes : GoMap Int Node) (id : Int) (x : Node)
    {k : WG → AProg GraphAttrs.Out} (hk : ∀ sg, Accesses P (k sg)) (ps : List Node) :
    ∀ sg, Accesses P (linkPeersA ora sgNodes id x ps sg k) := by
  induction ps with
  | nil => exact hk
  | cons p ps ih =>
    intro sg
    unfold linkPeersA
    split
    · exact ih sg
    · exact ⟨hg _ _, fun s => accesses_linkAllA hg hr ora _ _ ih _ sg⟩

theorem accesses_linkNodesA {P : GraphAttrs.Loc → Bool → Prop} (hg : ∀ l w, P (.graph l) w)
    (hr : ∀ r, P (.attrs r) false) (ora : SubOracle) (sgNodes : GoMap Int Node) (l : List (Int × Node)) :
    ∀ sg, Accesses P (linkNodesA ora sgNodes l sg) := by
  induction l with
  | nil => exact fun _ => trivial
  | cons a l ih => exact fun sg => ⟨hg _ _, fun s => accesses_linkPeersA hg hr ora sgNodes a.1 a.2 ih _ sg⟩

theorem accesses_subGraphA {P : GraphAttrs.Loc → Bool → Prop} (hg : ∀ l w, P (.graph l) w)
    (hr : ∀ r, P (.attrs r) false) (ora : SubOracle) (u : Uid) (d : Int) (opts : List Opt) :
    Accesses P (subGraphA ora u d opts) := by
  refine ⟨hg _ _, fun s => ?_⟩
  dsimp only
  split
  · trivial
  · refine ⟨hg _ _, fun s => ?_⟩
    dsimp only [Accesses]
    split
    · trivial
    · split
      · trivial
      · exact accesses_linkNodesA hg hr ora _ _ _

theorem accesses_nodeStmts {P : GraphAttrs.Loc → Bool → Prop} (hr : ∀ r, P (.attrs r) false) (o : DotOrder)
    {bad : AProg GraphAttrs.Out} (hb : Accesses P bad) {k : List (String × DotAttrs) → AProg GraphAttrs.Out} (hk : ∀ l, Accesses P (k l))
    (ns : List Node) : ∀ acc, Accesses P (nodeStmts o bad ns acc k) := by
  induction ns with
  | nil => exact hk
  | cons n ns ih => exact fun acc => accesses_copyThen _ _ (hr _) hb fun l => ih _

theorem accesses_edgeStmts {P : GraphAttrs.Loc → Bool → Prop} (hr : ∀ r, P (.attrs r) false) (o : DotOrder)
    {bad : AProg GraphAttrs.Out} (hb : Accesses P bad) (b : Builder) {k : List ((String × String) × DotAttrs) → AProg GraphAttrs.Out}
    (hk : ∀ l, Accesses P (k l)) (ps : List (Node × Node)) : ∀ acc, Accesses P (edgeStmts o bad b ps acc k) := by
  induction ps with
  | nil => exact hk
  | cons p ps ih =>
    intro acc
    unfold edgeStmts
    split
    · exact ih _
    · exact accesses_copyThen _ _ (hr _) hb fun l => ih _

theorem accesses_dotA {P : GraphAttrs.Loc → Bool → Prop} (hg : ∀ l w, P (.graph l) w)
    (hr : ∀ r, P (.attrs r) false) (o : DotOrder) : Accesses P (dotA o) := by
  refine ⟨hg _ _, fun s => ?_⟩
  refine accesses_nodeStmts hr o ?_ ?_ _ _
  · trivial
  · intro ns
    refine accesses_edgeStmts hr o ?_ _ ?_ _ _
    · trivial
    · exact fun _ => trivial

theorem accesses_prog (op : GraphAttrs.Op) : Accesses (May op) (prog op) := by
  cases op with
  | dot o => exact accesses_dotA (fun _ _ => nofun) (fun _ => .inl ⟨trivial, rfl⟩) o
  | attrs a =>
    have hr : May (.attrs a) (.attrs (about a)) false := .inr ⟨a, rfl, rfl, nofun⟩
    cases a with
    | get r k => exact ⟨hr, fun _ => trivial⟩
    | set r k v => exact ⟨.inr ⟨_, rfl, rfl, fun _ => ⟨k, v, rfl⟩⟩, fun _ => trivial⟩
    | keys o r => exact accesses_keysThen o r hr (k := fun l => .ret (.keys l)) (fun _ => trivial) fun _ => trivial
    | copy o r =>
      refine accesses_keysThen o r hr (k := fun l => Attrs.getEach r l []) (f := fun r => .ret (.attrs r))
        (fun _ => trivial) fun l => ?_
      exact accesses_getEach r hr (f := fun r => .ret (.attrs r)) (fun _ => trivial) l []
  | graph op =>
    have hg : ∀ (op : COp) (l : Graph.Loc) (w : Bool), May (.graph op) (.graph l) w := fun _ _ _ => nofun
    cases op with
    | subGraph ora u d opts => exact accesses_subGraphA (hg (.subGraph ora u d opts)) (fun _ => .inl ⟨trivial, rfl⟩) ora u d opts
    | dot => exact accesses_dotA (hg .dot) (fun _ => .inl ⟨trivial, rfl⟩) .id
    | _ => exact accesses_ofGraph (hg _) _ fun _ => trivial

theorem accesses_call {allowed : GraphAttrs.Op → Prop} {s : St} {c : ACfg} (hr : Conc.Reach prog allowed s c) :
    ∀ t k, c.calls t = some k → Accesses (May k.op) k.prog := by
  refine callInv (I := fun k => Accesses (May k.op) k.prog) (fun _ op _ => accesses_prog op) ?_ hr
  intro c k k' mus d hI hm
  unfold micro at hm
  cases hp : k.prog with
  | ret => simp only [hp, reduceCtorEq] at hm
  | read l q =>
    rw [hp] at hI
    simp only [hp, Option.some.injEq, Prod.mk.injEq] at hm
    obtain ⟨rfl, _, _⟩ := hm
    exact hI.2 _
  | write l f q =>
    rw [hp] at hI
    simp only [hp, Option.some.injEq, Prod.mk.injEq] at hm
    obtain ⟨rfl, _, _⟩ := hm
    exact hI.2 _
  | lock _ q | acquire _ q | unlock _ q | rlock _ q | runlock _ q =>
    rw [hp] at hI
    simp only [hp] at hm
    split at hm
    · simp only [Option.some.injEq, Prod.mk.injEq] at hm
      obtain ⟨rfl, _, _⟩ := hm
      exact hI
    · cases hm

/-- **C100, what holds**: every race on an attribute set has a `Set` on this very set on one side; the other side is
an attribute call about it, `SubGraph` or `DOT`. No other method of the graph ever takes part in one: nodes and
edges may be added, removed, linked and listed while their attributes are set. -/
theorem c100_races_partial {s : St} {c : ACfg} (hr : Conc.Reach prog (fun _ => True) s c) {r : Ref} {t t' : Nat}
    {k k' : Call Unit GraphAttrs.Loc St GraphAttrs.Op GraphAttrs.Out} {w : Bool} (hk : c.calls t = some k)
    (hk' : c.calls t' = some k') (ha : access k = some (.attrs r, true)) (ha' : access k' = some (.attrs r, w)) :
    (∃ x v, k.op = .attrs (.set r x v)) ∧ (Looks k'.op ∨ ∃ a, k'.op = .attrs a ∧ about a = r) := by
  have loc : ∀ (k : Call Unit GraphAttrs.Loc St GraphAttrs.Op GraphAttrs.Out) (l : GraphAttrs.Loc) (w : Bool),
      Accesses (May k.op) k.prog → access k = some (l, w) → May k.op l w := by
    intro k l w hI hacc
    unfold access at hacc
    cases hp : k.prog with
    | read l' q =>
      rw [hp] at hI
      simp only [hp, Option.some.injEq, Prod.mk.injEq] at hacc
      obtain ⟨rfl, rfl⟩ := hacc
      exact hI.1
    | write l' f q =>
      rw [hp] at hI
      simp only [hp, Option.some.injEq, Prod.mk.injEq] at hacc
      obtain ⟨rfl, rfl⟩ := hacc
      exact hI.1
    | _ => simp only [hp, reduceCtorEq] at hacc
  constructor
  · rcases loc k _ _ (accesses_call hr t k hk) ha with h1 | ⟨a, h1, _, h2⟩
    · cases h1.2
    · obtain ⟨x, v, h3⟩ := h2 rfl
      exact ⟨x, v, by rw [h1, h3]⟩
  · rcases loc k' _ _ (accesses_call hr t' k' hk') ha' with h1 | ⟨a, h1, h2, _⟩
    · exact .inl h1.1
    · exact .inr ⟨a, h1, h2⟩

/-- Non-vacuity: a `SubGraph` and a copy in progress that read the edge's attributes, a `Set` about to write the
nodes', and a `RemoveNode` past its first step. -/
example : (exec prog (.init gaSt) (.call 0 gaSub :: List.replicate 10 (.tau 0) ++
    [.call 1 (.attrs (.copy Order.id 0)), .call 2 (.attrs (.set 1 "z" "1")), .call 3 (.graph (.removeNode uB)),
     .tau 3])).map
    (fun c => [0, 1, 2, 3].map fun t => (c.calls t).bind access) =
    some [some (.attrs 0, false), some (.attrs 0, false), some (.attrs 1, true), some (.graph .nodes, false)] := by
  decide +kernel

/-! ## Panics -/

/-- **C100**: setting attributes makes no method of the graph panic. -/
def GraphAttrsPanicStatement : Prop :=
  ∀ (d : Bool) (s : St), Graph.Reach Any d s → ∀ (c : ACfg), Conc.Reach prog (fun _ => True) s c →
    ∀ i t, Ev.res i t GraphAttrs.Out.index ∉ c.hist

/-- **C100 is violated**: `SubGraph` panics in `Keys` if an attribute is added to an edge while it copies it. -/
theorem c100_panic_violated : ¬ GraphAttrsPanicStatement := by
  intro hst
  have hrun : (exec prog (.init gaSt) (.call 0 gaSub :: List.replicate 11 (.tau 0) ++
      [.call 1 (gaSet "z" "1"), .tau 1, .tau 0, .ret 0])).map
      (fun c => match outOf 0 c.hist with | some .index => true | _ => false) = some true := by decide +kernel
  obtain ⟨c, hc, he⟩ := Option.map_eq_some_iff.mp hrun
  have ho : outOf 0 c.hist = some .index := by
    revert he
    cases outOf 0 c.hist with
    | none => exact nofun
    | some o => cases o <;> first | exact fun _ => rfl | exact nofun
  obtain ⟨t, ht⟩ := outOf_mem ho
  exact hst _ _ gaSt_reach c (reach_exec _ .init (fun _ _ _ _ _ => trivial) hc) 0 t ht

theorem run_rgm {d : Bool} {s : St} (hs : Graph.Reach Any d s) {W : Ref → String → String → Prop}
    {as : List (Act GraphAttrs.Op)} {c : ACfg} (has : ∀ t op, Act.call t op ∈ as → Allowed W op)
    (he : exec prog (.init s) as = some c) {i t : Nat} {out : GraphAttrs.Out} (hres : Ev.res i t out ∈ c.hist) :
    ∃ op, Ev.inv i t op ∈ c.hist ∧ ∃ P, (∀ x, P x → While s as i x) ∧ Post s.heap W op out ⟨c.data, P⟩ := by
  obtain ⟨l, hl, hpre⟩ := trace_exec as has he
  obtain ⟨op, h1, P, h2, h3⟩ := (gRGM (gonumInv_reach hs).1 hl).res i t out hres
  refine ⟨op, h1, P, fun x hx => ?_, h3⟩
  obtain ⟨c₁, hc, hd, t', k, hk, hid⟩ := h2 x hx
  obtain ⟨n, hn⟩ := hpre c₁ hc
  exact ⟨n, c₁, t', k, hn, hd, hk, hid⟩

/-- **C100, what holds**: only `SubGraph` and `DOT` can panic in `Keys`, and only if, while they are in progress, the
graph has a node or edge to whose attributes somebody adds a key that it does not have (or whose attribute set does not
exist). In particular changing the values of existing keys makes nothing panic. -/
theorem c100_keys_partial {d : Bool} {s : St} (hs : Graph.Reach Any d s) {W : Ref → String → String → Prop}
    {as : List (Act GraphAttrs.Op)} {c : ACfg} (has : ∀ t op, Act.call t op ∈ as → Allowed W op)
    (he : exec prog (.init s) as = some c) {i t : Nat} (hres : Ev.res i t GraphAttrs.Out.index ∈ c.hist) :
    (∃ op, Ev.inv i t op ∈ c.hist ∧ Looks op) ∧
    ∃ s₁ r, While s as i s₁ ∧ Uses s₁.g r ∧
      (¬ s₁.heap.Valid r ∨ ∃ k v, W r k v ∧ ¬ Had s₁.heap r k) := by
  obtain ⟨op, h1, P, h2, h3⟩ := run_rgm hs has he hres
  have key : Looks op ∧ Added W P := by
    unfold Post at h3
    split at h3
    · exact ⟨trivial, h3.1 rfl⟩
    · rcases h3 with h3 | ⟨d, s₁, h3, _⟩
      · exact ⟨trivial, h3.2⟩
      · cases h3
    · rcases h3 with h3 | ⟨d, s₁, h3, _⟩
      · exact ⟨trivial, h3.2⟩
      · cases h3
    · exact h3.elim
  obtain ⟨h4, s₁, r, h5, h6, h7⟩ := key
  exact ⟨⟨op, h1, h4⟩, s₁, r, h2 s₁ h5, h6, h7⟩

/-- Non-vacuity: the run of `c100_panic_violated`; when `SubGraph` had made eleven steps the edge's set existed and had
no key z. -/
example : (exec prog (.init gaSt) (.call 0 gaSub :: List.replicate 11 (.tau 0))).map (fun c =>
    (((c.data.heap.read 0).get? "z").isSome, c.data.heap.cells.length)) = some (false, 2) := by decide +kernel

/-! ## Copies -/

/-- **C100**: each edge of a sub graph has the attributes that the edge between the same nodes had at some moment, if
nobody sets the attributes of the sub graph. -/
def GraphAttrsSnapshotStatement : Prop :=
  ∀ (d : Bool) (s : St), Graph.Reach Any d s → ∀ (as : List (Act GraphAttrs.Op)) (c : ACfg),
    exec prog (.init s) as = some c →
    (∀ t r k v, Act.call t (.attrs (.set r k v)) ∈ as → s.heap.Valid r) →
    ∀ i t sg, Ev.res i t (.graph (.graph (.ok sg))) ∈ c.hist → ∀ u v e', edge sg u v = .ok e' →
    ∃ n c₁ e, exec prog (.init s) (as.take n) = some c₁ ∧ edge c₁.data.g u v = .ok e ∧
      ∀ k, (c.data.heap.read e'.attrs).get? k = (c₁.data.heap.read e.attrs).get? k

/-- `SubGraph` reads x, then x and y are set in this order, then it reads y. -/
def gaTorn : List (Act GraphAttrs.Op) :=
  .call 0 gaSub :: List.replicate 13 (.tau 0) ++
    [.call 1 (gaSet "x" "1"), .tau 1, .ret 1, .call 1 (gaSet "y" "1"), .tau 1, .ret 1, .tau 0, .tau 0, .ret 0]

/-- The attributes x and y of the edge from a to b. -/
def gaXY (h : Heap) (g : WG) : Option (Option String × Option String) :=
  match edge g uA uB with
  | .ok e => some ((h.read e.attrs).get? "x", (h.read e.attrs).get? "y")
  | _ => none

/-- **C100 is violated**: the edge of the sub graph has the old x and the new y, which the edge of the graph never
had. -/
theorem c100_snapshot_violated : ¬ GraphAttrsSnapshotStatement := by
  intro hst
  have hrun : (exec prog (.init gaSt) gaTorn).map (fun c => match outOf 0 c.hist with
      | some (.graph (.graph (.ok sg))) => gaXY c.data.heap sg
      | _ => none) = some (some (some "0", some "1")) := by decide +kernel
  obtain ⟨c, hc, he⟩ := Option.map_eq_some_iff.mp hrun
  cases ho : outOf 0 c.hist with
  | none => rw [ho] at he; cases he
  | some o =>
    rw [ho] at he
    split at he
    · next sg heq =>
      cases heq
      obtain ⟨t, ht⟩ := outOf_mem ho
      cases hed : edge sg uA uB with
      | err x => unfold gaXY at he; rw [hed] at he; cases he
      | panic => unfold gaXY at he; rw [hed] at he; cases he
      | ok e' =>
        have hset : ∀ t r k v, Act.call t (.attrs (.set r k v)) ∈ gaTorn → gaSt.heap.Valid r := by
          intro t r k v hm
          have : r = 0 := by
            have h1 : ∀ a ∈ gaTorn, ∀ t r k v, a = Act.call t (.attrs (.set r k v)) → r = 0 := by
              intro a ha
              unfold gaTorn at ha
              simp only [List.cons_append, List.mem_cons, List.mem_append, List.mem_replicate, List.not_mem_nil,
                or_false] at ha
              rcases ha with rfl | ⟨_, rfl⟩ | rfl | rfl | rfl | rfl | rfl | rfl | rfl | rfl | rfl <;>
                intro t r k v e <;> cases e <;> rfl
            exact h1 _ hm t r k v rfl
          rw [this]
          decide +kernel
        obtain ⟨n, c₁, e, h1, h2, h3⟩ := hst _ _ gaSt_reach gaTorn c hc hset 0 t sg ht uA uB e' hed
        have hx : gaXY c₁.data.heap c₁.data.g = some (some "0", some "1") := by
          unfold gaXY at he ⊢
          rw [hed] at he
          rw [h2]
          dsimp only at he ⊢
          rw [← h3 "x", ← h3 "y"]
          exact he
        have hall : ((List.range 25).all fun n => match exec prog (.init gaSt) (gaTorn.take n) with
            | none => true
            | some c₁ => decide (gaXY c₁.data.heap c₁.data.g ≠ some (some "0", some "1"))) = true := by
          decide +kernel
        have hn : ∃ m, m ∈ List.range 25 ∧ exec prog (.init gaSt) (gaTorn.take m) = some c₁ := by
          by_cases hlt : n < 25
          · exact ⟨n, List.mem_range.mpr hlt, h1⟩
          · refine ⟨24, by decide, ?_⟩
            rw [← h1]
            have hlen : gaTorn.length = 23 := by decide
            rw [List.take_of_length_le (by omega), List.take_of_length_le (by omega)]
        obtain ⟨m, hm, hm'⟩ := hn
        have := List.all_eq_true.mp hall m hm
        rw [hm'] at this
        exact of_decide_eq_true this hx
    · cases he

/-- **C100, what holds**: each edge of a sub graph has the weight of an edge that the graph had while `SubGraph` was in
progress. If that edge's attribute set existed when the run began, and nobody sets attributes of the new edge, the new
edge's attributes are a copy: each value is one the set had in the beginning or that somebody set for this key, and no
key it had in the beginning is missing. If nobody sets attributes of the edge either, the copy is exact. -/
theorem c100_copy_partial {d : Bool} {s : St} (hs : Graph.Reach Any d s) {W : Ref → String → String → Prop}
    {as : List (Act GraphAttrs.Op)} {c : ACfg} (has : ∀ t op, Act.call t op ∈ as → Allowed W op)
    (he : exec prog (.init s) as = some c) {i t : Nat} {sg : WG}
    (hres : Ev.res i t (.graph (.graph (.ok sg))) ∈ c.hist) {u v : Uid} {e' : Edge} (hed : edge sg u v = .ok e') :
    c.data.heap.Valid e'.attrs ∧
    ∃ s₁ x y e, While s as i s₁ ∧ s₁.g.b.weightedEdge x y = some e ∧ e'.weight = e.weight ∧
      (s.heap.Valid e.attrs → (∀ k v, ¬ W e'.attrs k v) →
        Copied s.heap W e.attrs (c.data.heap.read e'.attrs) ∧
        ((∀ k v, ¬ W e.attrs k v) → ∀ k, (c.data.heap.read e'.attrs).get? k = (s.heap.read e.attrs).get? k)) := by
  obtain ⟨op, h1, P, h2, h3⟩ := run_rgm hs has he hres
  have hok : EdgesOK s.heap W sg ⟨c.data, P⟩ := by
    unfold Post at h3
    split at h3
    · exact h3.2.1 sg rfl
    · rcases h3 with h3 | ⟨d, s₁, h3, _⟩
      · cases h3.1
      · cases h3
    · rcases h3 with h3 | ⟨d, s₁, h3, _⟩
      · cases h3.1
      · cases h3
    · exact h3.elim
  have hwe : ∃ p q, sg.b.weightedEdge p q = some e' := by
    unfold edge at hed
    split at hed
    · cases hed
    · split at hed
      · cases hed
      · split at hed
        · next hw => cases hed; exact ⟨_, _, hw⟩
        · cases hed
  obtain ⟨p, q, hw⟩ := hwe
  obtain ⟨h4, s₁, x, y, e, h5, h6, h7, h8⟩ := hok p q e' hw
  refine ⟨h4, s₁, x, y, e, h2 s₁ h5, h6, h7, fun hv hf => ⟨h8 hv hf, fun hfr k => ?_⟩⟩
  have hc := h8 hv hf
  cases hk : (c.data.heap.read e'.attrs).get? k with
  | some v =>
    rcases hc.held k v hk with h9 | h9
    · exact h9.symm
    · exact absurd h9 (hfr k v)
  | none =>
    cases hk' : (s.heap.read e.attrs).get? k with
    | none => rfl
    | some v =>
      refine absurd hk (hc.all k ?_)
      unfold Had
      rw [hk']
      exact nofun

/-- Non-vacuity: the run `gaTorn`; the sets 0 and 1 existed, 2 is the copy. Nobody sets 1 and 2, and x and y of set 0
are only set to 1. -/
example : gaSt.heap.cells.length = 2 ∧ (exec prog (.init gaSt) gaTorn).map (fun c => match outOf 0 c.hist with
    | some (.graph (.graph (.ok sg))) => match edge sg uA uB with
      | .ok e => (e.attrs, e.weight)
      | _ => (9, 0)
    | _ => (9, 0)) = some (2, 7) := by decide +kernel

/-! ## DOT -/

/-- A list of attributes of a set that nobody changes shows exactly these. -/
theorem listed_shows {h : Heap} {W : Ref → String → String → Prop} {r : Ref} {l : List (String × String)}
    (hl : Listed h W r l) (hW : ∀ k v, ¬ W r k v) : ShowsAttrs h r l := by
  have h1 : ∀ k v, (k, v) ∈ l → (h.read r).get? k = some v :=
    fun k v hm => (hl.held k v hm).resolve_right (hW k v)
  refine ⟨hl.once, fun k v => ⟨h1 k v, fun hg => ?_⟩⟩
  obtain ⟨v', hm⟩ := hl.all k (by unfold Had; rw [hg]; exact nofun)
  have := h1 k v' hm
  rw [hg] at this
  cases this
  exact hm

/-- **C100, what holds**: what `DOT` writes is a picture of the graph as it was at one moment while `DOT` was in
progress, except that the values of attributes may be of different moments; attributes that nobody sets are shown
exactly. -/
theorem c100_dot_partial {d : Bool} {s : St} (hs : Graph.Reach Any d s) {W : Ref → String → String → Prop}
    {as : List (Act GraphAttrs.Op)} {c : ACfg} (has : ∀ t op, Act.call t op ∈ as → Allowed W op)
    (he : exec prog (.init s) as = some c) {i t : Nat} {doc : Doc} (hres : Ev.res i t (.doc doc) ∈ c.hist) :
    ∃ o s₁, (Ev.inv i t (.dot o) ∈ c.hist ∨ Ev.inv i t (.graph .dot) ∈ c.hist ∧ o = .id) ∧
      While s as i s₁ ∧ Pictures s.heap W o s₁.g doc ∧
      ∀ r l, Listed s.heap W r l → (∀ k v, ¬ W r k v) → ShowsAttrs s.heap r l := by
  obtain ⟨op, h1, P, h2, h3⟩ := run_rgm hs has he hres
  unfold Post at h3
  split at h3
  · exact absurd rfl (h3.2.2 doc)
  · rcases h3 with h3 | ⟨d, s₁, h3, h4, h5⟩
    · cases h3.1
    · cases h3; exact ⟨_, s₁, .inr ⟨h1, rfl⟩, h2 s₁ h4, h5, fun _ _ => listed_shows⟩
  · rcases h3 with h3 | ⟨d, s₁, h3, h4, h5⟩
    · cases h3.1
    · cases h3; exact ⟨_, s₁, .inl h1, h2 s₁ h4, h5, fun _ _ => listed_shows⟩
  · exact h3.elim

/-- Non-vacuity: `DOT` of the graph while x is set: the document has the new x. -/
example : (exec prog (.init gaSt) (.call 0 (.dot .id) :: List.replicate 7 (.tau 0) ++
    [.call 1 (gaSet "x" "1"), .tau 1, .ret 1] ++ List.replicate 4 (.tau 0) ++ [.ret 0])).map
    (fun c => match outOf 0 c.hist with | some (.doc d) => (d.nodes, d.edges) | _ => ([], [])) =
    some ([("a", []), ("b", [])], [(("a", "b"), [("x", "1"), ("y", "0")])]) := by decide +kernel

/-! ## Calls made alone -/

theorem eval_ofGraph {ρ : Type} (p : GProg Unit ρ) (k : ρ → AProg GraphAttrs.Out) :
    ∀ s, (ofGraph p k).eval s = (k (p.eval s).2).eval (p.eval s).1 := by
  induction p with
  | ret a => exact fun _ => rfl
  | lock m p ih => exact ih
  | acquire m p ih => exact ih
  | unlock m p ih => exact ih
  | rlock m p ih => exact ih
  | runlock m p ih => exact ih
  | read l p ih => exact fun s => ih s s
  | write l f p ih => exact fun s => ih s (f s)

theorem eval_ofGetEach (r : Ref) (f : Attrs.COut → AProg GraphAttrs.Out) (s : St) (ks : List String) :
    ∀ acc, (ofAttrs (Attrs.getEach r ks acc) f).eval s =
      (f (.pairs (acc ++ ks.map fun k => (k, Attrs.get s.heap r k)))).eval s := by
  induction ks with
  | nil => intro acc; rw [List.map_nil, List.append_nil]; rfl
  | cons k ks ih =>
    intro acc
    have := ih (acc ++ [(k, Attrs.get s.heap r k)])
    rw [List.append_assoc] at this
    exact this

theorem eval_copyThen (o : Order (String × String)) (r : Ref) (bad : AProg GraphAttrs.Out)
    (k : List (String × String) → AProg GraphAttrs.Out) (s : St) :
    (copyThen o r bad k).eval s = (k (Attrs.dotAttrs s.heap o r)).eval s := by
  show (ofAttrs (if (s.heap.read r).size < (s.heap.read r).size then _ else _) _).eval s = _
  rw [if_neg (Nat.lt_irrefl _), Nat.sub_self, List.replicate_zero, List.append_nil]
  exact eval_ofGetEach r _ s _ []

theorem ofPairs_dotAttrs (h : Heap) (o : Order (String × String)) (r : Ref) :
    ofPairs (Attrs.dotAttrs h o r) = Attrs.copyLoop h o r := by
  unfold ofPairs Attrs.dotAttrs Attrs.copyLoop
  rw [List.foldl_map]

theorem eval_linkAllA (ora : SubOracle) (x y : Uid) (g : WG) (k : WG → AProg GraphAttrs.Out) (es : List Edge) :
    ∀ (sg : WG) (h : Heap), (linkAllA ora x y es sg k).eval ⟨h, g⟩ =
      match linkAll ora x y es sg h with
      | (.ok sg', h') => (k sg').eval ⟨h', g⟩
      | (.err e, h') => (⟨h', g⟩, .graph (.graph (.err e)))
      | (.panic, h') => (⟨h', g⟩, .graph (.graph .panic)) := by
  induction es with
  | nil => exact fun _ _ => rfl
  | cons e es ih =>
    intro sg h
    show ((copyThen _ _ _ _).eval _) = _
    rw [eval_copyThen]
    simp only [Prog.eval, copyLink, ofPairs_dotAttrs, linkAll, Attrs.newCopyFrom]
    generalize link _ sg _ 0 x y _ = r
    obtain ⟨r, sg', h'⟩ := r
    cases r with
    | ok _ => exact ih sg' h'
    | err e => rfl
    | panic => rfl

theorem eval_linkPeersA (ora : SubOracle) (g : WG) (sgNodes : GoMap Int Node) (id : Int) (x : Node)
    (k : WG → AProg GraphAttrs.Out) (ps : List Node) : ∀ (sg : WG) (h : Heap),
    (linkPeersA ora sgNodes id x ps sg k).eval ⟨h, g⟩ =
      match linkPeers ora g sgNodes id x ps sg h with
      | (.ok sg', h') => (k sg').eval ⟨h', g⟩
      | (.err e, h') => (⟨h', g⟩, .graph (.graph (.err e)))
      | (.panic, h') => (⟨h', g⟩, .graph (.graph .panic)) := by
  induction ps with
  | nil => exact fun _ _ => rfl
  | cons p ps ih =>
    intro sg h
    simp only [linkPeersA, linkPeers]
    cases sgNodes.get? p.id with
    | none => exact ih sg h
    | some to =>
      simp only [Prog.eval]
      rw [eval_linkAllA]
      generalize linkAll ora x.uid to.uid (g.b.weightedEdges (ora.edges id p.id)) sg h = r
      obtain ⟨r, h'⟩ := r
      cases r with
      | ok sg' => exact ih sg' h'
      | err e => rfl
      | panic => rfl

theorem eval_linkNodesA (ora : SubOracle) (g : WG) (sgNodes : GoMap Int Node) (l : List (Int × Node)) :
    ∀ (sg : WG) (h : Heap), (linkNodesA ora sgNodes l sg).eval ⟨h, g⟩ =
      (⟨(linkNodes ora g sgNodes l sg h).2, g⟩, .graph (.graph (linkNodes ora g sgNodes l sg h).1)) := by
  induction l with
  | nil => exact fun _ _ => rfl
  | cons e l ih =>
    intro sg h
    obtain ⟨id, x⟩ := e
    simp only [linkNodesA, linkNodes, Prog.eval]
    rw [eval_linkPeersA]
    generalize linkPeers ora g sgNodes id x (g.b.fromNodes (ora.peers id) id) sg h = r
    obtain ⟨r, h'⟩ := r
    cases r with
    | ok sg' => exact ih sg' h'
    | err e => rfl
    | panic => rfl

theorem eval_subGraphA (ora : SubOracle) (u : Uid) (d : Int) (opts : List Opt) (s : St) :
    (subGraphA ora u d opts).eval s =
      (⟨(subGraph ora s.heap s.g u d opts).2, s.g⟩, .graph (.graph (subGraph ora s.heap s.g u d opts).1)) := by
  simp only [subGraphA, subGraph, Prog.eval]
  cases s.g.nodes.get? u.str with
  | none => rfl
  | some root =>
    simp only [Prog.eval]
    cases Bfs.walk s.g.b ora.bfs collect (fun _ e => e == d) root
      ⟨new true ora.graphUid opts, GoMap.empty, none⟩ with
    | none => rfl
    | some w =>
      simp only
      cases w.acc.err with
      | some e => rfl
      | none => exact eval_linkNodesA _ _ _ _ _ _

theorem eval_nodeStmts (o : DotOrder) (bad : AProg GraphAttrs.Out)
    (k : List (String × DotAttrs) → AProg GraphAttrs.Out) (s : St) (ns : List Node) : ∀ acc,
    (nodeStmts o bad ns acc k).eval s =
      (k (acc ++ ns.map fun n => (n.dotid, Attrs.dotAttrs s.heap (o.nodeAttrs n.id) n.attrs))).eval s := by
  induction ns with
  | nil => intro acc; rw [List.map_nil, List.append_nil]; rfl
  | cons n ns ih =>
    intro acc
    unfold nodeStmts
    rw [eval_copyThen, ih, List.append_assoc]
    rfl

theorem eval_edgeStmts (o : DotOrder) (bad : AProg GraphAttrs.Out) (b : Builder)
    (k : List ((String × String) × DotAttrs) → AProg GraphAttrs.Out) (s : St) (ps : List (Node × Node)) : ∀ acc,
    (edgeStmts o bad b ps acc k).eval s =
      (k (acc ++ ps.map fun (n, t) => ((n.dotid, t.dotid),
        match b.weightedEdge n.id t.id with
        | some e => Attrs.dotAttrs s.heap (o.edgeAttrs n.id t.id) e.attrs
        | none => []))).eval s := by
  induction ps with
  | nil => intro acc; rw [List.map_nil, List.append_nil]; rfl
  | cons p ps ih =>
    intro acc
    unfold edgeStmts
    rw [List.map_cons]
    dsimp only
    cases b.weightedEdge p.1.id p.2.id with
    | none => dsimp only; rw [ih, List.append_assoc]; rfl
    | some e => dsimp only; rw [eval_copyThen, ih, List.append_assoc]; rfl

/-- **C100, what holds**: made alone, the calls do what `C27` to `C31` and `C71` are about: `SubGraph`, `DOT` and all
others. So a graph whose attributes are used by one goroutine at a time has all properties shown for one. -/
theorem c100_alone_partial (s : St) :
    (∀ op, op ≠ .dot → (prog (.graph op)).eval s = ((seq s op).1, .graph (seq s op).2)) ∧
    (∀ o, (prog (.dot o)).eval s = (s, .doc (dot s.heap o s.g {}))) := by
  constructor
  · intro op hop
    cases op with
    | subGraph ora u d opts => exact eval_subGraphA ora u d opts s
    | dot => exact absurd rfl hop
    | _ =>
      show (ofGraph _ _).eval s = _
      rw [eval_ofGraph, eval_prog]
      rfl
  · intro o
    show (nodeStmts _ _ _ _ _).eval s = _
    rw [eval_nodeStmts, eval_edgeStmts]
    rw [dot_eq]
    rfl

/-- Non-vacuity: the graph has a sub graph with a copy of the edge's attributes. -/
example : (match (GraphAttrs.prog gaSub).eval gaSt with
    | (s, .graph (.graph (.ok sg))) => gaXY s.heap sg
    | _ => none) = some (some "0", some "0") := by decide +kernel

end Netscrape.Props
