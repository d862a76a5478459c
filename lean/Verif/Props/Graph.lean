import Verif.Lemmas.GraphEx

/-!
# C15–C26: the in-memory graph

"Reachable" in the properties is `Reach Disciplined`: `AddNode` is given nodes whose UID and ID point
at the same node of the graph or at none (as nodes obtained from the graph's `NewNode` do,
`c15_newNode_fits`). Theorems over `Reach Any` hold for all histories.
-/

namespace Netscrape.Props
open Netscrape Netscrape.Graph Netscrape.Spec.Graph
open Netscrape.Gonum (EdgeOrder)

/-! ## C15 -/

/-- **C15.** In every history whatsoever, whatever ID the allocator picks, the node `NewNode` creates
for an entity not in the graph has an ID that no listed node has. -/
theorem c15_newNode_fresh_id {d : Bool} {s : St} (hr : Reach Any d s) (o : Order (Int × Unit))
    (e : Ent) (opts : List Opt) (n : Node) (hn : (newNode s.heap s.g o e opts).1 = .ok n)
    (habs : node s.g e.uid = .err .nodeNotFound) (o' : Order (Int × Node)) :
    ∀ m ∈ nodesList s.g o', m.id ≠ n.id := by
  intro m hm hid
  obtain ⟨hinv, -⟩ := gonumInv_reach hr
  unfold newNode at hn
  cases hi : s.g.b.newNodeID o with
  | none => rw [hi] at hn; cases hn
  | some i =>
    have hfresh := Gonum.newNodeID_fresh _ hinv o i hi
    rw [hi] at hn
    have hkey : (mkNode s.heap i e opts).1.key = e.uid.str := by simp [mkNode, Node.key]
    have hnone : s.g.nodes.get? e.uid.str = none := by
      unfold node at habs
      split at habs
      · cases habs
      · assumption
    simp only [hkey, hnone, Res.ok.injEq] at hn
    have hnid : n.id = i := by rw [← hn]; simp [mkNode]
    obtain ⟨k, hk⟩ := (Gonum.mem_allNodes _ _ _).mp hm
    have := hinv.nodeID k m hk
    rw [← this, hid, hnid, hfresh] at hk
    cases hk

/-- **C15** (for lookups, and discipline). In a disciplined history the node `NewNode` returns may be
added at once: its UID and ID point at the same node of the graph or at none. -/
theorem c15_newNode_fits {d : Bool} {s : St} (hr : Reach Disciplined d s) (o : Order (Int × Unit))
    (e : Ent) (opts : List Opt) (n : Node) (hn : (newNode s.heap s.g o e opts).1 = .ok n) :
    Fits s.g n ∧ n.uid.str = e.uid.str := by
  have hinv := wgInv_reach hr
  unfold newNode at hn
  cases hi : s.g.b.newNodeID o with
  | none => rw [hi] at hn; cases hn
  | some i =>
    have hfresh := Gonum.newNodeID_fresh _ hinv.gonum o i hi
    have hkey : (mkNode s.heap i e opts).1.key = e.uid.str := by simp [mkNode, Node.key]
    have hid : (mkNode s.heap i e opts).1.id = i := by simp [mkNode]
    rw [hi] at hn
    simp only at hn
    cases hg : s.g.nodes.get? (mkNode s.heap i e opts).1.key with
    | some m =>
      simp only [hg, Res.ok.injEq] at hn
      subst hn
      refine ⟨?_, (hinv.keyOf _ _ hg).trans hkey⟩
      rw [fits_iff hinv.keyOf]
      intro k x hx
      rw [hinv.id_inj hx hg, hinv.keyOf _ _ hx, hinv.keyOf _ _ hg]
    | none =>
      simp only [hg, Res.ok.injEq] at hn
      subst hn
      refine ⟨?_, hkey⟩
      rw [fits_iff hinv.keyOf]
      intro k x hx
      have h1 := hinv.keyOf _ _ hx
      constructor
      · intro hk
        rw [← hk, h1, hx] at hg
        cases hg
      · intro hk
        have := hinv.toID _ _ hx
        rw [hk, hid] at this
        simp [keyAt, hfresh] at this

/-- **C15** (for lookups). In a disciplined history a node created for an entity not in the graph has
an ID that no node found by its UID has. -/
theorem c15_newNode_lookup {d : Bool} {s : St} (hr : Reach Disciplined d s) (o : Order (Int × Unit))
    (e : Ent) (opts : List Opt) (n : Node) (hn : (newNode s.heap s.g o e opts).1 = .ok n)
    (habs : node s.g e.uid = .err .nodeNotFound) (u : Uid) (m : Node) (hm : node s.g u = .ok m) :
    m.id ≠ n.id := by
  obtain ⟨hf, hu⟩ := c15_newNode_fits hr o e opts n hn
  intro hid
  have hk := (hf u m hm).mpr hid
  have hm' := ((wgInv_reach hr).node_eq _ _).mp hm
  have hkey : m.key = u.str := (wgInv_reach hr).keyOf _ _ hm'
  have : node s.g e.uid = .ok m := by
    unfold node
    rw [← hu, ← hk]
    change (match s.g.nodes.get? m.key with | some n => _ | none => _) = _
    rw [hkey, hm']
  rw [habs] at this
  cases this

/-- Non-vacuity of C15: after a removal the released ID 1 is proposed again; the entity is new. -/
example :
    let s := run (exSt true) [.removeNode uB]
    Reach Disciplined true s ∧
    node s.g ⟨9, "z"⟩ = .err .nodeNotFound ∧
    (newNode s.heap s.g Order.id (exEnt 9 "z") []).1 = .ok ⟨exEnt 9 "z", 1, "z", 2⟩ ∧
    (nodesList s.g Order.id).map Node.id = [2, 0] := by
  refine ⟨?_, by decide, by decide, by decide⟩
  exact (reach_run [.removeNode uB] (reach_exSt true) (by decide)).mono NoReplace.disciplined

/-! ## C16 -/

private theorem step_binding (s : St) (op : Op) (k : String) :
    (step s op).1.g.nodes.get? k = binding k (s.g.nodes.get? k) (op, (step s op).2) := by
  cases op with
  | newNode o e opts => rfl
  | addNode n opts =>
    have hkey : n.key = n.uid.str := rfl
    simp only [step, addNode]
    split
    · split
      · split
        · simp [binding]
        · simp only [binding, GoMap.get?_set, hkey, @eq_comm _ k]
          split <;> rfl
      · simp only [binding, GoMap.get?_set, hkey, @eq_comm _ k]
    · split
      · simp [binding]
      · simp only [binding, GoMap.get?_set, hkey, @eq_comm _ k]
  | addForeign => rfl
  | removeNode u =>
    simp only [step, removeNode, binding, removeLookup]
    cases hg : s.g.nodes.get? u.str with
    | none =>
      simp only
      split
      · rename_i hk; rw [← hk, hg]
      · rfl
    | some n => simp only [removeApply, GoMap.get?_del, @eq_comm _ k]
  | link fresh a f t opts =>
    simp only [step, link, binding]
    split
    · rfl
    · simp only [linkApply]
      split <;> rfl
  | unlink f t =>
    simp only [step, unlink, binding]
    split <;> rfl
  | env h => rfl

/-- **C16.** For every history of calls on a new graph (disciplined or not, panicking calls
included), `Node u` returns exactly what the calls and their results imply: the node of the latest
successful `AddNode` under `u`'s string with no `RemoveNode` since, else `ErrNodeNotFound`. -/
theorem c16_node_lookup (d : Bool) (h : Heap) (fresh : Uid) (gopts : List Opt) (ops : List Op)
    (u : Uid) :
    let s₀ : St := ⟨h, new d fresh gopts⟩
    node (run s₀ ops).g u =
      match bindings (trace s₀ ops) u.str with
      | some n => .ok n
      | none => .err .nodeNotFound := by
  intro s₀
  have key : ∀ (ops : List Op) (s : St), (run s ops).g.nodes.get? u.str =
      (trace s ops).foldl (binding u.str) (s.g.nodes.get? u.str) := by
    intro ops
    induction ops with
    | nil => intro s; rfl
    | cons op ops ih =>
      intro s
      have : run s (op :: ops) = run (step s op).1 ops := rfl
      rw [this, ih, step_binding]
      rfl
  have h0 : s₀.g.nodes.get? u.str = none := rfl
  unfold node bindings
  rw [key, h0]
  cases (trace s₀ ops).foldl (binding u.str) none <;> rfl

/-- Non-vacuity of C16: replaced by an undisciplined add, removed, and untouched nodes. -/
example :
    let ops := exOps ++ [.addNode (exNode 5 "a") [], .removeNode uB]
    bindings (trace (exInit true) ops) "a" = some (exNode 5 "a") ∧
    bindings (trace (exInit true) ops) "b" = none ∧
    bindings (trace (exInit true) ops) "c" = some (exNode 2 "c") := by decide

/-! ## C17 -/

/-- **C17 fails** when two nodes are obtained from `NewNode` before either is added: both get ID 0,
both `AddNode` calls succeed, `Node` finds both, `Nodes` lists one. -/
theorem c17_violated (o : Order (Int × Node)) :
    let s₀ := exInit true
    let n1 := exNode 0 "a"
    let n2 : Node := ⟨exEnt 2 "b", 0, "b", 0⟩
    (newNode s₀.heap s₀.g Order.id n1.ent [.withAttrs (some 0)]).1 = .ok n1 ∧
    (newNode s₀.heap s₀.g Order.id n2.ent [.withAttrs (some 0)]).1 = .ok n2 ∧
    let s := run s₀ [.addNode n1 [], .addNode n2 []]
    (trace s₀ [.addNode n1 [], .addNode n2 []]).map Prod.snd = [.unit (.ok ()), .unit (.ok ())] ∧
    node s.g uA = .ok n1 ∧ node s.g uB = .ok n2 ∧ nodesList s.g o = [n1] := by
  refine ⟨by decide, by decide, by decide, by decide, by decide, ?_⟩
  have : o.run [(0, exNode 0 "a")] = [(0, exNode 0 "a")] := List.perm_singleton.mp (o.perm _)
  exact congrArg (List.map Prod.snd) this

/-- **C17 fails**: lookup and enumeration do not agree in all histories. -/
theorem c17_violated_general : ¬ ∀ (d : Bool) (s : St), Reach Any d s → ∀ o n,
    n ∈ nodesList s.g o ↔ node s.g n.uid = .ok n := by
  intro h
  have := (h true (run (exInit true) [.addNode (exNode 0 "a") [],
    .addNode ⟨exEnt 2 "b", 0, "b", 0⟩ []]) (reach_run_any _ (reach_exInit _ _)) Order.id
    ⟨exEnt 2 "b", 0, "b", 0⟩).mpr (by decide)
  revert this
  decide

/-- **C17, what holds** without upsert: `Nodes` lists exactly the nodes `Node` finds, each once. -/
theorem c17_agree_partial {d : Bool} {s : St} (hr : Reach NoReplace d s) (o : Order (Int × Node)) :
    (∀ n, n ∈ nodesList s.g o ↔ node s.g n.uid = .ok n) ∧ (nodesList s.g o).Nodup ∧
    ((nodesList s.g o).map (fun n => n.uid.str)).Nodup ∧
    ((nodesList s.g o).map Node.id).Nodup := by
  have hx := wgExact_reach hr
  have hids := Gonum.nodup_allNodes_ids hx.inv.gonum o
  have hmem : ∀ n, n ∈ nodesList s.g o ↔ s.g.nodes.get? n.key = some n := by
    intro n
    unfold nodesList
    rw [Gonum.mem_allNodes, hx.same]
    constructor
    · rintro ⟨k, hk⟩
      rw [hx.inv.gonum.nodeID _ _ hk]; exact hk
    · intro hn; exact ⟨_, hn⟩
  refine ⟨fun n => (hmem n).trans (hx.inv.node_eq n.uid n).symm, ?_, ?_, hids⟩
  · exact List.Pairwise.of_map _ (fun a b hab e => hab (e ▸ rfl)) hids
  · rw [List.nodup_iff_pairwise_ne, List.pairwise_map]
    have := List.Pairwise.of_map (f := Node.id) (S := (· ≠ ·)) (R := fun a b : Node => a.id ≠ b.id)
      (fun a b hab => hab) hids
    refine List.Pairwise.imp_of_mem ?_ this
    intro a b ha hb hab hk
    have h1 := (hmem a).mp ha
    have h2 := (hmem b).mp hb
    have hk' : a.key = b.key := hk
    rw [hk', h2] at h1
    cases h1
    exact hab rfl

theorem agree_ids {g : WG} (hinv : WGInv g) (o : Order (Int × Node)) :
    (∀ k i, (∃ n ∈ nodesList g o, n.uid.str = k ∧ n.id = i) ↔
      ∃ u n, u.str = k ∧ node g u = .ok n ∧ n.uid.str = k ∧ n.id = i) ∧
    ((nodesList g o).map (fun n => n.uid.str)).Nodup ∧
    ((nodesList g o).map Node.id).Nodup := by
  have hids := Gonum.nodup_allNodes_ids hinv.gonum o
  have hmem : ∀ n ∈ nodesList g o, keyAt g.b n.id = some n.key := by
    intro n hn
    obtain ⟨k, hk⟩ := (Gonum.mem_allNodes _ _ _).mp hn
    rw [hinv.gonum.nodeID _ _ hk]
    simp [keyAt, hk]
  refine ⟨?_, ?_, hids⟩
  · intro k i
    constructor
    · rintro ⟨n, hn, rfl, rfl⟩
      obtain ⟨m, hm, hid⟩ := hinv.ofID _ _ (hmem n hn)
      exact ⟨n.uid, m, rfl, (hinv.node_eq _ _).mpr hm, hinv.keyOf _ _ hm, hid⟩
    · rintro ⟨u, n, rfl, hn, -, rfl⟩
      have := hinv.toID _ _ ((hinv.node_eq _ _).mp hn)
      unfold keyAt at this
      obtain ⟨m, hm, hmk⟩ := Option.map_eq_some_iff.mp this
      exact ⟨m, (Gonum.mem_allNodes _ _ _).mpr ⟨_, hm⟩, hmk, hinv.gonum.nodeID _ _ hm⟩
  · rw [List.nodup_iff_pairwise_ne, List.pairwise_map]
    have := List.Pairwise.of_map (f := Node.id) (S := (· ≠ ·)) (R := fun a b : Node => a.id ≠ b.id)
      (fun a b hab => hab) hids
    refine List.Pairwise.imp_of_mem ?_ this
    intro a b ha hb hab hk
    obtain ⟨m, hm, hid⟩ := hinv.ofID _ _ (hmem a ha)
    obtain ⟨m', hm', hid'⟩ := hinv.ofID _ _ (hmem b hb)
    have hk' : a.key = b.key := hk
    rw [hk', hm'] at hm
    cases hm
    exact hab (hid.symm.trans hid')

/-- **C17, what holds** with upserts: `Nodes` and `Node` agree on which UIDs and IDs exist and go
together; each UID and ID is listed once. -/
theorem c17_agree_ids_partial {d : Bool} {s : St} (hr : Reach Disciplined d s)
    (o : Order (Int × Node)) :
    (∀ k i, (∃ n ∈ nodesList s.g o, n.uid.str = k ∧ n.id = i) ↔
      ∃ u n, u.str = k ∧ node s.g u = .ok n ∧ n.uid.str = k ∧ n.id = i) ∧
    ((nodesList s.g o).map (fun n => n.uid.str)).Nodup ∧
    ((nodesList s.g o).map Node.id).Nodup := by
  exact agree_ids (wgInv_reach hr) o

/-- Non-vacuity of C17. -/
example : Reach NoReplace false (exSt false) ∧
    (nodesList (exSt false).g Order.id).map (fun n => n.uid.str) = ["c", "b", "a"] :=
  ⟨reach_exSt false, by decide⟩

/-! ## C18 -/

/-- C18 as stated, restricted to nodes that fit: duplicates are rejected without upsert, and after an
upsert the new node is what `Node` and `Nodes` show. -/
def AddNodeContract : Prop :=
  ∀ (d : Bool) (s : St), Reach Disciplined d s → ∀ (n m : Node) (opts : List Opt),
    node s.g n.uid = .ok m → Fits s.g n →
    (Opt.withUpsert ∉ opts → addNode s.g n opts = (.err .duplicateNode, s.g)) ∧
    (Opt.withUpsert ∈ opts → node (addNode s.g n opts).2 n.uid = .ok n ∧
      ∀ o, n ∈ nodesList (addNode s.g n opts).2 o)

/-- **C18 fails**: after an upsert, `Node` shows the new node but `Nodes` (and `From` of a
neighbour) still show the old one. -/
theorem c18_violated : ¬ AddNodeContract := by
  intro h
  have hr := reach_exSt' true
  have := ((h true _ hr ⟨exEnt 1 "a", 0, "new", 0⟩ (exNode 0 "a") [.withUpsert] (by decide)
    (fits_of_entries (by decide))).2 (by decide)).2 Order.id
  revert this
  decide

/-- **C18 fails** outside the discipline too: a node with a known UID and a new ID is accepted
without upsert, and `Nodes` then lists two nodes with one UID. -/
theorem c18_violated_new_id (o : Order (Int × Node)) :
    let s := run (exInit true) [.addNode (exNode 0 "a") [], .addNode (exNode 1 "a") []]
    (trace (exInit true) [.addNode (exNode 0 "a") [], .addNode (exNode 1 "a") []]).map Prod.snd =
      [.unit (.ok ()), .unit (.ok ())] ∧
    (nodesList s.g o).map (fun n => n.uid.str) = ["a", "a"] := by
  refine ⟨by decide, ?_⟩
  have h : ((nodesList (run (exInit true) [.addNode (exNode 0 "a") [],
      .addNode (exNode 1 "a") []]).g o).map (fun n => n.uid.str)).Perm ["a", "a"] :=
    ((o.perm _).map Prod.snd).map _
  have h2 : ["a", "a"] = List.replicate 2 "a" := rfl
  rw [h2] at h ⊢
  exact List.perm_replicate.mp h

/-- **C18, what holds.** For a node that fits: without upsert a duplicate is rejected and the graph
unchanged; with upsert `Node` returns the new node; other lookups, and the edges between all other
UIDs, are as before, and the IDs, so all edges, of the replaced UID are kept. -/
theorem c18_addNode_partial {d : Bool} {s : St} (hr : Reach Disciplined d s) (n : Node)
    (opts : List Opt) (hf : Fits s.g n) :
    ((∃ m, node s.g n.uid = .ok m) → Opt.withUpsert ∉ opts →
      addNode s.g n opts = (.err .duplicateNode, s.g)) ∧
    ((node s.g n.uid = .err .nodeNotFound ∨ Opt.withUpsert ∈ opts) →
      (addNode s.g n opts).1 = .ok () ∧ node (addNode s.g n opts).2 n.uid = .ok n ∧
      (∀ u, u.str ≠ n.uid.str → node (addNode s.g n opts).2 u = node s.g u) ∧
      (∀ u v e, edge (addNode s.g n opts).2 u v = .ok e ↔ edge s.g u v = .ok e)) := by
  have hinv := wgInv_reach hr
  have hf' := (fits_iff hinv.keyOf n).mp hf
  have hkey : n.key = n.uid.str := rfl
  constructor
  · rintro ⟨m, hm⟩ hup
    have hm' := (hinv.node_eq _ _).mp hm
    rw [← hkey] at hm'
    have hid := (hf' _ _ hm').mp (hinv.keyOf _ _ hm')
    have := hinv.toID _ _ hm'
    rw [hid] at this
    unfold keyAt at this
    obtain ⟨x, hx, -⟩ := Option.map_eq_some_iff.mp this
    have hup' : (applyAll opts).upsert = false := by
      cases hc : (applyAll opts).upsert with
      | false => rfl
      | true => exact absurd ((upsert_iff opts).mp hc) hup
    simp [addNode, Gonum.Builder.node?, hx, hm', hup']
  · intro hcond
    -- the new lookup map, and an unchanged edge map
    have main : (addNode s.g n opts).1 = .ok () ∧
        (∀ k, (addNode s.g n opts).2.nodes.get? k = if k = n.key then some n else s.g.nodes.get? k) ∧
        (addNode s.g n opts).2.b.edges = s.g.b.edges := by
      unfold addNode Gonum.Builder.node?
      cases hx : s.g.b.nodes.get? n.id with
      | some x =>
        simp only
        cases hm : s.g.nodes.get? n.key with
        | some m =>
          have hup : Opt.withUpsert ∈ opts := by
            rcases hcond with hc | hc
            · unfold node at hc; rw [← hkey, hm] at hc; cases hc
            · exact hc
          have hup' := (upsert_iff opts).mpr hup
          simp only [hup', Bool.true_eq_false, if_false]
          refine ⟨trivial, ?_, trivial⟩
          intro k
          simp only [GoMap.get?_set]
          split <;> rfl
        | none =>
          refine ⟨rfl, ?_, rfl⟩
          intro k
          simp only [GoMap.get?_set]
      | none =>
        simp only
        cases ha : s.g.b.addNode n with
        | none => simp [Gonum.Builder.addNode, hx] at ha
        | some b' =>
          refine ⟨rfl, ?_, (Gonum.addNode_eq ha).2.1⟩
          intro k
          simp only [GoMap.get?_set]
    obtain ⟨m1, m2, m3⟩ := main
    refine ⟨m1, ?_, ?_, ?_⟩
    · unfold node; rw [m2, if_pos hkey.symm]
    · intro u hu
      unfold node; rw [m2, if_neg (fun h => hu (h.trans hkey))]
    · intro u v e
      -- an edge is found from the same IDs before and after
      have hids : ∀ k x, (addNode s.g n opts).2.nodes.get? k = some x →
          (∃ y, s.g.nodes.get? k = some y ∧ y.id = x.id) ∨
          (s.g.nodes.get? k = none ∧ s.g.b.nodes.get? x.id = none) := by
        intro k x hx
        rw [m2] at hx
        split at hx
        · rename_i hk
          cases hx
          cases hy : s.g.nodes.get? k with
          | some y =>
            left
            exact ⟨y, rfl, (hf' _ _ hy).mp ((hinv.keyOf _ _ hy).trans hk)⟩
          | none =>
            right
            refine ⟨rfl, ?_⟩
            cases hz : s.g.b.nodes.get? n.id with
            | none => rfl
            | some z =>
              obtain ⟨y, hy', hyid⟩ := hinv.ofID n.id z.key (by simp [keyAt, hz])
              have := (hf' _ _ hy').mpr hyid
              rw [← hinv.keyOf _ _ hy', this, ← hk, hy] at hy'
              cases hy'
        · left; exact ⟨x, hx, rfl⟩
      have hwe : ∀ a b, (addNode s.g n opts).2.b.weightedEdge a b = s.g.b.weightedEdge a b :=
        Gonum.weightedEdge_congr m3
      have hback : ∀ k y, s.g.nodes.get? k = some y →
          ∃ x, (addNode s.g n opts).2.nodes.get? k = some x ∧ x.id = y.id := by
        intro k y hy
        rw [m2]
        by_cases hk : k = n.key
        · exact ⟨n, by rw [if_pos hk], ((hf' _ _ hy).mp ((hinv.keyOf _ _ hy).trans hk)).symm⟩
        · exact ⟨y, by rw [if_neg hk, hy], rfl⟩
      rw [edge_ok, edge_ok]
      constructor
      · rintro ⟨f, t, h1, h2, h3⟩
        rw [hwe] at h3
        have hok := (Gonum.weightedEdge_ends hinv.gonum h3).2.2
        rcases hids _ _ h1 with ⟨y, hy, hyid⟩ | ⟨-, hnone⟩
        · rcases hids _ _ h2 with ⟨z, hz, hzid⟩ | ⟨-, hnone⟩
          · exact ⟨y, z, hy, hz, by rw [hyid, hzid]; exact h3⟩
          · obtain ⟨w, hw⟩ := hok.right; rw [hnone] at hw; cases hw
        · obtain ⟨w, hw⟩ := hok.left; rw [hnone] at hw; cases hw
      · rintro ⟨f, t, h1, h2, h3⟩
        obtain ⟨y, hy, hyid⟩ := hback _ _ h1
        obtain ⟨z, hz, hzid⟩ := hback _ _ h2
        exact ⟨y, z, hy, hz, by rw [hwe, hyid, hzid]; exact h3⟩

/-- Non-vacuity of C18: a fitting node whose UID is in the graph, and one whose UID is not. -/
example : Fits (exSt true).g ⟨exEnt 1 "a", 0, "new", 0⟩ ∧
    node (exSt true).g (exEnt 1 "a").uid = .ok (exNode 0 "a") ∧
    Fits (exSt true).g (exNode 3 "d") ∧
    node (exSt true).g (exNode 3 "d").uid = .err .nodeNotFound :=
  ⟨fits_of_entries (by decide), by decide, fits_of_entries (by decide), by decide⟩

end Netscrape.Props
