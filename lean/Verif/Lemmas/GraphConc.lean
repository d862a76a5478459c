import Verif.Lemmas.Linearizable
import Verif.Model.GraphConc

/-!
# The graph's method bodies, run alone, compute what the sequential model says
-/

namespace Netscrape.Graph
open Netscrape.Conc
open Netscrape.Gonum (EdgeOrder Bfs)

variable {μ : Type}

theorem eval_newNode (m : μ) (o : Order (Int × Unit)) (e : Ent) (opts : List Opt) (s : St) :
    (newNodeP m o e opts).eval s = (⟨(newNode s.heap s.g o e opts).2, s.g⟩, (newNode s.heap s.g o e opts).1) := by
  simp only [newNodeP, newNode, Prog.eval]
  cases s.g.b.newNodeID o with
  | none => rfl
  | some id =>
    simp only [Prog.eval]
    cases s.g.nodes.get? (mkNode s.heap id e opts).1.key <;> rfl

theorem eval_addNode (m : μ) (n : Node) (opts : List Opt) (s : St) :
    (addNodeP m n opts).eval s = (⟨s.heap, (addNode s.g n opts).2⟩, (addNode s.g n opts).1) := by
  refine (eval_excl _ _ _).trans ?_
  simp only [addNode, Prog.eval]
  cases s.g.b.node? n.id with
  | some _ =>
    simp only [Prog.eval]
    cases s.g.nodes.get? n.key with
    | none => rfl
    | some _ =>
      simp only
      split <;> rfl
  | none =>
    simp only [Prog.eval]
    cases s.g.b.addNode n <;> rfl

theorem eval_node (m : μ) (u : Uid) (s : St) : (nodeP m u).eval s = (s, node s.g u) := by
  refine (eval_shared _ _ _).trans ?_
  simp only [node, Prog.eval]
  cases s.g.nodes.get? u.str <;> rfl

theorem eval_nodes (m : μ) (o : Order (Int × Node)) (s : St) :
    (nodesP m o).eval s = (s, nodesList s.g o) := rfl

theorem eval_removeNode (m : μ) (u : Uid) (s : St) :
    (removeNodeP m u).eval s = (⟨s.heap, removeNode s.g u⟩, .ok ()) := by
  simp only [removeNodeP, removeNode, removeLookup, Prog.eval]
  cases s.g.nodes.get? u.str with
  | none => rfl
  | some n => rfl

theorem eval_edge (m : μ) (u v : Uid) (s : St) : (edgeP m u v).eval s = (s, edge s.g u v) := by
  refine (eval_shared _ _ _).trans ?_
  simp only [edge, Prog.eval]
  cases s.g.nodes.get? u.str with
  | none => rfl
  | some f =>
    simp only [Prog.eval]
    cases s.g.nodes.get? v.str with
    | none => rfl
    | some t =>
      simp only [Prog.eval]
      cases s.g.b.weightedEdge f.id t.id <;> rfl

theorem eval_linkApply (m : μ) (fresh : Uid) (a : Nat) (f t : Node) (opts : List Opt) (s : St) :
    (linkApplyP m fresh a f t opts).eval s =
      (⟨(linkApply s.heap s.g fresh a f t opts).2.2, (linkApply s.heap s.g fresh a f t opts).2.1⟩,
        (linkApply s.heap s.g fresh a f t opts).1) := by
  refine (eval_excl _ _ _).trans ?_
  simp only [linkApply, Prog.eval]
  cases s.g.b.setWeightedEdge (mkEdge s.heap fresh a f t opts).1 <;> rfl

theorem eval_link (m : μ) (fresh : Uid) (a : Nat) (f t : Uid) (opts : List Opt) (s : St) :
    (linkP m fresh a f t opts).eval s =
      (⟨(link s.heap s.g fresh a f t opts).2.2, (link s.heap s.g fresh a f t opts).2.1⟩,
        (link s.heap s.g fresh a f t opts).1) := by
  simp only [linkP, Prog.eval]
  rw [eval_bind, eval_edge]
  simp only [link, linkLookup]
  cases edge s.g f t with
  | ok e => rfl
  | panic => rfl
  | err x =>
    cases x with
    | edgeNotExist =>
      simp only [Prog.eval]
      cases s.g.nodes.get? f.str with
      | none => rfl
      | some f' =>
        simp only [Prog.eval]
        cases s.g.nodes.get? t.str with
        | none => rfl
        | some t' => exact eval_linkApply _ _ _ _ _ _ _
    | _ => rfl

theorem eval_edges (m : μ) (o : EdgeOrder) (s : St) : (edgesP m o).eval s = (s, edgesList s.g o) := rfl

theorem eval_from (m : μ) (o : Order (Int × Edge)) (u : Uid) (s : St) :
    (fromP m o u).eval s = (s, fromList s.g o u) := by
  simp only [fromP, fromList, Prog.eval]
  cases s.g.nodes.get? u.str <;> rfl

theorem eval_unlink (m : μ) (f t : Uid) (s : St) :
    (unlinkP m f t).eval s = (⟨s.heap, unlink s.g f t⟩, .ok ()) := by
  simp only [unlinkP, unlink, unlinkLookup, Prog.eval]
  cases s.g.nodes.get? f.str with
  | none => rfl
  | some f' =>
    simp only [Prog.eval]
    cases s.g.nodes.get? t.str <;> rfl

theorem eval_linkPeers (ora : SubOracle) (g : WG) (sgNodes : GoMap Int Node) (id : Int) (x : Node)
    (ps : List Node) : ∀ (sg : WG) (h : Heap) (k : WG → GProg μ (Res Err WG)),
    (linkPeersP ora sgNodes id x ps sg k).eval ⟨h, g⟩ =
      match linkPeers ora g sgNodes id x ps sg h with
      | (.ok sg', h') => (k sg').eval ⟨h', g⟩
      | (.err e, h') => (⟨h', g⟩, .err e)
      | (.panic, h') => (⟨h', g⟩, .panic) := by
  induction ps with
  | nil => intro sg h k; rfl
  | cons p ps ih =>
    intro sg h k
    simp only [linkPeersP, linkPeers]
    cases sgNodes.get? p.id with
    | none => exact ih sg h k
    | some to =>
      simp only [Prog.eval]
      generalize linkAll ora x.uid to.uid (g.b.weightedEdges (ora.edges id p.id)) sg h = r
      obtain ⟨r, h'⟩ := r
      cases r with
      | ok sg' => exact ih sg' h' k
      | err e => rfl
      | panic => rfl

theorem eval_linkNodes (ora : SubOracle) (g : WG) (sgNodes : GoMap Int Node)
    (l : List (Int × Node)) : ∀ (sg : WG) (h : Heap),
    (linkNodesP (μ := μ) ora sgNodes l sg).eval ⟨h, g⟩ =
      (⟨(linkNodes ora g sgNodes l sg h).2, g⟩, (linkNodes ora g sgNodes l sg h).1) := by
  induction l with
  | nil => intro sg h; rfl
  | cons e l ih =>
    intro sg h
    obtain ⟨id, x⟩ := e
    simp only [linkNodesP, linkNodes, Prog.eval]
    rw [eval_linkPeers]
    generalize linkPeers ora g sgNodes id x (g.b.fromNodes (ora.peers id) id) sg h = r
    obtain ⟨r, h'⟩ := r
    cases r with
    | ok sg' => exact ih sg' h'
    | err e => rfl
    | panic => rfl

theorem eval_subGraph (m : μ) (ora : SubOracle) (u : Uid) (d : Int) (opts : List Opt) (s : St) :
    (subGraphP m ora u d opts).eval s =
      (⟨(subGraph ora s.heap s.g u d opts).2, s.g⟩, (subGraph ora s.heap s.g u d opts).1) := by
  simp only [subGraphP, subGraph, Prog.eval]
  cases s.g.nodes.get? u.str with
  | none => rfl
  | some root =>
    simp only [Prog.eval]
    cases Bfs.walk s.g.b ora.bfs collect (fun _ e => e == d) root
      ⟨new true ora.graphUid opts, GoMap.empty, none⟩ with
    | none => rfl
    | some w =>
      simp only
      cases w.acc.err with
      | some e => rfl
      | none => exact eval_linkNodes _ _ _ _ _ _

theorem eval_prog (m : μ) (op : COp) (s : St) : (prog m op).eval s = seq s op := by
  cases op with
  | newNode o e opts => simp only [prog, seq, eval_bind, eval_newNode, Prog.eval]
  | addNode n opts => simp only [prog, seq, eval_bind, eval_addNode, Prog.eval]
  | addForeign => rfl
  | node u => simp only [prog, seq, eval_bind, eval_node, Prog.eval]
  | nodes o => rfl
  | removeNode u => simp only [prog, seq, eval_bind, eval_removeNode, Prog.eval]
  | link fresh a f t opts => simp only [prog, seq, eval_bind, eval_link, Prog.eval]
  | edge u v => simp only [prog, seq, eval_bind, eval_edge, Prog.eval]
  | edges o => rfl
  | from' o u => simp only [prog, seq, eval_bind, eval_from, Prog.eval]
  | unlink f t => simp only [prog, seq, eval_bind, eval_unlink, Prog.eval]
  | subGraph ora u d opts => simp only [prog, seq, eval_bind, eval_subGraph, Prog.eval]
  | dot => rfl

end Netscrape.Graph
