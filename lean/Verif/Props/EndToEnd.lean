import Verif.Spec.EndToEnd
import Verif.Props.Marshal
import Verif.Props.Pipeline
import Verif.Props.BrokerMore

/-!
# From `Ingest` to the handler
-/

namespace Netscrape.Props
open Netscrape.Pipeline Netscrape.Spec.Pipeline
open Netscrape.Broker (St Reach Any Ev Msg Act Op exec run reach_run)
open Netscrape.Spec Netscrape.Spec.Broker
open Netscrape.Marshal (Value unmarshal marshal)

/-! ## C69 -/

private theorem round_trip {h : Heap} {v : Value} (hv : ValidValue h v) (o : Marshal.Orders) :
    ∃ b, jsonMarshaler h o (asData v) = .ok b ∧ ∀ (g : Heap) (c : Transport.Choice),
      ∃ w g', unmarshal g c b (targetOf (typeOf v)) = .ok (w, g') ∧ LikeValue h v g' w ∧ g'.Extends g := by
  cases v with
  | entity e =>
    obtain ⟨b, _, _, h1, _⟩ := c46_entity_partial h h o .id e hv
    refine ⟨b, by simp only [jsonMarshaler, asData, dynOf, h1], fun g c => ?_⟩
    obtain ⟨b', w, g', h2, h3, h4, h5⟩ := c46_entity_partial h g o c e hv
    rw [h1] at h2; cases h2
    exact ⟨_, _, h3, h4, h5⟩
  | resource e =>
    obtain ⟨b, _, _, h1, _⟩ := c46_resource_partial h h o .id e hv
    refine ⟨b, by simp only [jsonMarshaler, asData, dynOf, h1], fun g c => ?_⟩
    obtain ⟨b', w, g', h2, h3, h4, h5⟩ := c46_resource_partial h g o c e hv
    rw [h1] at h2; cases h2
    exact ⟨_, _, h3, h4, h5⟩
  | object e =>
    obtain ⟨b, _, _, h1, _⟩ := c46_object_partial h h o .id e hv
    refine ⟨b, by simp only [jsonMarshaler, asData, dynOf, h1], fun g c => ?_⟩
    obtain ⟨b', w, g', h2, h3, h4, h5⟩ := c46_object_partial h g o c e hv
    rw [h1] at h2; cases h2
    exact ⟨_, _, h3, h4, h5⟩
  | link e =>
    obtain ⟨b, _, _, h1, _⟩ := c46_link_partial h h o .id e hv
    refine ⟨b, by simp only [jsonMarshaler, asData, dynOf, h1], fun g c => ?_⟩
    obtain ⟨b', w, g', h2, h3, h4, h5⟩ := c46_link_partial h g o c e hv
    rw [h1] at h2; cases h2
    exact ⟨_, _, h3, h4, h5⟩

/-- **C69**: with the JSON marshaler `Ingest` rejects everything that is no entity, object, resource or link
with `ErrUnsuportedType`, and publishes nothing; the transport types are rejected, too. -/
theorem c69_rejects {i : Ingester} {env : Env} {ctx b k : Nat} {t : String} {typ : Int} {d : Data}
    {opts : List (IngestOpts → IngestOpts)} {h : Heap} {o : Marshal.Orders}
    (hk : (applyAll opts {}).marshaler = some k) (hj : env.marshal k = jsonMarshaler h o)
    (hd : ∀ v, d ≠ asData v) :
    (i.ingest env ctx (some b) t typ d opts).1 = .err (.env 0) ∧
    published (i.ingest env ctx (some b) t typ d opts).2 = [] := by
  have h1 : dynOf d = {} := by
    cases d with
    | entity e => exact absurd rfl (hd (.entity e))
    | resource e => exact absurd rfl (hd (.resource e))
    | object e => exact absurd rfl (hd (.object e))
    | link e => exact absurd rfl (hd (.link e))
    | _ => rfl
  have h2 : jsonMarshaler h o d = .err (.env 0) := by
    have h3 : marshal h o {} = .err .unsupportedType := rfl
    simp only [jsonMarshaler, h1, h3]
  refine (c59_publishes i env ctx b t typ d opts).1 (.env 0) ?_
  simp only [hk, hj, h2]

/-- Non-vacuity: a transport form of an entity is no entity. -/
example : (applyAll [fun x => { x with marshaler := some 0 }] ({} : IngestOpts)).marshaler = some 0 ∧
    ∀ v, (Data.tEntity ⟨"a", "x", GoMap.empty⟩) ≠ asData v := by
  refine ⟨rfl, fun v => ?_⟩
  cases v <;> exact fun h => nomatch h

/-- A valid value that was ingested can be read back from the message. -/
theorem ingested_decode {h : Heap} {v : Value} {ctx : Nat} {t : String} {m : Msg}
    (hi : Ingested h v ctx t m) (hv : ValidValue h v) (g : Heap) (c : Transport.Choice) :
    ∃ w g', unmarshal g c m.data.toList (targetOf m.typ) = .ok (w, g') ∧ LikeValue h v g' w ∧ g'.Extends g := by
  obtain ⟨i, env, b, k, opts, o, h1, h2, h3⟩ := hi
  obtain ⟨x, h4, h5⟩ := round_trip hv o
  have h6 := (c59_publishes i env ctx b t (typeOf v) (asData v) opts).2.1 x
  rw [h1] at h6
  obtain ⟨m', h7, h8, _, _, h9, _⟩ := h6 (by simp only [h2, h4])
  rw [h9, List.mem_singleton] at h3
  cases h3
  rw [h7, h8]
  exact h5 g c

/-- C69: if everything published on a topic was ingested with its type and the JSON marshaler (`src` says
which call ingested what), every handler called for a subscription to the topic gets a message from which
`Unmarshal`, asked for what the message's type says, makes a value like the one ingested; the call that
ingested it was made on this topic, and its value is handed to no other receiver. -/
theorem c69_end_to_end {cap : Int} {s : St} (h : Reach cap Any s) {t : String} {src : Nat → Heap × Value}
    (hall : ∀ p ctx m, s.ops p = some (.pub ctx t m) →
      Ingested (src p).1 (src p).2 ctx t m ∧ ValidValue (src p).1 (src p).2)
    {r ctx x : Nat} {u : String} {m : Msg} (hr : s.ops r = some (.receive ctx x))
    (hx : s.ops x = some (.sub t u)) (hm : Ev.handle r m ∈ s.log) :
    ∃ p ctx', s.ops p = some (.pub ctx' t m) ∧ takers p s.log = [r] ∧
      ∀ (g : Heap) (c : Transport.Choice), ∃ w g', unmarshal g c m.data.toList (targetOf m.typ) = .ok (w, g') ∧
        LikeValue (src p).1 (src p).2 g' w ∧ g'.Extends g := by
  obtain ⟨_, h2, h3, h4⟩ := c49_delivery h
  obtain ⟨p, ch, ctx1, t1, h5, h6⟩ := h4 r m hm
  obtain ⟨_, ctx2, x2, t2, u2, ctx3, m3, h7, h8, h9⟩ := h3 r ch p h5
  rw [hr] at h7; cases h7
  rw [hx] at h8; cases h8
  rw [h6] at h9; cases h9
  have h10 : r ∈ takers p s.log := List.mem_filterMap.mpr ⟨_, h5, by simp⟩
  have h11 := (h2 p).2
  refine ⟨p, ctx1, h6, ?_, fun g c => ?_⟩
  · match hk : takers p s.log, h11 with
    | [], _ => rw [hk] at h10; cases h10
    | [y], _ =>
      rw [hk, List.mem_singleton] at h10
      rw [h10]
  · obtain ⟨h12, h13⟩ := hall p ctx1 m h6
    exact ingested_decode h12 h13 g c

/-- C69: and nothing gets lost while the broker stays open: as long as an ingested value has reached the topic
and no receiver has taken it, a new `Receive` on a live subscription to the topic can get at once a message from
which a value like the oldest one waiting is made. -/
theorem c69_available {cap : Int} {s : St} (h : Reach cap Any s) {t : String} {src : Nat → Heap × Value}
    (hall : ∀ p ctx m, s.ops p = some (.pub ctx t m) →
      Ingested (src p).1 (src p).2 ctx t m ∧ ValidValue (src p).1 (src p).2)
    {p ch ctx x c : Nat} {u : String} {m : Msg} (hn : s.b.crashed = false)
    (hp : Ev.sent p ch ∈ s.log) (ho : s.ops p = some (.pub ctx t m)) (hc : ¬ ClosedAfter p s.log)
    (hu : takers p s.log = [])
    (hr : Ev.ret x .sub ∈ s.log) (hx : s.ops x = some (.sub t u)) (hcx : ¬ ClosedAfter x s.log)
    (ha : ∀ i, s.ops i ≠ some (.unsubscribe x)) :
    ∃ s' p' m' l, sentOn ch s.log = tookFrom ch s.log ++ p' :: l ∧
      exec s [.call (.receive c x), .step s.next .go, .step s.next .msg] = some s' ∧
      handledBy s.next s'.log = [m'] ∧
      ∀ (g : Heap) (c : Transport.Choice), ∃ w g', unmarshal g c m'.data.toList (targetOf m'.typ) = .ok (w, g') ∧
        LikeValue (src p').1 (src p').2 g' w ∧ g'.Extends g := by
  obtain ⟨s', p', ctx', m', l, h1, h2, h3, _, h5⟩ := c65_available h hn hp ho hc hu hr hx hcx ha (c := c)
  obtain ⟨h6, h7⟩ := hall p' ctx' m' h2
  exact ⟨s', p', m', l, h1, h3, h5, fun g c => ingested_decode h6 h7 g c⟩

/-- Messages `Ingest` makes. -/
theorem ingested_message {h : Heap} {v : Value} (ctx : Nat) (t : String) (hv : ValidValue h v) :
    ∃ m, Ingested h v ctx t m := by
  obtain ⟨b, hb, _⟩ := round_trip hv .id
  obtain ⟨m, _, _, _, _, h9, _⟩ := (c59_publishes (newIngester []) ⟨fun _ => jsonMarshaler h .id,
    fun _ _ _ _ => .ok (), Order.id, Order.id⟩ ctx 0 t (typeOf v) (asData v) [withMarshaler (some 0)]).2.1 b hb
  exact ⟨m, newIngester [], ⟨fun _ => jsonMarshaler h .id, fun _ _ _ _ => .ok (), Order.id, Order.id⟩, 0, 0,
    [withMarshaler (some 0)], .id, rfl, rfl, by rw [h9]; exact List.mem_singleton.mpr rfl⟩

-- an entity with an attribute and a link are ingested and the first of them is received
example : ∃ (h : Heap) (m1 m2 : Msg) (src : Nat → Heap × Value),
    let s := run 5 (opening ++ subscribe 2 "t" "u" ++ publish 3 "t" m1 ++ publish 4 "t" m2 ++ receive 5 2 none)
    Reach 5 Any s ∧ (∀ p ctx m, s.ops p = some (.pub ctx "t" m) →
      Ingested (src p).1 (src p).2 ctx "t" m ∧ ValidValue (src p).1 (src p).2) ∧
    s.ops 5 = some (.receive 0 2) ∧ s.ops 2 = some (.sub "t" "u") ∧ Ev.handle 5 m1 ∈ s.log ∧
    takers 4 s.log = [] ∧ (src 3) = (h, .entity ⟨⟨1, "e"⟩, "t", "", 0⟩) ∧ (h.read 0).get? "k" = some "v" := by
  let h : Heap := (Heap.empty.alloc (GoMap.empty.set "k" "v")).2
  have hv : ∀ s, s ∈ ["e", "t", "k", "v", "l"] → Spec.Json.Valid s := by
    intro s hs
    refine (Marshal.san_iff s).mp ?_
    revert s; decide
  have hm : Spec.Json.ValidMap (h.read 0) := by
    intro k v hk
    have : h.read 0 = GoMap.empty.set "k" "v" := by decide
    rw [this, GoMap.get?_set] at hk
    split at hk
    · cases hk; subst k; exact ⟨hv _ (by simp), hv _ (by simp)⟩
    · cases hk
  have v1 : ValidValue h (.entity ⟨⟨1, "e"⟩, "t", "", 0⟩) := ⟨hv _ (by simp), hv _ (by simp), hm⟩
  have v2 : ValidValue h (.link ⟨⟨2, "l"⟩, ⟨1, "e"⟩, ⟨3, "k"⟩, 0⟩) :=
    ⟨hv _ (by simp), hv _ (by simp), hv _ (by simp), hm⟩
  obtain ⟨m1, h1⟩ := ingested_message 0 "t" v1
  obtain ⟨m2, h2⟩ := ingested_message 0 "t" v2
  refine ⟨h, m1, m2, fun p => if p = 3 then (h, .entity ⟨⟨1, "e"⟩, "t", "", 0⟩) else
    (h, .link ⟨⟨2, "l"⟩, ⟨1, "e"⟩, ⟨3, "k"⟩, 0⟩), reach_run (by with_unfolding_all rfl), ?_,
    by with_unfolding_all rfl, by with_unfolding_all rfl, ?_, by with_unfolding_all rfl, rfl, by decide⟩
  · intro p ctx m hp
    rcases p with _ | _ | _ | _ | _ | _ | p
    · cases hp
    · cases hp
    · cases hp
    · cases hp; exact ⟨h1, v1⟩
    · cases hp; exact ⟨h2, v2⟩
    · cases hp
    · cases hp
  · have : (run 5 (opening ++ subscribe 2 "t" "u" ++ publish 3 "t" m1 ++ publish 4 "t" m2 ++
        receive 5 2 none)).log = [.call 0, .opened 0, .ret 0 .nil, .call 2, .ret 2 .sub, .call 3, .sent 3 2,
      .ret 3 .nil, .call 4, .sent 4 2, .ret 4 .nil, .call 5, .took 5 2 3, .handle 5 m1, .handled 5 none,
      .ret 5 .nil] := by with_unfolding_all rfl
    rw [this]; simp

end Netscrape.Props
