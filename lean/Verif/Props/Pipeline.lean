import Verif.Spec.Pipeline
import Verif.Lemmas.Marshal

/-!
# Ingester, digester, runner, message types
-/

namespace Netscrape.Props
open Netscrape.Pipeline Netscrape.Spec.Pipeline
open Netscrape.Broker (Msg)
open Netscrape.Json (Bytes render parse parse_render)
open Netscrape.Marshal (san_iff sanAttrs_valid toEntity_entityJ toResource_resourceJ toObject_objectJ
  toLink_linkJ noNum_entityJ noNum_resourceJ noNum_objectJ noNum_linkJ)

/-! ## C59 -/

/-- C59, the part about publishing. With a marshaler: if it fails, `Ingest` returns its error and publishes
nothing; otherwise it publishes exactly one message, on the given topic, with the given type and the
marshaler's output, and returns what the broker returns. The marshaler is called once. Without a marshaler
the same holds for `json.Marshal`. -/
theorem c59_publishes (i : Ingester) (env : Env) (ctx b : Nat) (topic : String) (typ : Int) (d : Data)
    (opts : List (IngestOpts → IngestOpts)) :
    let out := i.ingest env ctx (some b) topic typ d opts
    let enc := match (applyAll opts {}).marshaler with
      | some m => env.marshal m d
      | none => jsonMarshal env.order env.order2 d
    (∀ e, enc = .err e → out.1 = .err e ∧ published out.2 = []) ∧
    (∀ x, enc = .ok x → ∃ m, m.typ = typ ∧ m.data.toList = x ∧ m.uid = "" ∧ (∀ k, m.attrs.get? k = none) ∧
      published out.2 = [(b, ctx, topic, m)] ∧ out.1 = env.pub b ctx topic m) ∧
    marshalled out.2 = match (applyAll opts {}).marshaler with
      | some m => [(m, d)]
      | none => [] := by
  cases hm : (applyAll opts {}).marshaler with
  | none =>
    simp only
    cases hj : jsonMarshal env.order env.order2 d with
    | ok x =>
      have ho : i.ingest env ctx (some b) topic typ d opts =
          (env.pub b ctx topic (message typ x), [.pub b ctx topic (message typ x)]) := by
        unfold Ingester.ingest; rw [hm]; dsimp only; rw [hj]; rfl
      rw [ho]
      refine ⟨nofun, ?_, rfl⟩
      rintro y ⟨⟩
      exact ⟨message typ x, rfl, String.toList_ofList, rfl, fun _ => rfl, rfl, rfl⟩
    | err e =>
      have ho : i.ingest env ctx (some b) topic typ d opts = (.err e, []) := by
        unfold Ingester.ingest; rw [hm]; dsimp only; rw [hj]
      rw [ho]
      refine ⟨?_, nofun, rfl⟩
      rintro y ⟨⟩
      exact ⟨rfl, rfl⟩
    | panic =>
      have ho : i.ingest env ctx (some b) topic typ d opts = (.panic, []) := by
        unfold Ingester.ingest; rw [hm]; dsimp only; rw [hj]
      rw [ho]
      exact ⟨nofun, nofun, rfl⟩
  | some m =>
    simp only
    cases hj : env.marshal m d with
    | ok x =>
      have ho : i.ingest env ctx (some b) topic typ d opts =
          (env.pub b ctx topic (message typ x), [.marshal m d, .pub b ctx topic (message typ x)]) := by
        unfold Ingester.ingest; rw [hm]; dsimp only; rw [hj]; rfl
      rw [ho]
      refine ⟨nofun, ?_, rfl⟩
      rintro y ⟨⟩
      exact ⟨message typ x, rfl, String.toList_ofList, rfl, fun _ => rfl, rfl, rfl⟩
    | err e =>
      have ho : i.ingest env ctx (some b) topic typ d opts = (.err e, [.marshal m d]) := by
        unfold Ingester.ingest; rw [hm]; dsimp only; rw [hj]
      rw [ho]
      refine ⟨?_, nofun, rfl⟩
      rintro y ⟨⟩
      exact ⟨rfl, rfl⟩
    | panic =>
      have ho : i.ingest env ctx (some b) topic typ d opts = (.panic, [.marshal m d]) := by
        unfold Ingester.ingest; rw [hm]; dsimp only; rw [hj]
      rw [ho]
      exact ⟨nofun, nofun, rfl⟩

/-- C59, the part about the default encoding: whoever receives the message can get the data back. -/
def DefaultStatement : Prop := ∃ decode : Msg → Option Data, ∀ (i : Ingester) (env : Env) (b ctx : Nat) (topic : String)
  (typ : Int) (d : Data) (m : Msg), (b, ctx, topic, m) ∈ published (i.ingest env ctx (some b) topic typ d []).2 →
  decode m = some d

/-- C59 does not hold for the default encoding: entities, which have no exported fields, all become `{}`. -/
theorem c59_default_violated : ¬ DefaultStatement := by
  rintro ⟨decode, h⟩
  let env : Env := ⟨fun _ _ => .ok [], fun _ _ _ _ => .ok (), Order.id, Order.id⟩
  have h1 := h (newIngester []) env 0 0 "t" 0 (.entity ⟨⟨1, "a"⟩, "x", "a", 0⟩) (message 0 ['{', '}'])
    (List.mem_singleton.mpr rfl)
  have h2 := h (newIngester []) env 0 0 "t" 0 (.entity ⟨⟨2, "b"⟩, "y", "b", 0⟩) (message 0 ['{', '}'])
    (List.mem_singleton.mpr rfl)
  rw [h1] at h2
  cases h2

private theorem same_attrs {m : AttrMap} (hv : Spec.Json.ValidMap m) (o : Order (String × String)) :
    Spec.Space.SameMap m (Marshal.sanAttrs o m) := fun k => (sanAttrs_valid o m hv k).symm

private theorem same_entity {e : Transport.Entity} (h : ValidTEntity e) (o : Order (String × String)) :
    SameEntity e (Marshal.sanEntity o e) :=
  ⟨((san_iff _).mpr h.1).symm, ((san_iff _).mpr h.2.1).symm, same_attrs h.2.2 o⟩

private theorem same_resource {r : Transport.Resource} (h : ValidTResource r) (o : Order (String × String)) :
    SameResource r (Marshal.sanResource o r) :=
  ⟨same_entity h.1 o, ((san_iff _).mpr h.2.1).symm, ((san_iff _).mpr h.2.2.1).symm,
    ((san_iff _).mpr h.2.2.2.1).symm, ((san_iff _).mpr h.2.2.2.2).symm, rfl⟩

/-- C59: what does hold for the default encoding. Values of the transport types whose strings are valid UTF-8
arrive unchanged. -/
theorem c59_default_partial (i : Ingester) (env : Env) (ctx b : Nat) (topic : String) (typ : Int) :
    (∀ e, ValidTEntity e → ∃ m e', published (i.ingest env ctx (some b) topic typ (.tEntity e) []).2 =
      [(b, ctx, topic, m)] ∧ decodeEntity m = some e' ∧ SameEntity e e') ∧
    (∀ e, ValidTResource e → ∃ m e', published (i.ingest env ctx (some b) topic typ (.tResource e) []).2 =
      [(b, ctx, topic, m)] ∧ decodeResource m = some e' ∧ SameResource e e') ∧
    (∀ e, ValidTObject e → ∃ m e', published (i.ingest env ctx (some b) topic typ (.tObject e) []).2 =
      [(b, ctx, topic, m)] ∧ decodeObject m = some e' ∧ SameObject e e') ∧
    (∀ e, ValidTLink e → ∃ m e', published (i.ingest env ctx (some b) topic typ (.tLink e) []).2 =
      [(b, ctx, topic, m)] ∧ decodeLink m = some e' ∧ SameLink e e') := by
  refine ⟨fun e h => ?_, fun e h => ?_, fun e h => ?_, fun e h => ?_⟩
  · refine ⟨_, _, rfl, ?_, same_entity h env.order⟩
    simp only [decodeEntity, message, String.toList_ofList, parse_render _ (noNum_entityJ _ _), Option.bind,
      toEntity_entityJ]
  · refine ⟨_, _, rfl, ?_, same_resource h env.order⟩
    simp only [decodeResource, message, String.toList_ofList, parse_render _ (noNum_resourceJ _ _), Option.bind,
      toResource_resourceJ]
  · refine ⟨_, Marshal.sanObject env.order env.order2 e, rfl, ?_, ?_⟩
    · simp only [decodeObject, message, String.toList_ofList, parse_render _ (noNum_objectJ _ _ _), Option.bind,
        toObject_objectJ]
    · obtain ⟨h1, h2, h3, h4⟩ := h
      refine ⟨same_entity h1 _, ((san_iff _).mpr h2).symm, ((san_iff _).mpr h3).symm, ?_⟩
      obtain ⟨en, name, ns, res⟩ := e
      cases res with
      | none => trivial
      | some r => exact same_resource (h4 r rfl) _
  · refine ⟨_, Marshal.sanLink env.order e, rfl, ?_, ?_⟩
    · simp only [decodeLink, message, String.toList_ofList, parse_render _ (noNum_linkJ _ _), Option.bind,
        toLink_linkJ]
    · obtain ⟨h1, h2, h3, h4⟩ := h
      exact ⟨((san_iff _).mpr h1).symm, ((san_iff _).mpr h2).symm, ((san_iff _).mpr h3).symm, same_attrs h4 _⟩

-- a marshaler that works for one value and fails for another; the broker refuses one topic
example :
    let env : Env := ⟨fun _ d => match d with | .bool _ => .ok ['x'] | _ => .err (.env 3),
      fun _ _ t _ => if t = "t" then .ok () else .err (.env 4), Order.id, Order.id⟩
    let i := newIngester []
    (i.ingest env 0 (some 5) "t" 2 (.bool true) [withMarshaler (some 1)]).1 = .ok () ∧
    published (i.ingest env 0 (some 5) "t" 2 (.bool true) [withMarshaler (some 1)]).2 =
      [(5, 0, "t", ⟨"", 2, "x", GoMap.empty⟩)] ∧
    (i.ingest env 0 (some 5) "u" 2 (.bool true) [withMarshaler (some 1)]).1 = .err (.env 4) ∧
    (i.ingest env 0 (some 5) "t" 2 .nil [withMarshaler (some 1)]).1 = .err (.env 3) ∧
    (i.ingest env 0 (some 5) "t" 2 .func []).1 = .err .json := by
  refine ⟨rfl, rfl, rfl, rfl, rfl⟩

-- a valid object with a resource and attributes
example : ValidTObject ⟨⟨"u", "t", GoMap.empty.set "k" "v"⟩, "n", "s",
    some ⟨⟨"r", "t", GoMap.empty⟩, "n", "g", "v", "k", true⟩⟩ := by
  have hv : ∀ s, s ∈ ["u", "t", "k", "v", "n", "s", "r", "g"] → Spec.Json.Valid s := by
    intro s hs
    refine (san_iff s).mp ?_
    revert s; decide
  refine ⟨⟨hv _ (by simp), hv _ (by simp), ?_⟩, hv _ (by simp), hv _ (by simp), ?_⟩
  · intro k v h
    rw [GoMap.get?_set] at h
    split at h
    · cases h; subst k; exact ⟨hv _ (by simp), hv _ (by simp)⟩
    · cases h
  · rintro r ⟨⟩
    exact ⟨⟨hv _ (by simp), hv _ (by simp), nofun⟩, hv _ (by simp), hv _ (by simp), hv _ (by simp), hv _ (by simp)⟩

/-! ## C60 -/

/-- C60 for the ingester: options given to the constructor act as defaults for those of the call. -/
def IngestOptionsStatement : Prop := ∀ (env : Env) ctx b topic typ d o c,
  (newIngester o).ingest env ctx b topic typ d c = (newIngester []).ingest env ctx b topic typ d (o ++ c)

/-- C60 for the digester. -/
def DigestOptionsStatement : Prop := ∀ recv o c n,
  (newDigester o).digest recv c n = (newDigester []).digest recv (o ++ c) n

/-- C60 for the runner: the scraper is given the options of the constructor and the call. -/
def RunOptionsStatement : Prop := ∀ scrape ctx p s o c,
  ((newRunner o).run scrape ctx p (some s) c).2 = [⟨s, ctx, p, applyAll (o ++ c) {}⟩]

/-- C60 does not hold: `Ingest` ignores the marshaler given to `NewIngester`. -/
theorem c60_ingest_violated : ¬ IngestOptionsStatement := by
  intro h
  have := congrArg Prod.fst (h ⟨fun _ _ => .err (.env 0), fun _ _ _ _ => .ok (), Order.id, Order.id⟩ 0 (some 0)
    "t" 0 .nil [withMarshaler (some 1)] [])
  exact absurd this (show Res.ok () ≠ Res.err (Err.env 0) from nofun)

/-- C60 does not hold: `Digest` ignores the handler given to `NewDigester`, and dumps to standard output. -/
theorem c60_digest_violated : ¬ DigestOptionsStatement := by
  intro h
  have := h (fun x _ => if x = .dumpData then some (.env 0) else none) [withHandler (some 1)] [] 1
  exact absurd this (by decide)

/-- C60 does not hold: `Run` ignores the options given to `NewRunner`. -/
theorem c60_run_violated : ¬ RunOptionsStatement := by
  intro h
  have := h (fun _ => .ok ()) 0 none 0 [withBroker (some 1)] []
  exact absurd this (by decide)

/-- C60 for `Run` alone: the scraper is given the options of the call. -/
def RunCallStatement : Prop := ∀ scrape ctx p s c,
  ((newRunner []).run scrape ctx p (some s) c).2 = [⟨s, ctx, p, applyAll c {}⟩]

/-- C60: not even that holds; `Run` passes on the broker only, and drops the store and the marshaler. -/
theorem c60_run_call_violated : ¬ RunCallStatement := by
  intro h
  have := h (fun _ => .ok ()) 0 none 0 [withStore (some 1), withRunMarshaler (some 2)]
  exact absurd this (by decide)

/-- C60: what does hold. Options of the call are honoured, the last one winning, whatever was given to the
constructor: the marshaler by `Ingest`, the handler by `Digest`, the broker by `Run`, which calls the scraper
exactly once and returns its result. -/
theorem c60_call_options_partial :
    (∀ o (env : Env) ctx b topic typ d c m, marshalled ((newIngester o).ingest env ctx b topic typ d
      (c ++ [withMarshaler (some m)])).2 = [(m, d)]) ∧
    (∀ o recv c h n, (newDigester o).digest recv (c ++ [withHandler (some h)]) n = handle recv (.user h) n) ∧
    (∀ o scrape ctx p s c b, ∃ x, (newRunner o).run scrape ctx p (some s) (c ++ [withBroker b]) = (scrape x, [x]) ∧
      x.scraper = s ∧ x.ctx = ctx ∧ x.plan = p ∧ x.opts.broker = b) := by
  have happ : ∀ {α : Type} (c : List (α → α)) (f : α → α) (z : α), applyAll (c ++ [f]) z = f (applyAll c z) := by
    intro α c f z; simp [applyAll]
  refine ⟨?_, ?_, ?_⟩
  · intro o env ctx b topic typ d c m
    unfold Ingester.ingest
    rw [happ]
    simp only [withMarshaler]
    cases env.marshal m d with
    | ok x => cases b <;> rfl
    | err e => rfl
    | panic => rfl
  · intro o recv c h n
    unfold Digester.digest Digester.handler
    rw [happ]
    rfl
  · intro o scrape ctx p s c b
    refine ⟨_, rfl, rfl, rfl, rfl, ?_⟩
    rw [happ]
    rfl

/-- C60, `Run`'s other options: `WithStore` and `WithMarshaler` set the store and the marshaler, the last one winning;
but `Run` passes neither on, wherever they are given: the options of the scraper name neither. -/
theorem c60_run_dropped_partial :
    (∀ c v, (applyAll (c ++ [withStore v]) ({} : RunOpts)).store = v) ∧
    (∀ c v, (applyAll (c ++ [withRunMarshaler v]) ({} : RunOpts)).marshaler = v) ∧
    ∀ o scrape ctx p s c, ∀ x ∈ ((newRunner o).run scrape ctx p s c).2, x.opts.store = none ∧ x.opts.marshaler = none := by
  refine ⟨fun c v => by simp [applyAll, withStore], fun c v => by simp [applyAll, withRunMarshaler], ?_⟩
  intro o scrape ctx p s c x hx
  cases s with
  | none => exact absurd hx (List.not_mem_nil)
  | some s =>
    rw [List.mem_singleton.mp hx]
    exact ⟨rfl, rfl⟩

example : ((newRunner [withStore (some 1)]).run (fun _ => .ok ()) 0 none (some 5) [withStore (some 2), withBroker (some 3),
    withRunMarshaler (some 4)]).2 = [⟨5, 0, none, ⟨none, some 3, none⟩⟩] := by decide

-- the last option wins
example : marshalled ((newIngester [withMarshaler (some 7)]).ingest
    ⟨fun _ _ => .ok [], fun _ _ _ _ => .ok (), Order.id, Order.id⟩ 0 (some 0) "t" 0 .nil
    ([withMarshaler (some 8)] ++ [withMarshaler (some 9)])).2 = [(9, .nil)] := rfl

/-! ## C62 -/

/-- C62: the four named types have different names, none of them `Unknown`, and everything else is
`Unknown`. -/
theorem c62_type_names (s t : Int) :
    (Named s → typeString s = typeString t → s = t) ∧ (¬ Named s → typeString s = "Unknown") ∧
    (typeString s = "Unknown" → ¬ Named s) ∧
    typeString 0 = "Entity" ∧ typeString 1 = "Object" ∧ typeString 2 = "Resource" ∧ typeString 3 = "Link" := by
  have other : ∀ t, ¬ Named t → typeString t = "Unknown" := by
    intro t h
    unfold Named at h
    unfold typeString
    rw [if_neg (by omega), if_neg (by omega), if_neg (by omega), if_neg (by omega)]
  refine ⟨?_, other s, ?_, rfl, rfl, rfl, rfl⟩
  · intro hs he
    by_cases ht : Named t
    · rcases hs with rfl | rfl | rfl | rfl <;> rcases ht with rfl | rfl | rfl | rfl <;>
        first | rfl | exact absurd he (by decide)
    · rw [other t ht] at he
      rcases hs with rfl | rfl | rfl | rfl <;> exact absurd he (by decide)
  · rintro h (rfl | rfl | rfl | rfl) <;> exact absurd h (by decide)

example : Named 2 ∧ ¬ Named 4 ∧ ¬ Named (-1) ∧ typeString 17 = "Unknown" :=
  ⟨.inr (.inr (.inl rfl)), by unfold Named; decide, by unfold Named; decide, rfl⟩

end Netscrape.Props
