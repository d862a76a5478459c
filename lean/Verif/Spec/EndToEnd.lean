import Verif.Model.EndToEnd
import Verif.Spec.Pipeline
import Verif.Spec.Broker

/-!
# Vocabulary: from `Ingest` to a handler that unmarshals
-/

namespace Netscrape.Spec.Pipeline
open Netscrape.Pipeline
open Netscrape.Broker (Msg)
open Netscrape.Marshal (Value Target)

/-- Values of pkg/space. -/
def ValidValue (h : Heap) : Value → Prop
  | .entity e => Json.ValidEntity h e
  | .resource r => Json.ValidResource h r
  | .object x => Json.ValidObject h x
  | .link l => Json.ValidLink h l

/-- The same value, up to the identity of UID objects and attribute sets and up to DOTIDs. -/
def LikeValue (h : Heap) (v : Value) (h' : Heap) (w : Value) : Prop :=
  match v, w with
  | .entity a, .entity b => Space.LikeEntity h a h' b
  | .resource a, .resource b => Space.LikeResource h a h' b
  | .object a, .object b => Space.LikeObject h a h' b
  | .link a, .link b => Space.LikeLink h a h' b
  | _, _ => False

/-- The value as given to `Ingest`. -/
def asData : Value → Data
  | .entity e => .entity e
  | .resource r => .resource r
  | .object x => .object x
  | .link l => .link l

/-- The message type that says what a value is (pkg/broker/type.go:8-17). -/
def typeOf : Value → Int
  | .entity _ => 0
  | .object _ => 1
  | .resource _ => 2
  | .link _ => 3

/-- What a receiver asks `Unmarshal` for, going by the message type. -/
def targetOf (t : Int) : Target :=
  if t = 0 then .entity else if t = 1 then .object else if t = 2 then .resource else if t = 3 then .link
  else .other

/-- Value `v` in memory `h` was given to `Ingest`, with its type and the JSON marshaler, and `Ingest` called
`Pub` with context `ctx`, topic `t` and message `m`. -/
def Ingested (h : Heap) (v : Value) (ctx : Nat) (t : String) (m : Msg) : Prop :=
  ∃ (i : Ingester) (env : Env) (b k : Nat) (opts : List (IngestOpts → IngestOpts)) (o : Marshal.Orders),
    (applyAll opts {}).marshaler = some k ∧ env.marshal k = jsonMarshaler h o ∧
    (b, ctx, t, m) ∈ published (i.ingest env ctx (some b) t (typeOf v) (asData v) opts).2

end Netscrape.Spec.Pipeline
