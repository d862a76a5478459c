import Verif.Model.AttrsIface

/-!
# What a copy of somebody's attributes should contain

The conversation with an implementation of `attrs.Attrs` is the list of calls made to it with their answers.
-/

namespace Netscrape.Spec.AttrsIface
open Netscrape.Attrs (Impl Asked)

/-- These are the implementation's own answers to these calls, made one after the other. -/
inductive Answers {σ ε : Type} (I : Impl σ ε) : σ → List (Asked ε) → σ → Prop
  | nil (s : σ) : Answers I s [] s
  | keys {s s' t : σ} {r : Res ε (List String)} {l : List (Asked ε)} : I.keys s = (r, s') → Answers I s' l t →
      Answers I s (.keys r :: l) t
  | get {s s' t : σ} {k : String} {r : Res ε String} {l : List (Asked ε)} : I.get k s = (r, s') →
      Answers I s' l t → Answers I s (.get k r :: l) t

/-- Everything was read: the keys, and then for each of them, in order, its value. -/
def ReadAll {ε : Type} (kvs : List (String × String)) (l : List (Asked ε)) : Prop :=
  l = .keys (.ok (kvs.map Prod.fst)) :: kvs.map fun x => .get x.1 (.ok x.2)

/-- The value read last for a key. -/
def lastRead : List (String × String) → String → Option String
  | [], _ => none
  | (k', v) :: r, k => (lastRead r k).or (if k' = k then some v else none)

def IsOk {ε : Type} : Asked ε → Prop
  | .keys (.ok _) => True
  | .get _ (.ok _) => True
  | _ => False

def IsErr {ε : Type} (e : ε) : Asked ε → Prop
  | .keys (.err e') => e' = e
  | .get _ (.err e') => e' = e
  | _ => False

def IsPanic {ε : Type} : Asked ε → Prop
  | .keys .panic => True
  | .get _ .panic => True
  | _ => False

/-- The last answer was of this kind, all before were fine. -/
def Ended {ε : Type} (kind : Asked ε → Prop) (l : List (Asked ε)) : Prop :=
  ∃ pre x, l = pre ++ [x] ∧ kind x ∧ ∀ y ∈ pre, IsOk y

end Netscrape.Spec.AttrsIface
