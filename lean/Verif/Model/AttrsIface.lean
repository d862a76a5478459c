import Verif.Model.Attrs

/-!
# Copying attributes of any implementation of `attrs.Attrs`

pkg/attrs/attrs.go:24-31 is an interface; callers may pass their own implementations, whose methods have state and
may fail or panic. A nil interface is `none`; calling a method on it panics.
-/

namespace Netscrape.Attrs

/-- An implementation of the reading half of `attrs.Attrs` (pkg/attrs/attrs.go:24-31). `σ` is whatever its answers
depend on. -/
structure Impl (σ ε : Type) where
  keys : σ → Res ε (List String) × σ
  get : String → σ → Res ε String × σ

/-- A call made to the implementation, with its answer. -/
inductive Asked (ε : Type) where
  | keys (r : Res ε (List String))
  | get (k : String) (r : Res ε String)
deriving DecidableEq

/-- The result, what became of the implementation, and the calls made to it. -/
structure Ran (σ ε α : Type) where
  res : Res ε α
  st : σ
  log : List (Asked ε)

/-- `for _, k := range keys { m[k], err = a.Get(ctx, k); if err != nil { return nil, err } }`
(pkg/attrs/memory/memory.go:30-35, pkg/attrs/attrs.go:48-53). -/
def copyKeys {σ ε : Type} (I : Impl σ ε) : List String → GoMap String String → σ → List (Asked ε) →
    Ran σ ε (GoMap String String)
  | [], m, s, l => ⟨.ok m, s, l⟩
  | k :: ks, m, s, l =>
    match I.get k s with
    | (.ok v, s') => copyKeys I ks (m.set k v) s' (l ++ [.get k (.ok v)])
    | (.err e, s') => ⟨.err e, s', l ++ [.get k (.err e)]⟩
    | (.panic, s') => ⟨.panic, s', l ++ [.get k .panic]⟩

/-- `attrs.ToMap` (pkg/attrs/attrs.go:40-55). -/
def toMapOf {σ ε : Type} (I : Impl σ ε) (s : σ) : Ran σ ε (GoMap String String) :=
  match I.keys s with
  | (.ok ks, s') => copyKeys I ks GoMap.empty s' [.keys (.ok ks)]
  | (.err e, s') => ⟨.err e, s', [.keys (.err e)]⟩
  | (.panic, s') => ⟨.panic, s', [.keys .panic]⟩

/-- `NewCopyFrom` (pkg/attrs/memory/memory.go:21-39). The keys are asked for (:24) before `a` is compared with nil
(:29). The body is that of `ToMap`, its result is a new attribute set. -/
def newCopyFromOf {σ ε : Type} (h : Heap) (a : Option (Impl σ ε)) (s : σ) : Ran σ ε Ref × Heap :=
  match a with
  | none => (⟨.panic, s, []⟩, h)
  | some I =>
    match toMapOf I s with
    | ⟨.ok m, s', l⟩ => (⟨.ok (h.alloc m).1, s', l⟩, (h.alloc m).2)
    | ⟨.err e, s', l⟩ => (⟨.err e, s', l⟩, h)
    | ⟨.panic, s', l⟩ => (⟨.panic, s', l⟩, h)

/-- The loop of `DOTAttrs` (pkg/attrs/memory/dot.go:19-30): `attrs[i] = {k, v}`, where `i` counts the turns; an error
ends it with a nil slice, that is, an empty one. -/
def dotKeys {σ ε : Type} (I : Impl σ ε) : List String → List (String × String) → σ → List (Asked ε) →
    Ran σ ε (List (String × String))
  | [], r, s, l => ⟨.ok r, s, l⟩
  | k :: ks, r, s, l =>
    match I.get k s with
    | (.ok v, s') => dotKeys I ks (r ++ [(k, v)]) s' (l ++ [.get k (.ok v)])
    | (.err e, s') => ⟨.ok [], s', l ++ [.get k (.err e)]⟩
    | (.panic, s') => ⟨.panic, s', l ++ [.get k .panic]⟩

/-- `DOTAttrs` (pkg/attrs/memory/dot.go:11-32), and with the same body `Node.Attributes`
(pkg/graph/memory/node.go:74-96) and `Edge.Attributes` (pkg/graph/memory/edge.go:121-143). -/
def dotAttrsOf {σ ε : Type} (I : Impl σ ε) (s : σ) : Ran σ ε (List (String × String)) :=
  match I.keys s with
  | (.ok ks, s') => dotKeys I ks [] s' [.keys (.ok ks)]
  | (.err e, s') => ⟨.ok [], s', [.keys (.err e)]⟩
  | (.panic, s') => ⟨.panic, s', [.keys .panic]⟩

/-- `*memory.Attrs` (pkg/attrs/memory/memory.go:53-69) as an implementation; nothing else happens meanwhile. -/
def memImpl (ε : Type) (h : Heap) (o : Order (String × String)) (a : Ref) : Impl Unit ε :=
  ⟨fun _ => (.ok (keys h o a), ()), fun k _ => (.ok (get h a k), ())⟩

end Netscrape.Attrs
