import Verif.Go.Basic

/-!
# Model of pkg/attrs and pkg/attrs/memory
-/

namespace Netscrape.Attrs

/-- `New` (pkg/attrs/memory/memory.go:14-18): a new, empty attribute set. -/
def new (h : Heap) : Ref × Heap := h.alloc GoMap.empty

/-- `Attrs.Keys` (pkg/attrs/memory/memory.go:53-63): the keys, in the iteration order `o`. -/
def keys (h : Heap) (o : Order (String × String)) (a : Ref) : List String :=
  (o.run (h.read a).entries).map Prod.fst

/-- `Attrs.Get` (pkg/attrs/memory/memory.go:67-69): the value, or the empty string. -/
def get (h : Heap) (a : Ref) (k : String) : String := ((h.read a).get? k).getD ""

/-- `Attrs.Set` (pkg/attrs/memory/memory.go:72-75). -/
def set (h : Heap) (a : Ref) (k v : String) : Heap := h.write a ((h.read a).set k v)

/-- `NewFromMap` (pkg/attrs/memory/memory.go:42-50). A nil map ranges over nothing, like an empty
one. -/
def newFromMap (h : Heap) (o : Order (String × String)) (m : GoMap String String) : Ref × Heap :=
  h.alloc ((o.run m.entries).foldl (fun acc e => acc.set e.1 e.2) GoMap.empty)

/-- The loop shared by `NewCopyFrom` (pkg/attrs/memory/memory.go:29-36) and `attrs.ToMap`
(pkg/attrs/attrs.go:48-53): `m[k] = a.Get(k)` for each of `a`'s keys. -/
def copyLoop (h : Heap) (o : Order (String × String)) (a : Ref) : GoMap String String :=
  (keys h o a).foldl (fun acc k => acc.set k (get h a k)) GoMap.empty

/-- `NewCopyFrom` (pkg/attrs/memory/memory.go:21-39), for a non-nil `a` of the memory
implementation, whose `Keys` and `Get` return no error. (For a nil `a` the code panics at line 24.) -/
def newCopyFrom (h : Heap) (o : Order (String × String)) (a : Ref) : Ref × Heap :=
  h.alloc (copyLoop h o a)

/-- `attrs.ToMap` (pkg/attrs/attrs.go:40-55). -/
def toMap (h : Heap) (o : Order (String × String)) (a : Ref) : GoMap String String :=
  copyLoop h o a

/-- `DOTAttrs` (pkg/attrs/memory/dot.go:11-32), and the identical loops of `Node.Attributes`
(pkg/graph/memory/node.go:74-96) and `Edge.Attributes` (pkg/graph/memory/edge.go:121-143):
key/value pairs in iteration order. -/
def dotAttrs (h : Heap) (o : Order (String × String)) (a : Ref) : List (String × String) :=
  (keys h o a).map (fun k => (k, get h a k))

/-- One `Set` call on one attribute set. -/
structure Write where
  ref : Ref
  key : String
  val : String

/-- A history of `Set` calls, oldest first, on any attribute sets. -/
def run (h : Heap) (ws : List Write) : Heap := ws.foldl (fun h w => set h w.ref w.key w.val) h

end Netscrape.Attrs
