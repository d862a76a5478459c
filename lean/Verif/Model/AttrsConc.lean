import Verif.Go.RWMutex
import Verif.Model.Attrs

/-!
# Attribute sets used by several goroutines

pkg/attrs/memory has no mutex: the methods access the map directly. A location is an attribute set. Go may abort
the process when it notices a map being read and written at the same time; the model lets every single access
happen at once instead, as in an implementation that guards each access by itself. The range loop of `Keys` is one
access.
-/

namespace Netscrape.Attrs
open Netscrape.Conc

/-- Calls on attribute sets. -/
inductive COp where
  | get (r : Ref) (k : String)
  | set (r : Ref) (k v : String)
  | keys (o : Order (String × String)) (r : Ref)
  /-- `NewCopyFrom`, `ToMap`, `DOTAttrs`, `Node.Attributes`, `Edge.Attributes`: all read the keys, then each value. -/
  | copy (o : Order (String × String)) (r : Ref)

/-- What they return; `pairs` are the keys and values a copying loop has read, in order. -/
inductive COut where
  | str (s : String)
  | unit
  | keys (l : List String)
  | pairs (l : List (String × String))
  | panic
deriving DecidableEq

abbrev CProg := Prog Empty Ref Heap COut

/-- `Attrs.Keys` (pkg/attrs/memory/memory.go:53-63): `len(a)` at line 54, the loop at lines 57-60. More keys than
there were at line 54 make `keys[i]` panic; fewer leave empty strings. -/
def keysThen (o : Order (String × String)) (r : Ref) (k : List String → CProg) : CProg :=
  .read r fun h => .read r fun h' =>
    if (h.read r).size < (h'.read r).size then .ret .panic
    else k (Attrs.keys h' o r ++ List.replicate ((h.read r).size - (h'.read r).size) "")

/-- The loop of a copy (pkg/attrs/memory/memory.go:30-35, pkg/attrs/attrs.go:48-53, pkg/attrs/memory/dot.go:19-29):
`Get` for each key. -/
def getEach (r : Ref) : List String → List (String × String) → CProg
  | [], acc => .ret (.pairs acc)
  | k :: ks, acc => .read r fun h => getEach r ks (acc ++ [(k, Attrs.get h r k)])

/-- The bodies: `Get` (pkg/attrs/memory/memory.go:67-69), `Set` (72-75), `Keys` (53-63), `NewCopyFrom` (21-39). -/
def cprog : COp → CProg
  | .get r k => .read r fun h => .ret (.str (Attrs.get h r k))
  | .set r k v => .write r (fun h => Attrs.set h r k v) fun _ => .ret .unit
  | .keys o r => keysThen o r fun l => .ret (.keys l)
  | .copy o r => keysThen o r fun l => getEach r l []

/-- The calls made one at a time. -/
def cseq (h : Heap) (op : COp) : Heap × COut := (cprog op).eval h

abbrev CCfg := Cfg Empty Ref Heap COp COut

end Netscrape.Attrs
