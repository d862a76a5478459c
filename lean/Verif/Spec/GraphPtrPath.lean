import Verif.Model.GraphPtr

/-!
# Paths over node and edge objects
-/

namespace Netscrape.Spec.GraphPtr
open Netscrape Netscrape.GraphPtr

/-- A path of exactly `n` edges from `u` to `v`, as `Edge` reports them. -/
inductive Path (m : Mem) (g : WG) (u : Uid) : Nat → Uid → Prop
  | here (v : Uid) : u.str = v.str → Path m g u 0 v
  | hop (n : Nat) (v w : Uid) (e : EPtr) : Path m g u n v → (edge m g v w).1 = .ok e → Path m g u (n + 1) w

end Netscrape.Spec.GraphPtr
