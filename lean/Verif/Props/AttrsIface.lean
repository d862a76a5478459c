import Verif.Lemmas.AttrsIface

/-!
# C79: copies of attributes of any implementation
-/

namespace Netscrape.Props
open Netscrape Attrs
open Netscrape.Spec.AttrsIface

/-- The part of **C79** about no source at all: a copy of nil attributes is a new, empty attribute set. -/
def CopyOfNil : Prop := ∀ (σ ε : Type) (h : Heap) (s : σ),
  ∃ c, (newCopyFromOf (ε := ε) h none s).1.res = .ok c ∧ ¬ h.Valid c ∧
    (newCopyFromOf (ε := ε) h none s).2.read c = GoMap.empty

/-- **C79** fails for nil attributes: `NewCopyFrom(ctx, nil)` panics, although the code tests for nil (after having
called `Keys`). -/
theorem c79_nil_violated : ¬ CopyOfNil := by
  intro H
  obtain ⟨c, hc, _⟩ := H Unit Unit Heap.empty ()
  cases hc

/-- **C79** (`NewCopyFrom`, not nil; missing: nil). Whatever the implementation does, `NewCopyFrom` asks for the keys
once and then for the value of each, in order, and stops at the first error or panic. If there is none, the result is
a new attribute set with exactly the keys listed, each with the value last read for it. Otherwise it fails in the
same way, and no attribute set has been made. No other attribute set changes. -/
theorem c79_copy_partial {σ ε : Type} (I : Impl σ ε) (h : Heap) (s : σ) :
    let r := (newCopyFromOf h (some I) s).1
    let h' := (newCopyFromOf h (some I) s).2
    Answers I s r.log r.st ∧ h'.Extends h ∧
    ((∃ kvs c, ReadAll kvs r.log ∧ r.res = .ok c ∧ ¬ h.Valid c ∧ h'.Valid c ∧
        ∀ k, (h'.read c).get? k = lastRead kvs k) ∨
     (∃ e, Ended (IsErr e) r.log ∧ r.res = .err e ∧ h' = h) ∨
     (Ended IsPanic r.log ∧ r.res = .panic ∧ h' = h)) := by
  obtain ⟨ha, hr⟩ := toMapOf_result I s
  dsimp only
  rw [newCopyFromOf]
  rcases ht : toMapOf I s with ⟨r, s', l⟩
  rw [ht] at ha hr
  rcases hr with ⟨kvs, m, hl, hm, hd⟩ | ⟨e, hl, hm⟩ | ⟨hl, hm⟩
  all_goals (dsimp only at hm; subst hm)
  · exact ⟨ha, Heap.Extends.alloc _ _, .inl ⟨kvs, _, hl, rfl, Heap.alloc_fresh _ _, Heap.valid_alloc_new _ _, fun k => by
      dsimp only; rw [Heap.read_alloc_new]; exact hd k⟩⟩
  · exact ⟨ha, Heap.Extends.refl _, .inr (.inl ⟨e, hl, rfl, rfl⟩)⟩
  · exact ⟨ha, Heap.Extends.refl _, .inr (.inr ⟨hl, rfl, rfl⟩)⟩

/-- **C79** (`ToMap`). The same for the map `ToMap` returns. -/
theorem c79_toMap {σ ε : Type} (I : Impl σ ε) (s : σ) :
    let r := toMapOf I s
    Answers I s r.log r.st ∧
    ((∃ kvs m, ReadAll kvs r.log ∧ r.res = .ok m ∧ ∀ k, m.get? k = lastRead kvs k) ∨
     (∃ e, Ended (IsErr e) r.log ∧ r.res = .err e) ∨
     (Ended IsPanic r.log ∧ r.res = .panic)) := toMapOf_result I s

/-- **C79** (DOT attributes of attribute sets, nodes and edges). The list has one pair per key listed, in that order,
with the value read for it; if the implementation reports an error the list is empty. -/
theorem c79_dotAttrs {σ ε : Type} (I : Impl σ ε) (s : σ) :
    let r := dotAttrsOf I s
    Answers I s r.log r.st ∧
    ((∃ kvs, ReadAll kvs r.log ∧ r.res = .ok kvs) ∨
     (∃ e, Ended (IsErr e) r.log ∧ r.res = .ok []) ∨
     (Ended IsPanic r.log ∧ r.res = .panic)) := by
  obtain ⟨ha, ⟨kvs, a, h1, h2, rfl⟩ | h2 | h2⟩ := dotAttrsOf_result I s
  · exact ⟨ha, .inl ⟨_, h1, h2⟩⟩
  · exact ⟨ha, .inr (.inl h2)⟩
  · exact ⟨ha, .inr (.inr h2)⟩

/-- An implementation whose answers change with every call, lists a key twice, and fails from call `n` on. -/
private def moody (n : Nat) : Impl Nat String :=
  ⟨fun i => (.ok ["x", "y", "x"], i + 1),
   fun k i => (if i < n then .ok (k ++ toString i) else .err "gone", i + 1)⟩

/-- Non-vacuity of C79: everything is read, the second value of `x` wins. -/
example : (newCopyFromOf Heap.empty (some (moody 10)) 0).1.log =
      [.keys (.ok ["x", "y", "x"]), .get "x" (.ok "x1"), .get "y" (.ok "y2"), .get "x" (.ok "x3")] ∧
    (newCopyFromOf Heap.empty (some (moody 10)) 0).1.res = .ok 0 ∧
    ((newCopyFromOf Heap.empty (some (moody 10)) 0).2.read 0).get? "x" = some "x3" ∧
    ((newCopyFromOf Heap.empty (some (moody 10)) 0).2.read 0).get? "y" = some "y2" ∧
    (dotAttrsOf (moody 10) 0).res = .ok [("x", "x1"), ("y", "y2"), ("x", "x3")] := by decide +kernel

/-- Non-vacuity of C79: the second value cannot be read. -/
example : (toMapOf (moody 2) 0).log =
      [.keys (.ok ["x", "y", "x"]), .get "x" (.ok "x1"), .get "y" (.err "gone")] ∧
    (toMapOf (moody 2) 0).res = .err "gone" ∧ (dotAttrsOf (moody 2) 0).res = .ok [] ∧
    (newCopyFromOf Heap.empty (some (moody 2)) 0).1.res = .err "gone" := by decide +kernel

/-- The in-memory implementation is an instance: what C02 and C03 are about is what happens here. -/
theorem c79_memory (ε : Type) (h : Heap) (o : Order (String × String)) (a : Ref) :
    (newCopyFromOf h (some (memImpl ε h o a)) ()).1.res = .ok (newCopyFrom h o a).1 ∧
    (newCopyFromOf h (some (memImpl ε h o a)) ()).2 = (newCopyFrom h o a).2 ∧
    (toMapOf (memImpl ε h o a) ()).res = .ok (toMap h o a) ∧
    (dotAttrsOf (memImpl ε h o a) ()).res = .ok (dotAttrs h o a) := by
  have hc := newCopyFromOf_mem (ε := ε) h o a
  exact ⟨congrArg Prod.fst hc, congrArg Prod.snd hc, toMapOf_mem h o a, dotAttrsOf_mem h o a⟩

end Netscrape.Props
