import Verif.Go.Map

/-!
# Results, identifiers, the attribute heap

Shared vocabulary of the model: what a Go call returns, what a `uuid.UID` is, and the heap in
which attribute sets live.
-/

namespace Netscrape

/-- What a Go call of type `(α, error)` does: it returns a value with a nil error, returns a
non-nil error, or panics. -/
inductive Res (ε α : Type) where
  | ok (a : α)
  | err (e : ε)
  | panic
deriving DecidableEq, Repr

namespace Res
variable {ε α : Type}

def isPanic : Res ε α → Bool
  | .panic => true
  | _ => false

def toOption : Res ε α → Option α
  | .ok a => some a
  | _ => none

end Res

/-- `uuid.UID` (pkg/uuid/uuid.go:4-7) as implemented by `*memory.UID`
(pkg/uuid/memory/default.go:8-29).  `addr` is the identity of the interface value (the pointer)
and `str` what `String()` returns.  Go's `==` on two `uuid.UID` values, and hence their use as map
keys, compares `addr`; `String()`-keyed maps compare `str`.  A UID is immutable, so `addr`
determines `str` in any one program run; the model does not need to assume it. -/
structure Uid where
  addr : Nat
  str : String
deriving DecidableEq, Repr

/-- The address of an attribute set (`*memory.Attrs`). -/
abbrev Ref := Nat

/-- The contents of one attribute set: `type Attrs map[string]string`
(pkg/attrs/memory/memory.go:11). -/
abbrev AttrMap := GoMap String String

/-- All attribute sets allocated so far; `Ref` `r` is the `r`-th cell. -/
structure Heap where
  cells : List AttrMap

namespace Heap

def empty : Heap := ⟨[]⟩

/-- Allocate a new attribute set with the given contents. -/
def alloc (h : Heap) (m : AttrMap) : Ref × Heap := (h.cells.length, ⟨h.cells ++ [m]⟩)

/-- The contents of the attribute set at `r`. In Go every pointer is valid; the default for an
unallocated `r` is never observed by a theorem, which all carry `h.Valid r` where they read. -/
def read (h : Heap) (r : Ref) : AttrMap := h.cells.getD r GoMap.empty

/-- Overwrite the contents at `r`. -/
def write (h : Heap) (r : Ref) (m : AttrMap) : Heap := ⟨h.cells.set r m⟩

/-- `r` points to an allocated attribute set. -/
def Valid (h : Heap) (r : Ref) : Prop := r < h.cells.length

instance (h : Heap) (r : Ref) : Decidable (h.Valid r) := inferInstanceAs (Decidable (_ < _))

/-- `h'` extends `h`: nothing that existed in `h` changed. -/
def Extends (h' h : Heap) : Prop := ∃ ext, h'.cells = h.cells ++ ext

theorem read_alloc_new (h : Heap) (m : AttrMap) : (h.alloc m).2.read (h.alloc m).1 = m := by
  simp [alloc, read, List.getD]

theorem read_alloc_old (h : Heap) (m : AttrMap) (r : Ref) (hr : h.Valid r) :
    (h.alloc m).2.read r = h.read r := by
  simp [alloc, read, List.getD, List.getElem?_append_left hr]

theorem valid_alloc_new (h : Heap) (m : AttrMap) : (h.alloc m).2.Valid (h.alloc m).1 := by
  simp [alloc, Valid]

theorem valid_alloc_old (h : Heap) (m : AttrMap) (r : Ref) (hr : h.Valid r) :
    (h.alloc m).2.Valid r := by
  simp only [alloc, Valid, List.length_append] at *
  exact Nat.lt_of_lt_of_le hr (Nat.le_add_right _ _)

theorem alloc_fresh (h : Heap) (m : AttrMap) : ¬ h.Valid (h.alloc m).1 := by
  simp [alloc, Valid]

theorem read_write_self (h : Heap) (r : Ref) (m : AttrMap) (hr : h.Valid r) :
    (h.write r m).read r = m := by
  have : r < h.cells.length := hr
  simp [write, read, List.getD, this]

theorem read_write_ne (h : Heap) (r r' : Ref) (m : AttrMap) (hr : r' ≠ r) :
    (h.write r m).read r' = h.read r' := by
  simp [write, read, List.getD, List.getElem?_set_ne (Ne.symm hr)]

theorem valid_write (h : Heap) (r r' : Ref) (m : AttrMap) :
    (h.write r m).Valid r' ↔ h.Valid r' := by
  simp [write, Valid]

theorem Extends.refl (h : Heap) : h.Extends h := ⟨[], by simp⟩

theorem Extends.trans {a b c : Heap} (h1 : a.Extends b) (h2 : b.Extends c) : a.Extends c := by
  obtain ⟨e1, h1⟩ := h1
  obtain ⟨e2, h2⟩ := h2
  exact ⟨e2 ++ e1, by rw [h1, h2, List.append_assoc]⟩

theorem Extends.alloc (h : Heap) (m : AttrMap) : (h.alloc m).2.Extends h := ⟨[m], rfl⟩

theorem Extends.valid {a b : Heap} (h : a.Extends b) {r : Ref} (hr : b.Valid r) : a.Valid r := by
  obtain ⟨e, h⟩ := h
  simp only [Valid, h, List.length_append] at *
  exact Nat.lt_of_lt_of_le hr (Nat.le_add_right _ _)

theorem Extends.read {a b : Heap} (h : a.Extends b) {r : Ref} (hr : b.Valid r) :
    a.read r = b.read r := by
  obtain ⟨e, h⟩ := h
  simp [Heap.read, List.getD, h, List.getElem?_append_left hr]

end Heap
end Netscrape
