import Verif.Spec.AttrsIface
import Verif.Lemmas.Attrs

namespace Netscrape.Attrs
open Netscrape.Spec.AttrsIface

variable {σ ε : Type}

theorem Answers.snoc_get {I : Impl σ ε} {s t t' : σ} {l : List (Asked ε)} {k : String} {r : Res ε String}
    (h : Answers I s l t) (hg : I.get k t = (r, t')) : Answers I s (l ++ [.get k r]) t' := by
  induction h with
  | nil s => exact .get hg (.nil _)
  | keys hk _ ih => exact .keys hk (ih hg)
  | get hk _ ih => exact .get hk (ih hg)

theorem lastRead_append (a b : List (String × String)) (k : String) :
    lastRead (a ++ b) k = (lastRead b k).or (lastRead a k) := by
  induction a with
  | nil => simp [lastRead]
  | cons x a ih => simp [lastRead, ih, Option.or_assoc]

/-- The conversation so far: all keys, and the values of those before the rest `ks`. -/
def Midway (ks : List String) (kvs : List (String × String)) (l : List (Asked ε)) : Prop :=
  l = .keys (.ok (kvs.map Prod.fst ++ ks)) :: kvs.map fun x => .get x.1 (.ok x.2)

theorem Midway.ok {ks : List String} {kvs : List (String × String)} {l : List (Asked ε)} (h : Midway ks kvs l) :
    ∀ y ∈ l, IsOk y := by
  subst h
  intro y hy
  simp only [List.mem_cons, List.mem_map] at hy
  rcases hy with rfl | ⟨x, _, rfl⟩ <;> trivial

theorem Midway.next {k : String} {ks : List String} {kvs : List (String × String)} {l : List (Asked ε)}
    (h : Midway (k :: ks) kvs l) (v : String) : Midway ks (kvs ++ [(k, v)]) (l ++ [.get k (.ok v)]) := by
  subst h; simp [Midway]

/-- What a run of one of the loops amounts to. -/
def Result (I : Impl σ ε) (s : σ) (α : Type) (done : List (String × String) → α → Prop) (failed : ε → Res ε α → Prop)
    (r : Ran σ ε α) : Prop :=
  Answers I s r.log r.st ∧
  ((∃ kvs a, ReadAll kvs r.log ∧ r.res = .ok a ∧ done kvs a) ∨
   (∃ e, Ended (IsErr e) r.log ∧ failed e r.res) ∨
   (Ended IsPanic r.log ∧ r.res = .panic))

theorem copyKeys_result (I : Impl σ ε) (s0 : σ) (ks : List String) : ∀ (kvs : List (String × String))
    (m : GoMap String String) (s : σ) (l : List (Asked ε)), Midway ks kvs l → Answers I s0 l s →
    (∀ k, m.get? k = lastRead kvs k) →
    Result I s0 _ (fun kvs m => ∀ k, m.get? k = lastRead kvs k) (fun e r => r = .err e) (copyKeys I ks m s l) := by
  induction ks with
  | nil =>
    intro kvs m s l hl ha hm
    exact ⟨ha, .inl ⟨kvs, m, by simpa [Midway, ReadAll, copyKeys] using hl, rfl, hm⟩⟩
  | cons k ks ih =>
    intro kvs m s l hl ha hm
    rw [copyKeys]
    rcases hg : I.get k s with ⟨_ | _ | _, s'⟩
    case ok v =>
      refine ih (kvs ++ [(k, v)]) _ _ _ (hl.next v) (Answers.snoc_get ha hg) ?_
      intro k'
      rw [GoMap.get?_set, lastRead_append, hm]
      by_cases hk : k = k'
      · simp [lastRead, hk]
      · simp [lastRead, hk, Ne.symm hk]
    case err e =>
      exact ⟨Answers.snoc_get ha hg, .inr (.inl ⟨e, ⟨l, _, rfl, rfl, hl.ok⟩, rfl⟩)⟩
    case panic =>
      exact ⟨Answers.snoc_get ha hg, .inr (.inr ⟨⟨l, _, rfl, trivial, hl.ok⟩, rfl⟩)⟩

theorem dotKeys_result (I : Impl σ ε) (s0 : σ) (ks : List String) : ∀ (kvs : List (String × String))
    (s : σ) (l : List (Asked ε)), Midway ks kvs l → Answers I s0 l s →
    Result I s0 _ (fun kvs r => r = kvs) (fun _ r => r = .ok []) (dotKeys I ks kvs s l) := by
  induction ks with
  | nil =>
    intro kvs s l hl ha
    exact ⟨ha, .inl ⟨kvs, kvs, by simpa [Midway, ReadAll, dotKeys] using hl, rfl, rfl⟩⟩
  | cons k ks ih =>
    intro kvs s l hl ha
    rw [dotKeys]
    rcases hg : I.get k s with ⟨_ | _ | _, s'⟩
    case ok v => exact ih (kvs ++ [(k, v)]) _ _ (hl.next v) (Answers.snoc_get ha hg)
    case err e =>
      exact ⟨Answers.snoc_get ha hg, .inr (.inl ⟨e, ⟨l, _, rfl, rfl, hl.ok⟩, rfl⟩)⟩
    case panic =>
      exact ⟨Answers.snoc_get ha hg, .inr (.inr ⟨⟨l, _, rfl, trivial, hl.ok⟩, rfl⟩)⟩

theorem toMapOf_result (I : Impl σ ε) (s : σ) :
    Result I s _ (fun kvs m => ∀ k, m.get? k = lastRead kvs k) (fun e r => r = .err e) (toMapOf I s) := by
  rw [toMapOf]
  rcases hk : I.keys s with ⟨_ | _ | _, s'⟩
  case ok ks => exact copyKeys_result I s ks [] _ _ _ rfl (.keys hk (.nil _)) (fun k => by simp [lastRead])
  case err e => exact ⟨.keys hk (.nil _), .inr (.inl ⟨e, ⟨[], _, rfl, rfl, by simp⟩, rfl⟩)⟩
  case panic => exact ⟨.keys hk (.nil _), .inr (.inr ⟨⟨[], _, rfl, trivial, by simp⟩, rfl⟩)⟩

theorem dotAttrsOf_result (I : Impl σ ε) (s : σ) :
    Result I s _ (fun kvs r => r = kvs) (fun _ r => r = .ok []) (dotAttrsOf I s) := by
  rw [dotAttrsOf]
  rcases hk : I.keys s with ⟨_ | _ | _, s'⟩
  case ok ks => exact dotKeys_result I s ks [] _ _ rfl (.keys hk (.nil _))
  case err e => exact ⟨.keys hk (.nil _), .inr (.inl ⟨e, ⟨[], _, rfl, rfl, by simp⟩, rfl⟩)⟩
  case panic => exact ⟨.keys hk (.nil _), .inr (.inr ⟨⟨[], _, rfl, trivial, by simp⟩, rfl⟩)⟩

/-! ## The in-memory implementation -/

theorem copyKeys_mem (h : Heap) (o : Order (String × String)) (a : Ref) (ks : List String) :
    ∀ (m : GoMap String String) (l : List (Asked ε)), (copyKeys (memImpl ε h o a) ks m () l).res =
      .ok (ks.foldl (fun acc k => acc.set k (get h a k)) m) := by
  induction ks with
  | nil => intro m l; rfl
  | cons k ks ih => intro m l; simp only [copyKeys, memImpl]; exact ih _ _

theorem toMapOf_mem (h : Heap) (o : Order (String × String)) (a : Ref) :
    (toMapOf (memImpl ε h o a) ()).res = .ok (toMap h o a) := copyKeys_mem h o a _ _ _

theorem newCopyFromOf_mem (h : Heap) (o : Order (String × String)) (a : Ref) :
    ((newCopyFromOf h (some (memImpl ε h o a)) ()).1.res, (newCopyFromOf h (some (memImpl ε h o a)) ()).2) =
      (.ok (newCopyFrom h o a).1, (newCopyFrom h o a).2) := by
  have hm := toMapOf_mem (ε := ε) h o a
  rw [newCopyFromOf]
  rcases ht : toMapOf (memImpl ε h o a) () with ⟨r, s, l⟩
  rw [ht] at hm
  simp only at hm
  subst hm
  rfl

theorem dotKeys_mem (h : Heap) (o : Order (String × String)) (a : Ref) (ks : List String) :
    ∀ (r : List (String × String)) (l : List (Asked ε)), (dotKeys (memImpl ε h o a) ks r () l).res =
      .ok (r ++ ks.map (fun k => (k, get h a k))) := by
  induction ks with
  | nil => intro r l; simp [dotKeys]
  | cons k ks ih => intro r l; exact (ih _ _).trans (by simp)

theorem dotAttrsOf_mem (h : Heap) (o : Order (String × String)) (a : Ref) :
    (dotAttrsOf (memImpl ε h o a) ()).res = .ok (dotAttrs h o a) := by
  have := dotKeys_mem (ε := ε) h o a (keys h o a) [] [.keys (.ok (keys h o a))]
  simpa [dotAttrsOf, memImpl, dotAttrs] using this

end Netscrape.Attrs
