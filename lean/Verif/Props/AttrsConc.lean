import Verif.Spec.AttrsConc
import Verif.Lemmas.Rely
import Verif.Lemmas.Bfs
import Verif.Lemmas.NotLin
import Verif.Lemmas.Progress

/-!
# C88, C89: attribute sets used by several goroutines
-/

namespace Netscrape.Props
open Netscrape Netscrape.Attrs Netscrape.Conc Netscrape.Spec Netscrape.Spec.AttrsConc

/-! ## Examples -/

/-- An attribute set with keys x and y, and an empty one. -/
def acHeap : Heap := ⟨[(GoMap.empty.set "x" "0").set "y" "0", GoMap.empty]⟩

/-! ## C88: races -/

/-- **C88**: goroutines may use one attribute set without racing. -/
def AttrRaceStatement : Prop :=
  ∀ (h : Heap) (c : CCfg) (r : Ref), Conc.Reach cprog (fun _ => True) h c → ¬ Race c r

/-- **C88 is violated**: there is no mutex. Two `Set` calls race. -/
theorem c88_violated : ¬ AttrRaceStatement := by
  intro hst
  have hrun : (exec cprog (.init acHeap) [.call 0 (.set 0 "x" "1"), .call 1 (.set 0 "x" "2")]).map (fun c =>
      ((c.calls 0).map access, (c.calls 1).map access)) =
      some (some (some (0, true)), some (some (0, true))) := by decide
  obtain ⟨c, hc, he⟩ := Option.map_eq_some_iff.mp hrun
  simp only [Prod.mk.injEq] at he
  obtain ⟨k0, hk0, ha0⟩ := Option.map_eq_some_iff.mp he.1
  obtain ⟨k1, hk1, ha1⟩ := Option.map_eq_some_iff.mp he.2
  exact hst _ c 0 (reach_exec _ .init (fun _ _ _ _ _ => trivial) hc)
    ⟨0, 1, k0, k1, true, by decide, hk0, hk1, ha0, ha1⟩

/-- A reader races with a `Set`, too, for instance a copy. -/
example : (exec cprog (.init acHeap) [.call 0 (.set 0 "x" "1"), .call 1 (.copy Order.id 0), .tau 1, .tau 1]).map
    (fun c => ((c.calls 0).map access, (c.calls 1).map access)) =
    some (some (some (0, true)), some (some (0, false))) := by decide

/-- The program writes nothing and accesses `r` only. -/
def Reads (r : Ref) : CProg → Prop
  | .ret _ => True
  | .read l k => l = r ∧ ∀ s, Reads r (k s)
  | _ => False

theorem reads_getEach (r : Ref) (ks : List String) : ∀ acc, Reads r (getEach r ks acc) := by
  induction ks with
  | nil => exact fun _ => trivial
  | cons k ks ih => exact fun acc => ⟨rfl, fun s => ih _⟩

theorem reads_keysThen (o : Order (String × String)) (r : Ref) {k : List String → CProg}
    (hk : ∀ l, Reads r (k l)) : Reads r (keysThen o r k) := by
  refine ⟨rfl, fun s => ⟨rfl, fun s' => ?_⟩⟩
  dsimp only
  split
  · trivial
  · exact hk _

/-- What a call in progress looks like. -/
def ACall (k : Call Empty Ref Heap COp COut) : Prop :=
  Reads (about k.op) k.prog ∨ ∃ r x v, k.op = .set r x v ∧ k.prog = cprog k.op

theorem aCall_start (op : COp) (i : Nat) : ACall ⟨i, op, cprog op, fun _ => .init⟩ := by
  cases op with
  | get r k => exact .inl ⟨rfl, fun _ => trivial⟩
  | set r k v => exact .inr ⟨r, k, v, rfl, rfl⟩
  | keys o r => exact .inl (reads_keysThen o r (k := fun l => .ret (.keys l)) fun _ => trivial)
  | copy o r => exact .inl (reads_keysThen o r fun l => reads_getEach r l [])

theorem aCall_micro {c : CCfg} {k k' : Call Empty Ref Heap COp COut} {mus : Empty → Mu} {d : Heap} (h : ACall k)
    (hm : micro c k = some (k', mus, d)) : ACall k' := by
  unfold micro at hm
  rcases h with h | ⟨r, x, v, ho, hp⟩
  · cases hp : k.prog with
    | read l q =>
      rw [hp] at h
      simp only [hp, Option.some.injEq, Prod.mk.injEq] at hm
      obtain ⟨rfl, _, _⟩ := hm
      exact .inl (h.2 _)
    | ret => simp only [hp, reduceCtorEq] at hm
    | write => rw [hp] at h; exact h.elim
    | lock m => exact m.elim
    | acquire m => exact m.elim
    | unlock m => exact m.elim
    | rlock m => exact m.elim
    | runlock m => exact m.elim
  · rw [ho] at hp
    simp only [hp, cprog, Option.some.injEq, Prod.mk.injEq] at hm
    obtain ⟨rfl, _, _⟩ := hm
    exact .inl trivial

theorem aCall {allowed : COp → Prop} {h : Heap} {c : CCfg} (hr : Conc.Reach cprog allowed h c) :
    ∀ t k, c.calls t = some k → ACall k :=
  callInv (fun i op _ => aCall_start op i) (fun _ _ _ _ _ hI hm => aCall_micro hI hm) hr

/-- **C88, what holds**: every race on an attribute set has a `Set` on this very set on one of its sides and a call
about it on the other. In particular attribute sets are independent of each other, and one that nobody calls `Set`
on (any more) can be read and copied by any number of goroutines. -/
theorem c88_races_partial {h : Heap} {c : CCfg} (hr : Conc.Reach cprog (fun _ => True) h c) {r : Ref}
    {t t' : Nat} {k k' : Call Empty Ref Heap COp COut} {w : Bool} (hk : c.calls t = some k)
    (hk' : c.calls t' = some k') (ha : access k = some (r, true)) (ha' : access k' = some (r, w)) :
    (∃ x v, k.op = .set r x v) ∧ about k'.op = r := by
  have loc : ∀ (k : Call Empty Ref Heap COp COut) (l : Ref) (w : Bool), ACall k → access k = some (l, w) →
      about k.op = l ∧ (w = true → ∃ x v, k.op = .set l x v) := by
    intro k l w hI hacc
    unfold access at hacc
    rcases hI with hI | ⟨r, x, v, ho, hp⟩
    · cases hp : k.prog with
      | read l' q =>
        rw [hp] at hI
        simp only [hp, Option.some.injEq, Prod.mk.injEq] at hacc
        obtain ⟨rfl, rfl⟩ := hacc
        exact ⟨hI.1.symm, nofun⟩
      | write => rw [hp] at hI; exact hI.elim
      | _ => simp only [hp, reduceCtorEq] at hacc
    · rw [ho] at hp
      simp only [hp, cprog, Option.some.injEq, Prod.mk.injEq] at hacc
      obtain ⟨rfl, rfl⟩ := hacc
      exact ⟨by rw [ho]; rfl, fun _ => ⟨x, v, ho⟩⟩
  exact ⟨(loc k r true (aCall hr t k hk) ha).2 rfl, (loc k' r w (aCall hr t' k' hk') ha').1⟩

/-- Non-vacuity: two copies and a `Get` in progress on one set, a `Set` on the other, and no race. -/
example : (exec cprog (.init acHeap) [.call 0 (.copy Order.id 0), .tau 0, .call 1 (.copy Order.rev 0),
    .call 2 (.get 0 "x"), .call 3 (.set 1 "z" "1")]).map (fun c =>
      [0, 1, 2, 3].map fun t => (c.calls t).bind access) =
    some [some (0, false), some (0, false), some (0, false), some (1, true)] := by decide

/-! ## C89: copies -/

/-- **C89**: calls on attribute sets, copies included, are linearizable if single accesses are atomic. -/
def AttrLinStatement : Prop :=
  ∀ (h : Heap) (c : CCfg), Conc.Reach cprog (fun _ => True) h c → Linearizable cseq h c.hist

/-- **C89 is violated**: a copy reads x, then x and y are set in this order, then it reads y. It has the new y and
the old x, which the set never had. -/
theorem c89_violated : ¬ AttrLinStatement := by
  intro hst
  have hrun : (exec cprog (.init acHeap) [.call 0 (.copy Order.rev 0), .tau 0, .tau 0, .tau 0,
      .call 1 (.set 0 "x" "1"), .tau 1, .ret 1, .call 1 (.set 0 "y" "1"), .tau 1, .ret 1, .tau 0, .ret 0]).map
      (fun c => couldLin cseq (fun a b => decide (a = b)) acHeap c.hist) = some false := by decide +kernel
  obtain ⟨c, hc, he⟩ := Option.map_eq_some_iff.mp hrun
  exact not_linearizable (eqo := fun a b => decide (a = b)) (fun o => decide_eq_true rfl) he
    (hst _ c (reach_exec _ .init (fun _ _ _ _ _ => trivial) hc))

/-- `Keys`, and with it a copy, never panics. -/
def KeysStatement : Prop :=
  ∀ (h : Heap) (c : CCfg), Conc.Reach cprog (fun _ => True) h c → ∀ i t, Ev.res i t COut.panic ∉ c.hist

/-- **C89 is violated**: `Keys` panics if a key is added between its `len` and its loop. -/
theorem c89_keys_violated : ¬ KeysStatement := by
  intro hst
  have hrun : (exec cprog (.init acHeap) [.call 0 (.keys Order.id 0), .tau 0, .call 1 (.set 0 "z" "1"), .tau 1,
      .tau 0, .ret 0]).map (fun c => outOf 0 c.hist) = some (some .panic) := by decide +kernel
  obtain ⟨c, hc, he⟩ := Option.map_eq_some_iff.mp hrun
  obtain ⟨t, ht⟩ := outOf_mem he
  exact hst _ c (reach_exec _ .init (fun _ _ _ _ _ => trivial) hc) 0 t ht

/-- The invariant of the shared memory: nothing is invented, nothing is lost, and a set nobody writes stays. -/
structure AInv (h : Heap) (W : Ref → String → String → Prop) (d : Heap) : Prop where
  held : ∀ r k v, (d.read r).get? k = some v → Held h W r k v
  had : ∀ r k, Had h r k → Had d r k
  frozen : ∀ r, (∀ k v, ¬ W r k v) → d.read r = h.read r

/-- What others may do meanwhile: keys are only added. -/
structure ARel (d d' : Heap) : Prop where
  had : ∀ r k, Had d r k → Had d' r k
  size : ∀ r, (d.read r).size ≤ (d'.read r).size

theorem size_le_set (m : AttrMap) (k v : String) : m.size ≤ (m.set k v).size := by
  cases h : m.get? k with
  | none => rw [GoMap.size_set_of_none m k v h]; exact Nat.le_succ _
  | some w =>
    have hsub : m.keys ⊆ (m.set k v).keys := by
      intro x hx
      obtain ⟨y, hy⟩ := (GoMap.mem_keys m x).mp hx
      rw [GoMap.mem_keys, GoMap.get?_set]
      by_cases e : x = k
      · exact ⟨v, by simp [e]⟩
      · exact ⟨y, by simp [e, hy]⟩
    have := Netscrape.Gonum.length_le_of_nodup_subset _ _ m.keys_nodup hsub
    simpa [GoMap.keys, GoMap.size] using this

theorem read_set (d : Heap) (r r' : Ref) (k v : String) :
    (Attrs.set d r k v).read r' = d.read r' ∨ (r' = r ∧ (Attrs.set d r k v).read r' = (d.read r).set k v) := by
  unfold Attrs.set
  by_cases e : r' = r
  · subst e
    by_cases hv : d.Valid r'
    · exact .inr ⟨rfl, Heap.read_write_self _ _ _ hv⟩
    · left
      have hv' : d.cells.length ≤ r' := Nat.le_of_not_lt hv
      simp only [Heap.read, Heap.write, List.set_eq_of_length_le hv']
  · exact .inl (Heap.read_write_ne _ _ _ _ e)

theorem aInv_set {h : Heap} {W : Ref → String → String → Prop} {d : Heap} {r : Ref} {k v : String}
    (hd : AInv h W d) (hW : W r k v) : AInv h W (Attrs.set d r k v) ∧ ARel d (Attrs.set d r k v) := by
  have hadd : ∀ r' x, Had d r' x → Had (Attrs.set d r k v) r' x := by
    intro r' x hx
    rcases read_set d r r' k v with e | ⟨rfl, e⟩
    · unfold Had; rw [e]; exact hx
    · unfold Had
      rw [e, GoMap.get?_set]
      split
      · exact fun e => nomatch e
      · exact hx
  refine ⟨⟨?_, fun r' x hx => hadd r' x (hd.had r' x hx), ?_⟩, hadd, ?_⟩
  · intro r' x y hxy
    rcases read_set d r r' k v with e | ⟨rfl, e⟩
    · rw [e] at hxy; exact hd.held r' x y hxy
    · rw [e, GoMap.get?_set] at hxy
      split at hxy
      · next e2 => cases hxy; subst e2; exact .inr hW
      · exact hd.held _ x y hxy
  · intro r' hf
    rcases read_set d r r' k v with e | ⟨rfl, e⟩
    · rw [e]; exact hd.frozen r' hf
    · exact absurd hW (hf k v)
  · intro r'
    rcases read_set d r r' k v with e | ⟨rfl, e⟩
    · rw [e]; exact Nat.le_refl _
    · rw [e]; exact size_le_set _ _ _

/-- What a call returns: something sane, and exactly what a single call would if nobody writes the set. -/
def APost (h : Heap) (W : Ref → String → String → Prop) (op : COp) (out : COut) : Prop :=
  Sane h W op out ∧ ((∀ k v, ¬ W (about op) k v) → out = (cseq h op).2)

theorem getEach_eval (r : Ref) (h : Heap) (ks : List String) : ∀ acc,
    ((getEach r ks acc).eval h).2 = .pairs (acc ++ ks.map fun k => (k, Attrs.get h r k)) := by
  induction ks with
  | nil => intro acc; simp [getEach, Prog.eval]
  | cons k ks ih => intro acc; simp [getEach, Prog.eval, ih]

theorem keysThen_eval (o : Order (String × String)) (r : Ref) (h : Heap) (k : List String → CProg) :
    ((keysThen o r k).eval h) = (k (Attrs.keys h o r)).eval h := by
  simp [keysThen, Prog.eval]

theorem keys_nodup (o : Order (String × String)) (r : Ref) (h : Heap) : (Attrs.keys h o r).Nodup :=
  ((o.perm _).map Prod.fst).nodup_iff.mpr (h.read r).nodup

theorem mem_akeys (o : Order (String × String)) (r : Ref) (h : Heap) (k : String) :
    k ∈ Attrs.keys h o r ↔ Had h r k := by
  have : k ∈ Attrs.keys h o r ↔ k ∈ (h.read r).keys := ((o.perm _).map Prod.fst).mem_iff
  rw [this, GoMap.mem_keys]
  unfold Had
  cases (h.read r).get? k <;> simp

/-- `Keys` with any continuation: it panics, which it does not if nobody writes, or goes on with distinct keys. -/
theorem rg_keysThen {h : Heap} {W : Ref → String → String → Prop} {Q : COut → Prop} (o : Order (String × String))
    (r : Ref) {k : List String → CProg} (hpanic : (∃ x v, W r x v) → Q .panic)
    (hk : ∀ d l, AInv h W d → l.Nodup → (∀ x, x ∈ l ↔ Had d r x) →
      ((∀ x v, ¬ W r x v) → l = Attrs.keys h o r) → RG (AInv h W) ARel Q (k l) d) (s₀ : Heap) :
    RG (AInv h W) ARel Q (keysThen o r k) s₀ := by
  intro s _ hs s' hss' hs'
  dsimp only
  split
  · next hlt =>
    refine hpanic (Classical.byContradiction fun hno => ?_)
    have hf : ∀ x v, ¬ W r x v := fun x v hw => hno ⟨x, v, hw⟩
    rw [hs.frozen r hf, hs'.frozen r hf] at hlt
    exact Nat.lt_irrefl _ hlt
  · have hz : (s.read r).size - (s'.read r).size = 0 := Nat.sub_eq_zero_of_le (hss'.size r)
    rw [hz, List.replicate_zero, List.append_nil]
    refine hk s' _ hs' (keys_nodup o r s') (fun x => mem_akeys o r s' x) ?_
    intro hf
    unfold Attrs.keys
    rw [hs'.frozen r hf]

theorem rg_getEach {h : Heap} {W : Ref → String → String → Prop} {Q : COut → Prop} (r : Ref) (ks : List String) :
    ∀ (acc : List (String × String)) (d : Heap), (∀ x, x ∈ ks → Had d r x) →
      (∀ l, l.map Prod.fst = ks → (∀ x v, (x, v) ∈ l → Held h W r x v) →
        ((∀ x v, ¬ W r x v) → l = ks.map fun x => (x, Attrs.get h r x)) → Q (.pairs (acc ++ l))) →
      RG (AInv h W) ARel Q (getEach r ks acc) d := by
  induction ks with
  | nil =>
    intro acc d _ hQ
    have := hQ [] rfl (fun _ _ hm => nomatch hm) (fun _ => rfl)
    rw [List.append_nil] at this
    exact this
  | cons x ks ih =>
    intro acc d hd hQ s hds hs
    refine ih _ s (fun y hy => hds.had r y (hd y (List.mem_cons_of_mem _ hy))) ?_
    intro l hl1 hl2 hl3
    rw [List.append_assoc]
    refine hQ _ (by simp [hl1]) ?_ ?_
    · intro y v hm
      rcases List.mem_append.mp hm with hm | hm
      · rw [List.mem_singleton] at hm
        cases hm
        have hx : Had s r x := hds.had r x (hd x List.mem_cons_self)
        unfold Had at hx
        cases e : (s.read r).get? x with
        | none => exact absurd e hx
        | some w =>
          have := hs.held r x w e
          simp only [Attrs.get, e, Option.getD_some]
          exact this
      · exact hl2 y v hm
    · intro hf
      rw [hl3 hf]
      simp only [Attrs.get, hs.frozen r hf, List.map_cons, List.cons_append, List.nil_append]

theorem rg_cprog {h : Heap} {W : Ref → String → String → Prop} (op : COp) (hop : Allowed W op) (s₀ : Heap) :
    RG (AInv h W) ARel (APost h W op) (cprog op) s₀ := by
  cases op with
  | get r k =>
    intro s _ hs
    refine ⟨⟨_, rfl, ?_⟩, ?_⟩
    · cases e : (s.read r).get? k with
      | some w => exact .inl (by simp only [Attrs.get, e, Option.getD_some]; exact hs.held r k w e)
      | none => exact .inr ⟨by simp [Attrs.get, e], fun hh => hs.had r k hh e⟩
    · intro hf
      simp only [cseq, cprog, Prog.eval, Attrs.get, hs.frozen r hf]
  | set r k v =>
    intro s _ hs
    obtain ⟨h1, h2⟩ := aInv_set hs hop
    exact ⟨h1, h2, rfl, fun _ => rfl⟩
  | keys o r =>
    show RG _ _ _ (keysThen o r fun l => .ret (.keys l)) s₀
    refine rg_keysThen o r ?_ ?_ s₀
    · rintro ⟨x, v, hw⟩
      exact ⟨.inl rfl, fun hf => absurd hw (hf x v)⟩
    · intro d l hd hn hm hf
      refine ⟨.inr ⟨l, rfl, hn, ?_, fun k hk => (hm k).mpr (hd.had r k hk)⟩, ?_⟩
      · intro k hk
        have hh := (hm k).mp hk
        unfold Had at hh
        cases e : (d.read r).get? k with
        | none => exact absurd e hh
        | some w => exact ⟨w, hd.held r k w e⟩
      · intro hfr
        rw [hf hfr]
        simp only [cseq, cprog, keysThen_eval, Prog.eval]
  | copy o r =>
    show RG _ _ _ (keysThen o r fun l => getEach r l []) s₀
    refine rg_keysThen o r ?_ ?_ s₀
    · rintro ⟨x, v, hw⟩
      exact ⟨.inl rfl, fun hf => absurd hw (hf x v)⟩
    · intro d l hd hn hm hf
      refine rg_getEach r l [] d (fun x hx => (hm x).mp hx) ?_
      intro ps h1 h2 h3
      rw [List.nil_append]
      refine ⟨.inr ⟨ps, rfl, by rw [h1]; exact hn, h2, ?_⟩, ?_⟩
      · intro k hk
        have : k ∈ ps.map Prod.fst := by rw [h1]; exact (hm k).mpr (hd.had r k hk)
        obtain ⟨⟨x, v⟩, hx, rfl⟩ := List.mem_map.mp this
        exact ⟨v, hx⟩
      · intro hfr
        rw [h3 hfr, hf hfr]
        simp only [cseq, cprog, keysThen_eval, getEach_eval, List.nil_append]

theorem aRG {h : Heap} {W : Ref → String → String → Prop} {c : CCfg} (hr : Conc.Reach cprog (Allowed W) h c) :
    RGInv (AInv h W) ARel (APost h W) c :=
  rgInv (fun _ => ⟨fun _ _ hh => hh, fun _ => Nat.le_refl _⟩)
    (fun _ _ _ a b => ⟨fun r k hh => b.had r k (a.had r k hh), fun r => Nat.le_trans (a.size r) (b.size r)⟩)
    ⟨fun _ _ _ hh => .inl hh, fun _ _ hh => hh, fun _ _ => rfl⟩ (fun op hop s₀ _ => rg_cprog op hop s₀) hr

/-- **C89, what holds**: whatever is set meanwhile, calls invent nothing and lose nothing: each value returned was
there in the beginning or is one that somebody sets for this key of this set, each key is returned once, and no key
that was there in the beginning is missing; unless `Keys` panics. -/
theorem c89_sane_partial {h : Heap} {W : Ref → String → String → Prop} {c : CCfg}
    (hr : Conc.Reach cprog (Allowed W) h c) {i t : Nat} {out : COut} (hres : Ev.res i t out ∈ c.hist) :
    ∃ op, Ev.inv i t op ∈ c.hist ∧ Sane h W op out := by
  obtain ⟨op, h1, h2⟩ := (aRG hr).res i t out hres
  exact ⟨op, h1, h2.1⟩

/-- **C89, what holds**: a call about a set that nobody calls `Set` on returns what it would return if it were the
only call, whatever is done to other sets; in particular it does not panic, and a copy is exact. -/
theorem c89_frozen_partial {h : Heap} {W : Ref → String → String → Prop} {c : CCfg}
    (hr : Conc.Reach cprog (Allowed W) h c) {i t : Nat} {out : COut} (hres : Ev.res i t out ∈ c.hist) :
    ∃ op, Ev.inv i t op ∈ c.hist ∧ ((∀ k v, ¬ W (about op) k v) → out = (cseq h op).2 ∧ out ≠ .panic) := by
  obtain ⟨op, h1, h2⟩ := (aRG hr).res i t out hres
  refine ⟨op, h1, fun hf => ⟨h2.2 hf, ?_⟩⟩
  rw [h2.2 hf]
  cases op with
  | get r k => exact fun e => nomatch e
  | set r k v => exact fun e => nomatch e
  | keys o r => simp only [cseq, cprog, keysThen_eval, Prog.eval]; exact fun e => nomatch e
  | copy o r => simp only [cseq, cprog, keysThen_eval, getEach_eval]; exact fun e => nomatch e

/-- Non-vacuity: the torn copy of `c89_violated`; both its values are ones the set had. -/
example : (exec cprog (.init acHeap) [.call 0 (.copy Order.rev 0), .tau 0, .tau 0, .tau 0,
    .call 1 (.set 0 "x" "1"), .tau 1, .ret 1, .call 1 (.set 0 "y" "1"), .tau 1, .ret 1, .tau 0, .ret 0]).map
    (fun c => outOf 0 c.hist) = some (some (.pairs [("x", "0"), ("y", "1")])) := by decide +kernel

/-- Non-vacuity: a copy of one set while the other is written. -/
example : (exec cprog (.init acHeap) [.call 0 (.copy Order.id 0), .tau 0, .call 1 (.set 1 "z" "1"), .tau 1,
    .tau 0, .tau 0, .tau 0, .ret 0]).map (fun c => outOf 0 c.hist) =
    some (some (cseq acHeap (.copy Order.id 0)).2) := by decide +kernel

end Netscrape.Props
