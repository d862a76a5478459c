import Verif.Spec.Broker
import Verif.Lemmas.Conc

/-!
# Invariants of the broker
-/

namespace Netscrape.Broker
open Netscrape.Conc (upd upd_self upd_ne)
open Netscrape.Spec Netscrape.Spec.Broker

/-! ## Steps -/

/-- The steps of the system, one rule each. -/
inductive Tr (s : St) : Act → St → Prop
  | call (op : Op) : s.b.has op = true → Tr s (.call op)
      { s with calls := upd s.calls s.next (some (.start op)), ops := upd s.ops s.next (some op),
               next := s.next + 1, log := s.log ++ [.call s.next] }
  | cancel (ctx : Nat) : Tr s (.cancel ctx) { s with b := { s.b with done := upd s.b.done ctx true } }
  | step (i : Nat) (a : Alt) (pc pc' : PC) (b' : Mem) (evs : List Ev) : s.calls i = some pc →
      micro s.b i pc a = some (b', pc', evs, none) → Tr s (.step i a)
      { s with b := b', calls := upd s.calls i (some pc'), log := s.log ++ evs }
  | spawn (i : Nat) (a : Alt) (pc pc' g : PC) (b' : Mem) (evs : List Ev) : s.calls i = some pc →
      micro s.b i pc a = some (b', pc', evs, some g) → Tr s (.step i a)
      { s with b := b', calls := upd (upd s.calls i (some pc')) s.next (some g), next := s.next + 1,
               log := s.log ++ evs }
  | meet (p r : Nat) (pc pr pc' pr' : PC) (evs : List Ev) : s.calls p = some pc → s.calls r = some pr →
      meet s.b p r pc pr = some (pc', pr', evs) → Tr s (.meet p r)
      { s with calls := upd (upd s.calls p (some pc')) r (some pr'), log := s.log ++ evs }
  | ret (i : Nat) (r : Ret) : s.calls i = some (.done r) → Tr s (.ret i)
      { s with calls := upd s.calls i none, log := s.log ++ [.ret i r] }

theorem step_tr {s s' : St} {a : Act} (h : Broker.step s a = some s') : s.b.crashed = false ∧ Tr s a s' := by
  unfold Broker.step at h
  cases hc : s.b.crashed with
  | true => simp [hc] at h
  | false =>
    refine ⟨rfl, ?_⟩
    rw [if_neg (by simp [hc])] at h
    cases a with
    | call op =>
      dsimp only at h
      split at h
      · next hh => cases h; exact .call op hh
      · cases h
    | cancel ctx => cases h; exact .cancel ctx
    | step i a =>
      dsimp only at h
      cases hp : s.calls i with
      | none => simp [hp] at h
      | some pc =>
        simp only [hp] at h
        cases hm : micro s.b i pc a with
        | none => simp [hm] at h
        | some x =>
          obtain ⟨b', pc', evs, g⟩ := x
          cases g with
          | none => simp only [hm] at h; cases h; exact .step i a pc pc' b' evs hp hm
          | some g => simp only [hm] at h; cases h; exact .spawn i a pc pc' g b' evs hp hm
    | meet p r =>
      dsimp only at h
      cases hp : s.calls p with
      | none => simp [hp] at h
      | some pc =>
        cases hr : s.calls r with
        | none => simp [hp, hr] at h
        | some pr =>
          simp only [hp, hr] at h
          cases hm : Broker.meet s.b p r pc pr with
          | none => simp [hm] at h
          | some x =>
            obtain ⟨pc', pr', evs⟩ := x
            simp only [hm] at h; cases h; exact .meet p r pc pr pc' pr' evs hp hr hm
    | ret i =>
      dsimp only at h
      split at h
      · next r hr => cases h; exact .ret i r hr
      · cases h

/-- Induction over the states reached. -/
theorem Reach.inv {cap : Int} {allowed : St → Act → Prop} {P : St → Prop} (h0 : P (.init cap))
    (hs : ∀ s s' a, Reach cap allowed s → P s → allowed s a → s.b.crashed = false → Tr s a s' → P s')
    {s : St} (h : Reach cap allowed s) : P s := by
  induction h with
  | init => exact h0
  | step s s' a hr ha hst ih => exact hs s s' a hr ih ha (step_tr hst).1 (step_tr hst).2

theorem Reach.mono {cap : Int} {p q : St → Act → Prop} (hpq : ∀ s a, p s a → q s a) {s : St}
    (h : Reach cap p s) : Reach cap q s := by
  induction h with
  | init => exact .init
  | step s s' a _ ha hst ih => exact .step s s' a ih (hpq s a ha) hst

theorem Reach.any {cap : Int} {p : St → Act → Prop} {s : St} (h : Reach cap p s) : Reach cap Any s :=
  h.mono fun _ _ _ => trivial

/-! ## Positions and memory -/

/-- `x` is a subscription. -/
def IsSub (ops : Nat → Option Op) (x : Nat) : Prop := ∃ t u, ops x = some (.sub t u)

/-- What a call may return. -/
def RetOk : Option Op → Ret → Prop
  | none, .nil => True
  | some (.open _), .nil => True
  | some .close, .nil => True
  | some (.pub _ _ _), .nil => True
  | some (.pub _ _ _), .notConnected => True
  | some (.pub _ _ _), .timeout => True
  | some (.sub _ _), .sub => True
  | some (.sub _ _), .notConnected => True
  | some (.receive _ _), .nil => True
  | some (.receive _ _), .inactive => True
  | some (.receive _ _), .timeout => True
  | some (.receive _ _), .fail _ => True
  | some (.unsubscribe _), .nil => True
  | _, _ => False

/-- A position fits the call that was made. -/
def Fits (ops : Nat → Option Op) (b : Mem) (i : Nat) : PC → Prop
  | .openChk ctx => ops i = some (.open ctx) ∧ b.exit ≠ some i ∧ b.closed i = false
  | .openSet ctx => ops i = some (.open ctx) ∧ b.exit ≠ some i ∧ b.closed i = false
  | .closing => ops i = some .close
  | .pubChk ctx t m => ops i = some (.pub ctx t m)
  | .pubGet ctx t m => ops i = some (.pub ctx t m)
  | .pubRead ctx q m => ∃ t, ops i = some (.pub ctx t m) ∧ OnTopic ops q.msg t
  | .pubSel ctx q _ m => ∃ t, ops i = some (.pub ctx t m) ∧ OnTopic ops q.msg t
  | .pubClose => ∃ ctx t m, ops i = some (.pub ctx t m) ∧ b.done ctx = true
  | .subChk t u => ops i = some (.sub t u)
  | .subMake t u => ops i = some (.sub t u)
  | .recvChk ctx x => ops i = some (.receive ctx x) ∧ IsSub ops x
  | .recvSel ctx x => ops i = some (.receive ctx x) ∧ IsSub ops x
  | .recvDrop x => (∃ ctx, ops i = some (.receive ctx x)) ∧ IsSub ops x
  | .handling _ => ∃ ctx x, ops i = some (.receive ctx x)
  | .unsubChk x => ops i = some (.unsubscribe x) ∧ IsSub ops x
  | .unsubClose x => ops i = some (.unsubscribe x) ∧ IsSub ops x
  | .unsubSet x => ops i = some (.unsubscribe x) ∧ IsSub ops x
  | .unsubGo x => ops i = some (.unsubscribe x) ∧ IsSub ops x
  | .run _ => ops i = none
  | .runCtl _ _ => ops i = none
  | .runSel _ _ _ => ops i = none
  | .runDel _ _ _ => ops i = none
  | .runClose => ops i = none
  | .notify x => ops i = none ∧ IsSub ops x
  | .done r => RetOk (ops i) r

structure MemInv (ops : Nat → Option Op) (b : Mem) : Prop where
  topics : ∀ t q, b.topics.get? t = some q → OnTopic ops q.msg t
  subs : ∀ x o, b.sub x = some o → ops x = some (.sub o.topic o.id) ∧ OnTopic ops o.queue.msg o.topic
  buf : ∀ ch p m, (p, m) ∈ b.buf ch → ∃ ctx t, ops p = some (.pub ctx t m) ∧ OnTopic ops ch t
  exit : ∀ e, b.exit = some e → ∃ ctx, ops e = some (.open ctx)
  closed : ∀ j, b.closed j = true → (∃ ctx, ops j = some (.open ctx)) ∨ IsSub ops j
  live : b.connected = true → ∃ e, b.exit = some e ∧ b.closed e = false

theorem MemInv.close {ops : Nat → Option Op} {b : Mem} (h : MemInv ops b) (i : Nat) :
    (b.connected = false ∧ b.close i = (b, [])) ∨
    (b.connected = true ∧ ∃ e, b.exit = some e ∧ b.closed e = false ∧
      b.close i = ({ b with closed := upd b.closed e true, subs := GoMap.empty,
                            topics := b.subs.entries.foldl (fun t x => t.del x.1) b.topics,
                            connected := false }, [.closed i])) := by
  cases hc : b.connected with
  | false => left; exact ⟨rfl, by simp [Mem.close, hc]⟩
  | true =>
    right
    obtain ⟨e, he, hcl⟩ := h.live hc
    exact ⟨rfl, e, he, hcl, by simp [Mem.close, hc, he, hcl]⟩

theorem foldl_del_get? {V W : Type} (l : List (String × W)) (m : GoMap String V) (k : String) (v : V)
    (h : (l.foldl (fun t x => t.del x.1) m).get? k = some v) : m.get? k = some v := by
  induction l generalizing m with
  | nil => exact h
  | cons x l ih =>
    have := ih _ h
    rw [GoMap.get?_del] at this
    split at this
    · cases this
    · exact this

theorem MemInv.close_inv {ops : Nat → Option Op} {b : Mem} (h : MemInv ops b) (i : Nat) :
    MemInv ops (b.close i).1 := by
  rcases h.close i with ⟨_, e⟩ | ⟨hc, x, hx, hcl, e⟩
  · rw [e]; exact h
  · rw [e]
    refine ⟨?_, h.subs, h.buf, h.exit, ?_, ?_⟩
    · intro t q hq
      exact h.topics t q (foldl_del_get? _ _ _ _ hq)
    · intro j hj
      dsimp only at hj
      by_cases hjx : j = x
      · subst hjx; exact .inl (h.exit _ hx)
      · rw [upd_ne _ _ hjx] at hj; exact h.closed j hj
    · intro hh; cases hh

theorem MemInv.queue {ops : Nat → Option Op} {b : Mem} (h : MemInv ops b) (i : Nat) (t : String)
    (hi : OnTopic ops i t) : MemInv ops (b.queue i t).1 ∧ OnTopic ops (b.queue i t).2.msg t := by
  unfold Mem.queue
  cases hq : b.topics.get? t with
  | some q => exact ⟨h, h.topics t q hq⟩
  | none =>
    refine ⟨⟨?_, h.subs, h.buf, h.exit, h.closed, h.live⟩, hi⟩
    intro t' q' hq'
    dsimp only at hq'
    rw [GoMap.get?_set] at hq'
    split at hq'
    · next e => cases hq'; subst e; exact hi
    · exact h.topics t' q' hq'

/-- What others' steps do to what a position relies on. -/
structure Keeps (ops : Nat → Option Op) (b b' : Mem) (i : Nat) : Prop where
  done : ∀ c, b.done c = true → b'.done c = true
  exit : ∀ j, j ≠ i → b'.exit = some j → b.exit = some j
  closed : ∀ j ctx, ops j = some (.open ctx) → b'.closed j = true → b.closed j = true ∨ b.exit = some j

theorem Keeps.refl (ops : Nat → Option Op) (b : Mem) (i : Nat) : Keeps ops b b i :=
  ⟨fun _ h => h, fun _ _ h => h, fun _ _ _ h => .inl h⟩

theorem Keeps.fits {ops : Nat → Option Op} {b b' : Mem} {i j : Nat} {pc : PC} (h : Keeps ops b b' i)
    (hj : j ≠ i) (hf : Fits ops b j pc) : Fits ops b' j pc := by
  cases pc with
  | openChk ctx | openSet ctx =>
    obtain ⟨h1, h2, h3⟩ := hf
    refine ⟨h1, fun e => h2 (h.exit j hj e), ?_⟩
    cases hc : b'.closed j with
    | false => rfl
    | true =>
      rcases h.closed j ctx h1 hc with h4 | h4
      · rw [h3] at h4; cases h4
      · exact (h2 h4).elim
  | pubClose =>
    obtain ⟨ctx, t, m, h1, h2⟩ := hf
    exact ⟨ctx, t, m, h1, h.done ctx h2⟩
  | _ => exact hf

theorem Keeps.close {ops : Nat → Option Op} {b : Mem} (h : MemInv ops b) (i k : Nat) :
    Keeps ops b (b.close i).1 k := by
  rcases h.close i with ⟨_, e⟩ | ⟨hc, x, hx, hcl, e⟩
  · rw [e]; exact .refl _ _ _
  · rw [e]
    refine ⟨fun _ h => h, fun _ _ h => h, ?_⟩
    intro j ctx ho hj
    dsimp only at hj
    by_cases hjx : j = x
    · subst hjx; exact .inr hx
    · rw [upd_ne _ _ hjx] at hj; exact .inl hj

theorem queue_eqs (b : Mem) (i : Nat) (t : String) :
    (b.queue i t).1.connected = b.connected ∧ (b.queue i t).1.size = b.size ∧ (b.queue i t).1.subs = b.subs ∧
    (b.queue i t).1.exit = b.exit ∧ (b.queue i t).1.ctl = b.ctl ∧ (b.queue i t).1.closed = b.closed ∧
    (b.queue i t).1.buf = b.buf ∧ (b.queue i t).1.ctlBuf = b.ctlBuf ∧ (b.queue i t).1.sub = b.sub ∧
    (b.queue i t).1.done = b.done ∧ (b.queue i t).1.crashed = b.crashed := by
  unfold Mem.queue
  cases b.topics.get? t <;> exact ⟨rfl, rfl, rfl, rfl, rfl, rfl, rfl, rfl, rfl, rfl, rfl⟩

theorem MemInv.setBuf {ops : Nat → Option Op} {b : Mem} (h : MemInv ops b) (ch : Nat) (l : List (Nat × Msg))
    (hl : ∀ p m, (p, m) ∈ l → ∃ ctx t, ops p = some (.pub ctx t m) ∧ OnTopic ops ch t) :
    MemInv ops { b with buf := upd b.buf ch l } := by
  refine ⟨h.topics, h.subs, ?_, h.exit, h.closed, h.live⟩
  intro c p m hp
  dsimp only at hp
  by_cases hc : c = ch
  · subst hc; rw [upd_self] at hp; exact hl p m hp
  · rw [upd_ne _ _ hc] at hp; exact h.buf c p m hp

theorem isSub_of {ops : Nat → Option Op} {b : Mem} (h : MemInv ops b) {x : Nat} {o : Sub}
    (ho : b.sub x = some o) : IsSub ops x := ⟨_, _, (h.subs x o ho).1⟩

/-- Every step keeps the invariant, ends at a position that fits, and starts only goroutines of the
broker. -/
theorem micro_inv {ops : Nat → Option Op} {b b' : Mem} {i : Nat} {pc pc' : PC} {a : Alt} {evs : List Ev}
    {g : Option PC} (hm : MemInv ops b) (hf : Fits ops b i pc)
    (h : micro b i pc a = some (b', pc', evs, g)) :
    MemInv ops b' ∧ Fits ops b' i pc' ∧ Keeps ops b b' i ∧
    ∀ g', g = some g' → ∀ j b'', ops j = none → Fits ops b'' j g' := by
  have kr := Keeps.refl ops b i
  cases pc with
  | openChk ctx =>
    cases a <;> simp only [micro, reduceCtorEq, Option.some.injEq, Prod.mk.injEq] at h
    obtain ⟨rfl, rfl, rfl, rfl⟩ := h
    refine ⟨hm, ?_, kr, fun _ e => by cases e⟩
    split
    · show RetOk (ops i) _
      rw [hf.1]; trivial
    · exact hf
  | openSet ctx =>
    cases a <;> simp only [micro, reduceCtorEq, Option.some.injEq, Prod.mk.injEq] at h
    obtain ⟨rfl, rfl, rfl, rfl⟩ := h
    refine ⟨⟨hm.topics, hm.subs, hm.buf, ?_, hm.closed, ?_⟩, ?_, ?_, ?_⟩
    · intro e he; cases he; exact ⟨ctx, hf.1⟩
    · intro _; exact ⟨i, rfl, hf.2.2⟩
    · show RetOk (ops i) _
      rw [hf.1]; trivial
    · refine ⟨fun _ h => h, ?_, fun _ _ _ h => .inl h⟩
      intro j hj e
      cases e; exact (hj rfl).elim
    · intro g' e j b'' hj; cases e; exact hj
  | closing =>
    cases a <;> simp only [micro, reduceCtorEq, Option.some.injEq, Prod.mk.injEq] at h
    obtain ⟨rfl, rfl, rfl, rfl⟩ := h
    refine ⟨hm.close_inv i, ?_, .close hm i i, fun _ e => by cases e⟩
    show RetOk (ops i) _
    rw [show ops i = _ from hf]; trivial
  | pubChk ctx t m =>
    cases a <;> simp only [micro, reduceCtorEq, Option.some.injEq, Prod.mk.injEq] at h
    obtain ⟨rfl, rfl, rfl, rfl⟩ := h
    refine ⟨hm, ?_, kr, fun _ e => by cases e⟩
    split
    · exact hf
    · show RetOk (ops i) _
      rw [show ops i = _ from hf]; trivial
  | pubGet ctx t m =>
    cases a <;> simp only [micro, reduceCtorEq, Option.some.injEq, Prod.mk.injEq] at h
    obtain ⟨rfl, rfl, rfl, rfl⟩ := h
    have hq := hm.queue i t (.inl ⟨ctx, m, hf⟩)
    obtain ⟨_, _, _, h4, _, h6, _, _, _, h10, _⟩ := queue_eqs b i t
    refine ⟨hq.1, ⟨t, hf, hq.2⟩, ⟨?_, ?_, ?_⟩, fun _ e => by cases e⟩
    · intro c; rw [h10]; exact id
    · intro j _; rw [h4]; exact id
    · intro j ctx _; rw [h6]; exact .inl
  | pubRead ctx q m =>
    cases a <;> simp only [micro, reduceCtorEq, Option.some.injEq, Prod.mk.injEq] at h
    obtain ⟨rfl, rfl, rfl, rfl⟩ := h
    exact ⟨hm, hf, kr, fun _ e => by cases e⟩
  | pubSel ctx q e m =>
    obtain ⟨t, h1, h2⟩ := hf
    have hr : ∀ r, RetOk (some (.pub ctx t m)) r → RetOk (ops i) r := fun r hr => by rw [h1]; exact hr
    cases a <;> simp only [micro, reduceCtorEq] at h
    · split at h <;> simp only [reduceCtorEq, Option.some.injEq, Prod.mk.injEq] at h
      next hd =>
      obtain ⟨rfl, rfl, rfl, rfl⟩ := h
      exact ⟨hm, ⟨ctx, t, m, h1, hd⟩, kr, fun _ e => by cases e⟩
    · split at h <;> simp only [reduceCtorEq, Option.some.injEq, Prod.mk.injEq] at h
      obtain ⟨rfl, rfl, rfl, rfl⟩ := h
      exact ⟨hm, hr _ trivial, kr, fun _ e => by cases e⟩
    · simp only [Option.some.injEq, Prod.mk.injEq] at h
      obtain ⟨rfl, rfl, rfl, rfl⟩ := h
      exact ⟨hm, hr _ trivial, kr, fun _ e => by cases e⟩
    · split at h <;> simp only [reduceCtorEq, Option.some.injEq, Prod.mk.injEq] at h
      obtain ⟨rfl, rfl, rfl, rfl⟩ := h
      refine ⟨hm.setBuf _ _ ?_, hr _ trivial, ⟨fun _ h => h, fun _ _ h => h, fun _ _ _ h => .inl h⟩,
        fun _ e => by cases e⟩
      intro p m' hp
      rcases List.mem_append.mp hp with hp | hp
      · exact hm.buf _ p m' hp
      · simp only [List.mem_singleton, Prod.mk.injEq] at hp
        obtain ⟨rfl, rfl⟩ := hp
        exact ⟨ctx, t, h1, h2⟩
  | pubClose =>
    obtain ⟨ctx, t, m, h1, h2⟩ := hf
    cases a <;> simp only [micro, reduceCtorEq, Option.some.injEq, Prod.mk.injEq] at h
    obtain ⟨rfl, rfl, rfl, rfl⟩ := h
    refine ⟨hm.close_inv i, ?_, .close hm i i, fun _ e => by cases e⟩
    show RetOk (ops i) _
    rw [h1]; trivial
  | subChk t u =>
    cases a <;> simp only [micro, reduceCtorEq, Option.some.injEq, Prod.mk.injEq] at h
    obtain ⟨rfl, rfl, rfl, rfl⟩ := h
    refine ⟨hm, ?_, kr, fun _ e => by cases e⟩
    split
    · exact hf
    · show RetOk (ops i) _
      rw [show ops i = _ from hf]; trivial
  | subMake t u =>
    cases a <;> simp only [micro, reduceCtorEq, Option.some.injEq, Prod.mk.injEq] at h
    obtain ⟨rfl, rfl, rfl, rfl⟩ := h
    have hq := hm.queue i t (.inr ⟨u, hf⟩)
    obtain ⟨_, _, _, h4, _, h6, _, _, _, h10, _⟩ := queue_eqs b i t
    refine ⟨⟨hq.1.topics, ?_, hq.1.buf, hq.1.exit, hq.1.closed, hq.1.live⟩, ?_, ⟨?_, ?_, ?_⟩,
      fun _ e => by cases e⟩
    · intro x o hx
      dsimp only at hx
      by_cases hxi : x = i
      · subst hxi
        rw [upd_self] at hx
        cases hx
        exact ⟨hf, hq.2⟩
      · rw [upd_ne _ _ hxi] at hx
        exact hq.1.subs x o hx
    · show RetOk (ops i) _
      rw [show ops i = _ from hf]; trivial
    · intro c; dsimp only; rw [h10]; exact id
    · intro j _; dsimp only; rw [h4]; exact id
    · intro j ctx _; dsimp only; rw [h6]; exact .inl
  | recvChk ctx x =>
    cases a <;> simp only [micro, reduceCtorEq] at h
    cases ho : b.sub x with
    | none => simp [ho] at h
    | some o =>
      simp only [ho, Option.some.injEq, Prod.mk.injEq] at h
      obtain ⟨rfl, rfl, rfl, rfl⟩ := h
      refine ⟨hm, ?_, kr, fun _ e => by cases e⟩
      split
      · exact hf
      · show RetOk (ops i) _
        rw [hf.1]; trivial
  | recvSel ctx x =>
    have hr : ∀ r, RetOk (some (.receive ctx x)) r → RetOk (ops i) r := fun r hr => by rw [hf.1]; exact hr
    cases a <;> simp only [micro, reduceCtorEq] at h
    · split at h <;> simp only [reduceCtorEq, Option.some.injEq, Prod.mk.injEq] at h
      obtain ⟨rfl, rfl, rfl, rfl⟩ := h
      exact ⟨hm, hr _ trivial, kr, fun _ e => by cases e⟩
    · cases ho : b.sub x with
      | none => simp [ho] at h
      | some o =>
        simp only [ho] at h
        split at h <;> simp only [reduceCtorEq, Option.some.injEq, Prod.mk.injEq] at h
        obtain ⟨rfl, rfl, rfl, rfl⟩ := h
        exact ⟨hm, hr _ trivial, kr, fun _ e => by cases e⟩
    · simp only [Option.some.injEq, Prod.mk.injEq] at h
      obtain ⟨rfl, rfl, rfl, rfl⟩ := h
      exact ⟨hm, ⟨⟨ctx, hf.1⟩, hf.2⟩, kr, fun _ e => by cases e⟩
    · split at h <;> simp only [reduceCtorEq, Option.some.injEq, Prod.mk.injEq] at h
      obtain ⟨rfl, rfl, rfl, rfl⟩ := h
      exact ⟨hm, hr _ trivial, kr, fun _ e => by cases e⟩
    · cases ho : b.sub x with
      | none => simp [ho] at h
      | some o =>
        simp only [ho] at h
        cases hb : b.buf o.queue.msg with
        | nil => simp [hb] at h
        | cons pm r =>
          obtain ⟨p, m⟩ := pm
          simp only [hb, Option.some.injEq, Prod.mk.injEq] at h
          obtain ⟨rfl, rfl, rfl, rfl⟩ := h
          refine ⟨hm.setBuf _ _ ?_, ⟨ctx, x, hf.1⟩, ⟨fun _ h => h, fun _ _ h => h, fun _ _ _ h => .inl h⟩,
            fun _ e => by cases e⟩
          intro p' m' hp
          exact hm.buf _ p' m' (by rw [hb]; exact List.mem_cons_of_mem _ hp)
  | recvDrop x =>
    obtain ⟨⟨ctx, h1⟩, h2⟩ := hf
    have hr : ∀ r, RetOk (some (.receive ctx x)) r → RetOk (ops i) r := fun r hr => by rw [h1]; exact hr
    cases a <;> simp only [micro, reduceCtorEq] at h
    cases ho : b.sub x with
    | none => simp [ho] at h
    | some o =>
      simp only [ho] at h
      cases hb : b.buf o.queue.msg with
      | nil =>
        simp only [hb, Option.some.injEq, Prod.mk.injEq] at h
        obtain ⟨rfl, rfl, rfl, rfl⟩ := h
        exact ⟨hm, hr _ trivial, kr, fun _ e => by cases e⟩
      | cons pm r =>
        obtain ⟨p, m⟩ := pm
        simp only [hb, Option.some.injEq, Prod.mk.injEq] at h
        obtain ⟨rfl, rfl, rfl, rfl⟩ := h
        refine ⟨hm.setBuf _ _ ?_, hr _ trivial, ⟨fun _ h => h, fun _ _ h => h, fun _ _ _ h => .inl h⟩,
          fun _ e => by cases e⟩
        intro p' m' hp
        exact hm.buf _ p' m' (by rw [hb]; exact List.mem_cons_of_mem _ hp)
  | handling m =>
    obtain ⟨ctx, x, h1⟩ := hf
    cases a <;> simp only [micro, reduceCtorEq, Option.some.injEq, Prod.mk.injEq] at h
    next e =>
    obtain ⟨rfl, rfl, rfl, rfl⟩ := h
    refine ⟨hm, ?_, kr, fun _ e => by cases e⟩
    show RetOk (ops i) _
    rw [h1]
    cases e <;> trivial
  | unsubChk x =>
    cases a <;> simp only [micro, reduceCtorEq] at h
    cases ho : b.sub x with
    | none => simp [ho] at h
    | some o =>
      simp only [ho, Option.some.injEq, Prod.mk.injEq] at h
      obtain ⟨rfl, rfl, rfl, rfl⟩ := h
      refine ⟨hm, ?_, kr, fun _ e => by cases e⟩
      split
      · exact hf
      · show RetOk (ops i) _
        rw [hf.1]; trivial
  | unsubClose x =>
    cases a <;> simp only [micro, reduceCtorEq] at h
    split at h <;> simp only [Option.some.injEq, Prod.mk.injEq] at h
    · obtain ⟨rfl, rfl, rfl, rfl⟩ := h
      exact ⟨⟨hm.topics, hm.subs, hm.buf, hm.exit, hm.closed, hm.live⟩, hf,
        ⟨fun _ h => h, fun _ _ h => h, fun _ _ _ h => .inl h⟩, fun _ e => by cases e⟩
    · obtain ⟨rfl, rfl, rfl, rfl⟩ := h
      obtain ⟨t, u, hx⟩ := hf.2
      refine ⟨⟨hm.topics, hm.subs, hm.buf, hm.exit, ?_, ?_⟩, hf, ⟨fun _ h => h, fun _ _ h => h, ?_⟩,
        fun _ e => by cases e⟩
      · intro j hj
        dsimp only at hj
        by_cases hjx : j = x
        · subst hjx; exact .inr hf.2
        · rw [upd_ne _ _ hjx] at hj; exact hm.closed j hj
      · intro hc
        obtain ⟨e, he, hcl⟩ := hm.live hc
        refine ⟨e, he, ?_⟩
        obtain ⟨c, hoc⟩ := hm.exit e he
        have : e ≠ x := by rintro rfl; rw [hx] at hoc; cases hoc
        dsimp only
        rw [upd_ne _ _ this]; exact hcl
      · intro j c hj hcl
        have : j ≠ x := by rintro rfl; rw [hx] at hj; cases hj
        dsimp only at hcl
        rw [upd_ne _ _ this] at hcl; exact .inl hcl
  | unsubSet x =>
    cases a <;> simp only [micro, reduceCtorEq] at h
    cases ho : b.sub x with
    | none => simp [ho] at h
    | some o =>
      simp only [ho, Option.some.injEq, Prod.mk.injEq] at h
      obtain ⟨rfl, rfl, rfl, rfl⟩ := h
      refine ⟨⟨hm.topics, ?_, hm.buf, hm.exit, hm.closed, hm.live⟩, hf,
        ⟨fun _ h => h, fun _ _ h => h, fun _ _ _ h => .inl h⟩, fun _ e => by cases e⟩
      intro y o' hy
      dsimp only at hy
      by_cases hyx : y = x
      · subst hyx
        rw [upd_self] at hy
        cases hy
        exact hm.subs y o ho
      · rw [upd_ne _ _ hyx] at hy
        exact hm.subs y o' hy
  | unsubGo x =>
    cases a <;> simp only [micro, reduceCtorEq, Option.some.injEq, Prod.mk.injEq] at h
    obtain ⟨rfl, rfl, rfl, rfl⟩ := h
    refine ⟨hm, ?_, kr, ?_⟩
    · show RetOk (ops i) _
      rw [hf.1]; trivial
    · intro g' e j b'' hj; cases e; exact ⟨hj, hf.2⟩
  | notify x =>
    have hr : RetOk (ops i) .nil := by rw [hf.1]; trivial
    cases a <;> simp only [micro, reduceCtorEq] at h
    · cases ho : b.sub x with
      | none => simp [ho] at h
      | some o =>
        simp only [ho] at h
        split at h <;> simp only [reduceCtorEq, Option.some.injEq, Prod.mk.injEq] at h
        obtain ⟨rfl, rfl, rfl, rfl⟩ := h
        exact ⟨hm, hr, kr, fun _ e => by cases e⟩
    · cases ho : b.sub x with
      | none => simp [ho] at h
      | some o =>
        simp only [ho] at h
        cases hc : o.ctl with
        | none => simp [hc] at h
        | some c =>
          simp only [hc] at h
          split at h <;> simp only [reduceCtorEq, Option.some.injEq, Prod.mk.injEq] at h
          obtain ⟨rfl, rfl, rfl, rfl⟩ := h
          exact ⟨⟨hm.topics, hm.subs, hm.buf, hm.exit, hm.closed, hm.live⟩, hr,
            ⟨fun _ h => h, fun _ _ h => h, fun _ _ _ h => .inl h⟩, fun _ e => by cases e⟩
  | run ctx =>
    cases a <;> simp only [micro, reduceCtorEq, Option.some.injEq, Prod.mk.injEq] at h
    obtain ⟨rfl, rfl, rfl, rfl⟩ := h
    exact ⟨hm, hf, kr, fun _ e => by cases e⟩
  | runCtl ctx e =>
    cases a <;> simp only [micro, reduceCtorEq, Option.some.injEq, Prod.mk.injEq] at h <;>
      obtain ⟨rfl, rfl, rfl, rfl⟩ := h <;> exact ⟨hm, hf, kr, fun _ e => by cases e⟩
  | runSel ctx e c =>
    cases a <;> simp only [micro, reduceCtorEq] at h
    · split at h <;> simp only [reduceCtorEq, Option.some.injEq, Prod.mk.injEq] at h
      obtain ⟨rfl, rfl, rfl, rfl⟩ := h
      exact ⟨hm, hf, kr, fun _ e => by cases e⟩
    · split at h <;> simp only [reduceCtorEq, Option.some.injEq, Prod.mk.injEq] at h
      obtain ⟨rfl, rfl, rfl, rfl⟩ := h
      exact ⟨hm, hf, kr, fun _ e => by cases e⟩
    · cases c with
      | none => simp at h
      | some c =>
        dsimp only at h
        cases hb : b.ctlBuf c with
        | nil => simp [hb] at h
        | cons ut r =>
          obtain ⟨u, t⟩ := ut
          simp only [hb, Option.some.injEq, Prod.mk.injEq] at h
          obtain ⟨rfl, rfl, rfl, rfl⟩ := h
          exact ⟨⟨hm.topics, hm.subs, hm.buf, hm.exit, hm.closed, hm.live⟩, hf,
            ⟨fun _ h => h, fun _ _ h => h, fun _ _ _ h => .inl h⟩, fun _ e => by cases e⟩
  | runDel ctx t u =>
    cases a <;> simp only [micro, reduceCtorEq] at h
    cases hs : b.subs.get? t with
    | none =>
      simp only [hs, Option.some.injEq, Prod.mk.injEq] at h
      obtain ⟨rfl, rfl, rfl, rfl⟩ := h
      exact ⟨hm, hf, kr, fun _ e => by cases e⟩
    | some inner =>
      simp only [hs, Option.some.injEq, Prod.mk.injEq] at h
      obtain ⟨rfl, rfl, rfl, rfl⟩ := h
      exact ⟨⟨hm.topics, hm.subs, hm.buf, hm.exit, hm.closed, hm.live⟩, hf,
        ⟨fun _ h => h, fun _ _ h => h, fun _ _ _ h => .inl h⟩, fun _ e => by cases e⟩
  | runClose =>
    cases a <;> simp only [micro, reduceCtorEq, Option.some.injEq, Prod.mk.injEq] at h
    obtain ⟨rfl, rfl, rfl, rfl⟩ := h
    refine ⟨hm.close_inv i, ?_, .close hm i i, fun _ e => by cases e⟩
    show RetOk (ops i) _
    rw [show ops i = _ from hf]; trivial
  | done r =>
    cases a <;> simp only [micro, reduceCtorEq] at h

/-- The two shapes of a hand-over. -/
theorem meet_cases {b : Mem} {p r : Nat} {pc pr pc' pr' : PC} {evs : List Ev}
    (h : meet b p r pc pr = some (pc', pr', evs)) :
    ∃ ctx q e m x o, pc = .pubSel ctx q e m ∧ b.sub x = some o ∧ o.queue.msg = q.msg ∧ b.size = 0 ∧
      pc' = .done .nil ∧
      ((∃ c, pr = .recvSel c x ∧ pr' = .handling m ∧
          evs = [.sent p q.msg, .took r q.msg p, .handle r m]) ∨
       (pr = .recvDrop x ∧ pr' = .done .timeout ∧ evs = [.sent p q.msg, .took r q.msg p])) := by
  unfold meet at h
  split at h
  · next ctx q e m c x =>
    cases ho : b.sub x with
    | none => simp [ho] at h
    | some o =>
      simp only [ho] at h
      split at h
      · next hh =>
        simp only [Option.some.injEq, Prod.mk.injEq] at h
        obtain ⟨rfl, rfl, rfl⟩ := h
        exact ⟨ctx, q, e, m, x, o, rfl, ho, hh.2, hh.1, rfl, .inl ⟨c, rfl, rfl, rfl⟩⟩
      · cases h
  · next ctx q e m x =>
    cases ho : b.sub x with
    | none => simp [ho] at h
    | some o =>
      simp only [ho] at h
      split at h
      · next hh =>
        simp only [Option.some.injEq, Prod.mk.injEq] at h
        obtain ⟨rfl, rfl, rfl⟩ := h
        exact ⟨ctx, q, e, m, x, o, rfl, ho, hh.2, hh.1, rfl, .inr ⟨rfl, rfl, rfl⟩⟩
      · cases h
  · cases h

structure Inv (s : St) : Prop where
  calls : ∀ j, s.next ≤ j → s.calls j = none
  ops : ∀ j, s.next ≤ j → s.ops j = none
  fits : ∀ i pc, s.calls i = some pc → Fits s.ops s.b i pc
  mem : MemInv s.ops s.b

theorem _root_.Netscrape.Spec.Broker.OnTopic.upd {ops : Nat → Option Op} {n : Nat} {ch : Nat} {t : String} {op : Op} (hn : ops n = none)
    (h : OnTopic ops ch t) : OnTopic (upd ops n (some op)) ch t := by
  have : ch ≠ n := by
    rintro rfl
    rcases h with ⟨_, _, h⟩ | ⟨_, h⟩ <;> rw [hn] at h <;> cases h
  unfold OnTopic
  rw [upd_ne _ _ this]
  exact h

theorem ops_upd {ops : Nat → Option Op} {n i : Nat} {op o : Op} (hn : ops n = none) (h : ops i = some o) :
    upd ops n (some op) i = some o := by
  have : i ≠ n := by rintro rfl; rw [hn] at h; cases h
  rw [upd_ne _ _ this]; exact h

theorem IsSub.upd {ops : Nat → Option Op} {n x : Nat} {op : Op} (hn : ops n = none)
    (h : IsSub ops x) : IsSub (upd ops n (some op)) x := by
  obtain ⟨t, u, h⟩ := h
  exact ⟨t, u, ops_upd hn h⟩

theorem MemInv.upd {ops : Nat → Option Op} {b : Mem} {n : Nat} (op : Op) (hn : ops n = none)
    (h : MemInv ops b) : MemInv (upd ops n (some op)) b where
  topics t q hq := (h.topics t q hq).upd hn
  subs x o ho := ⟨ops_upd hn (h.subs x o ho).1, (h.subs x o ho).2.upd hn⟩
  buf ch p m hp := by
    obtain ⟨ctx, t, h1, h2⟩ := h.buf ch p m hp
    exact ⟨ctx, t, ops_upd hn h1, h2.upd hn⟩
  exit e he := by
    obtain ⟨ctx, h1⟩ := h.exit e he
    exact ⟨ctx, ops_upd hn h1⟩
  closed j hj := by
    rcases h.closed j hj with ⟨ctx, h1⟩ | h1
    · exact .inl ⟨ctx, ops_upd hn h1⟩
    · exact .inr (h1.upd hn)
  live := h.live

theorem Fits.upd {ops : Nat → Option Op} {b : Mem} {n i : Nat} {op : Op} {pc : PC} (hn : ops n = none)
    (hi : i ≠ n) (h : Fits ops b i pc) : Fits (upd ops n (some op)) b i pc := by
  cases pc with
  | pubRead ctx q m | pubSel ctx q e m =>
    obtain ⟨t, h1, h2⟩ := h
    exact ⟨t, ops_upd hn h1, h2.upd hn⟩
  | recvDrop x => exact ⟨h.1.imp fun _ => ops_upd hn, h.2.upd hn⟩
  | recvChk ctx x | recvSel ctx x | unsubChk x | unsubClose x | unsubSet x | unsubGo x =>
    exact ⟨ops_upd hn h.1, h.2.upd hn⟩
  | notify x => exact ⟨by rw [upd_ne _ _ hi]; exact h.1, h.2.upd hn⟩
  | _ => simpa only [Fits, upd_ne _ _ hi] using h

theorem Inv.next {s : St} (h : Inv s) {i : Nat} {pc : PC} (hi : s.calls i = some pc) : i ≠ s.next := by
  rintro rfl
  rw [h.calls _ (Nat.le_refl _)] at hi
  cases hi

theorem inv_tr {s s' : St} {a : Act} (h : Inv s) (ht : Tr s a s') : Inv s' := by
  have hn : s.ops s.next = none := h.ops _ (Nat.le_refl _)
  cases ht with
  | call op hop =>
    refine ⟨?_, ?_, ?_, h.mem.upd op hn⟩
    · intro j hj
      dsimp only at hj ⊢
      rw [upd_ne _ _ (by omega)]; exact h.calls j (by omega)
    · intro j hj
      dsimp only at hj ⊢
      rw [upd_ne _ _ (by omega)]; exact h.ops j (by omega)
    · intro i pc hi
      dsimp only at hi ⊢
      by_cases hin : i = s.next
      · subst hin
        rw [upd_self] at hi
        cases hi
        have hs : ∀ x, (s.b.sub x).isSome = true → IsSub (upd s.ops s.next (some op)) x := by
          intro x hx
          obtain ⟨o, ho⟩ := Option.isSome_iff_exists.mp hx
          exact (isSub_of h.mem ho).upd hn
        cases op with
        | «open» ctx =>
          refine ⟨upd_self _ _ _, ?_, ?_⟩
          · intro e
            obtain ⟨c, hc⟩ := h.mem.exit _ e
            rw [hn] at hc; cases hc
          · cases hc : s.b.closed s.next with
            | false => rfl
            | true =>
              rcases h.mem.closed _ hc with ⟨_, e⟩ | ⟨_, _, e⟩ <;> rw [hn] at e <;> cases e
        | receive ctx x => exact ⟨upd_self _ _ _, hs x hop⟩
        | unsubscribe x => exact ⟨upd_self _ _ _, hs x hop⟩
        | _ => exact upd_self _ _ _
      · rw [upd_ne _ _ hin] at hi
        exact (h.fits i pc hi).upd hn hin
  | cancel ctx =>
    refine ⟨h.calls, h.ops, ?_, ⟨h.mem.topics, h.mem.subs, h.mem.buf, h.mem.exit, h.mem.closed, h.mem.live⟩⟩
    intro i pc hi
    refine Keeps.fits (b := s.b) (i := i + 1) ⟨?_, fun _ _ h => h, fun _ _ _ h => .inl h⟩ (by omega)
      (h.fits i pc hi)
    intro c hc
    dsimp only
    by_cases e : c = ctx
    · subst e; exact upd_self _ _ _
    · rw [upd_ne _ _ e]; exact hc
  | step i a pc pc' b' evs hi hm =>
    obtain ⟨h1, h2, h3, _⟩ := micro_inv h.mem (h.fits i pc hi) hm
    have hlt := h.next hi
    refine ⟨?_, h.ops, ?_, h1⟩
    · intro j hj
      dsimp only at hj ⊢
      by_cases hji : j = i
      · subst hji; rw [h.calls j hj] at hi; cases hi
      · rw [upd_ne _ _ hji]; exact h.calls j hj
    · intro j pcj hj
      dsimp only at hj ⊢
      by_cases hji : j = i
      · subst hji; rw [upd_self] at hj; cases hj; exact h2
      · rw [upd_ne _ _ hji] at hj; exact h3.fits hji (h.fits j pcj hj)
  | spawn i a pc pc' g b' evs hi hm =>
    obtain ⟨h1, h2, h3, h4⟩ := micro_inv h.mem (h.fits i pc hi) hm
    have hlt := h.next hi
    refine ⟨?_, fun j hj => h.ops j (by dsimp only at hj; omega), ?_, h1⟩
    · intro j hj
      dsimp only at hj ⊢
      rw [upd_ne _ _ (by omega)]
      by_cases hji : j = i
      · subst hji; rw [h.calls j (by omega)] at hi; cases hi
      · rw [upd_ne _ _ hji]; exact h.calls j (by omega)
    · intro j pcj hj
      dsimp only at hj ⊢
      by_cases hjn : j = s.next
      · subst hjn
        rw [upd_self] at hj
        cases hj
        exact h4 _ rfl _ _ hn
      · rw [upd_ne _ _ hjn] at hj
        by_cases hji : j = i
        · subst hji; rw [upd_self] at hj; cases hj; exact h2
        · rw [upd_ne _ _ hji] at hj; exact h3.fits hji (h.fits j pcj hj)
  | meet p r pc pr pc' pr' evs hp hr hm =>
    obtain ⟨ctx, q, e, m, x, o, rfl, ho, hq, hz, rfl, hh⟩ := meet_cases hm
    obtain ⟨t, hp1, hp2⟩ := h.fits p _ hp
    have hpn := h.next hp
    have hrn := h.next hr
    refine ⟨?_, h.ops, ?_, h.mem⟩
    · intro j hj
      dsimp only at hj ⊢
      have e1 : j ≠ r := by rintro rfl; rw [h.calls j hj] at hr; cases hr
      have e2 : j ≠ p := by rintro rfl; rw [h.calls j hj] at hp; cases hp
      rw [upd_ne _ _ e1, upd_ne _ _ e2]; exact h.calls j hj
    · intro j pcj hj
      dsimp only at hj ⊢
      by_cases hjr : j = r
      · subst hjr
        rw [upd_self] at hj
        cases hj
        have hf := h.fits j _ hr
        rcases hh with ⟨c, rfl, rfl, rfl⟩ | ⟨rfl, rfl, rfl⟩
        · exact ⟨c, x, hf.1⟩
        · obtain ⟨c, hc⟩ := hf.1
          show RetOk (s.ops j) _
          rw [hc]; trivial
      · rw [upd_ne _ _ hjr] at hj
        by_cases hjp : j = p
        · subst hjp
          rw [upd_self] at hj
          cases hj
          show RetOk (s.ops j) _
          rw [hp1]; trivial
        · rw [upd_ne _ _ hjp] at hj; exact h.fits j pcj hj
  | ret i r hi =>
    refine ⟨?_, h.ops, ?_, h.mem⟩
    · intro j hj
      dsimp only at hj ⊢
      by_cases hji : j = i
      · subst hji; exact upd_self _ _ _
      · rw [upd_ne _ _ hji]; exact h.calls j hj
    · intro j pcj hj
      dsimp only at hj ⊢
      by_cases hji : j = i
      · subst hji; rw [upd_self] at hj; cases hj
      · rw [upd_ne _ _ hji] at hj; exact h.fits j pcj hj

theorem inv_init (cap : Int) : Inv (.init cap) := by
  refine ⟨fun _ _ => rfl, fun _ _ => rfl, ?_, ⟨?_, ?_, ?_, ?_, ?_, ?_⟩⟩
  · intro i pc h; cases h
  · intro t q h; cases h
  · intro x o h; cases h
  · intro ch p m h; cases h
  · intro e h; cases h
  · intro j h; cases h
  · intro h; cases h

theorem Reach.toInv {cap : Int} {allowed : St → Act → Prop} {s : St} (h : Reach cap allowed s) : Inv s :=
  h.inv (inv_init cap) fun _ _ _ _ hi _ _ ht => inv_tr hi ht

end Netscrape.Broker
