import Verif.Lemmas.Broker

/-!
# The steps of one goroutine, one rule each
-/

namespace Netscrape.Broker
open Netscrape.Conc (upd upd_self upd_ne)
open Netscrape.Spec Netscrape.Spec.Broker

inductive Mic (b : Mem) (i : Nat) : PC → Alt → Mem → PC → List Ev → Option PC → Prop
  | openYes (ctx) : b.connected = true → Mic b i (.openChk ctx) .go b (.done .nil) [] none
  | openNo (ctx) : b.connected = false → Mic b i (.openChk ctx) .go b (.openSet ctx) [] none
  | openSet (ctx) : Mic b i (.openSet ctx) .go { b with connected := true, exit := some i, ctl := some i, ctlWas := b.ctl }
      (.done .nil) [.opened i] (some (.run ctx))
  | closing : Mic b i .closing .go (b.close i).1 (.done .nil) (b.close i).2 none
  | pubYes (ctx t m) : b.connected = true → Mic b i (.pubChk ctx t m) .go b (.pubGet ctx t m) [] none
  | pubNo (ctx t m) : b.connected = false → Mic b i (.pubChk ctx t m) .go b (.done .notConnected) [] none
  | pubGet (ctx t m) : Mic b i (.pubGet ctx t m) .go (b.queue i t).1 (.pubRead ctx (b.queue i t).2 m) [] none
  | pubRead (ctx q m) : Mic b i (.pubRead ctx q m) .go b (.pubSel ctx q b.exit m) [] none
  | pubCtx (ctx q e m) : b.done ctx = true → Mic b i (.pubSel ctx q e m) .ctx b .pubClose [] none
  | pubExit (ctx q e m) : b.isClosed e = true → Mic b i (.pubSel ctx q e m) .exit b (.done .nil) [] none
  | pubTimeout (ctx q e m) : Mic b i (.pubSel ctx q e m) .timeout b (.done .timeout) [] none
  | pubSend (ctx q e m) : (b.buf q.msg).length < b.size → Mic b i (.pubSel ctx q e m) .msg
      { b with buf := upd b.buf q.msg (b.buf q.msg ++ [(i, m)]) } (.done .nil) [.sent i q.msg] none
  | pubClose : Mic b i .pubClose .go (b.close i).1 (.done .nil) (b.close i).2 none
  | subYes (t u) : b.connected = true → Mic b i (.subChk t u) .go b (.subMake t u) [] none
  | subNo (t u) : b.connected = false → Mic b i (.subChk t u) .go b (.done .notConnected) [] none
  | subMake (t u) (subs' : GoMap String (GoMap String Nat)) (inner : GoMap String Nat) :
      subs' = b.subs.set t inner →
      Mic b i (.subMake t u) .go
      { (b.queue i t).1 with
        sub := upd b.sub i (some ⟨u, t, true, (b.queue i t).2, b.ctl⟩), subs := subs', ctl := b.ctl }
      (.done .sub) [] none
  | recvYes (ctx x o) : b.sub x = some o → o.active = true →
      Mic b i (.recvChk ctx x) .go b (.recvSel ctx x) [] none
  | recvNo (ctx x o) : b.sub x = some o → o.active = false →
      Mic b i (.recvChk ctx x) .go b (.done .inactive) [] none
  | recvCtx (ctx x) : b.done ctx = true → Mic b i (.recvSel ctx x) .ctx b (.done .nil) [] none
  | recvTimeout (ctx x) : Mic b i (.recvSel ctx x) .timeout b (.recvDrop x) [] none
  | recvExit (ctx x o) : b.sub x = some o → b.isClosed o.queue.exit = true →
      Mic b i (.recvSel ctx x) .exit b (.done .nil) [] none
  | recvUnsub (ctx x) : b.closed x = true → Mic b i (.recvSel ctx x) .unsub b (.done .nil) [] none
  | recvMsg (ctx x o p m r) : b.sub x = some o → b.buf o.queue.msg = (p, m) :: r →
      Mic b i (.recvSel ctx x) .msg { b with buf := upd b.buf o.queue.msg r } (.handling m)
      [.took i o.queue.msg p, .handle i m] none
  | dropNone (x o) : b.sub x = some o → b.buf o.queue.msg = [] →
      Mic b i (.recvDrop x) .go b (.done .timeout) [] none
  | dropOne (x o p m r) : b.sub x = some o → b.buf o.queue.msg = (p, m) :: r →
      Mic b i (.recvDrop x) .go { b with buf := upd b.buf o.queue.msg r } (.done .timeout)
      [.took i o.queue.msg p] none
  | handledNil (m) : Mic b i (.handling m) (.result none) b (.done .nil) [.handled i none] none
  | handledErr (m e) : Mic b i (.handling m) (.result (some e)) b (.done (.fail e)) [.handled i (some e)] none
  | unsubYes (x o) : b.sub x = some o → o.active = true → Mic b i (.unsubChk x) .go b (.unsubClose x) [] none
  | unsubNo (x o) : b.sub x = some o → o.active = false → Mic b i (.unsubChk x) .go b (.done .nil) [] none
  | unsubCrash (x) : b.closed x = true →
      Mic b i (.unsubClose x) .go { b with crashed := true } (.unsubClose x) [] none
  | unsubClose (x) : b.closed x = false →
      Mic b i (.unsubClose x) .go { b with closed := upd b.closed x true } (.unsubSet x) [] none
  | unsubSet (x o) : b.sub x = some o → Mic b i (.unsubSet x) .go
      { b with sub := upd b.sub x (some { o with active := false }) } (.unsubGo x) [] none
  | unsubGo (x) : Mic b i (.unsubGo x) .go b (.done .nil) [] (some (.notify x))
  | notifyMsg (x c l) : Mic b i (.notify x) .msg { b with ctlBuf := upd b.ctlBuf c l } (.done .nil) [] none
  | notifyExit (x) : Mic b i (.notify x) .exit b (.done .nil) [] none
  | run (ctx) : Mic b i (.run ctx) .go b (.runCtl ctx b.exit) [] none
  | runCtl (ctx e) : Mic b i (.runCtl ctx e) .go b (.runSel ctx e b.ctl) [] none
  | runWas (ctx e) : Mic b i (.runCtl ctx e) .stale b (.runSel ctx e b.ctlWas) [] none
  | runCtx (ctx e c) : b.done ctx = true → Mic b i (.runSel ctx e c) .ctx b .runClose [] none
  | runExit (ctx e c) : b.isClosed e = true → Mic b i (.runSel ctx e c) .exit b .runClose [] none
  | runMsg (ctx e c u t r) : b.ctlBuf c = (u, t) :: r →
      Mic b i (.runSel ctx e (some c)) .msg { b with ctlBuf := upd b.ctlBuf c r } (.runDel ctx t u) [] none
  | runNoDel (ctx t u) : b.subs.get? t = none → Mic b i (.runDel ctx t u) .go b (.run ctx) [] none
  | runDel (ctx t u inner) : b.subs.get? t = some inner → Mic b i (.runDel ctx t u) .go
      { b with subs := b.subs.set t (inner.del u) } (.run ctx) [] none
  | runClose : Mic b i .runClose .go (b.close i).1 (.done .nil) (b.close i).2 none

theorem micro_mic {b b' : Mem} {i : Nat} {pc pc' : PC} {a : Alt} {evs : List Ev} {g : Option PC}
    (h : micro b i pc a = some (b', pc', evs, g)) : Mic b i pc a b' pc' evs g := by
  cases pc with
  | openChk ctx =>
    cases a <;> simp only [micro, reduceCtorEq, Option.some.injEq, Prod.mk.injEq] at h
    obtain ⟨rfl, rfl, rfl, rfl⟩ := h
    cases hc : b.connected
    · simp only [Bool.false_eq_true, if_false]; exact .openNo ctx hc
    · simp only [if_true]; exact .openYes ctx hc
  | openSet ctx =>
    cases a <;> simp only [micro, reduceCtorEq, Option.some.injEq, Prod.mk.injEq] at h
    obtain ⟨rfl, rfl, rfl, rfl⟩ := h
    exact .openSet ctx
  | closing =>
    cases a <;> simp only [micro, reduceCtorEq, Option.some.injEq, Prod.mk.injEq] at h
    obtain ⟨rfl, rfl, rfl, rfl⟩ := h
    exact .closing
  | pubChk ctx t m =>
    cases a <;> simp only [micro, reduceCtorEq, Option.some.injEq, Prod.mk.injEq] at h
    obtain ⟨rfl, rfl, rfl, rfl⟩ := h
    cases hc : b.connected
    · simp only [Bool.false_eq_true, if_false]; exact .pubNo ctx t m hc
    · simp only [if_true]; exact .pubYes ctx t m hc
  | pubGet ctx t m =>
    cases a <;> simp only [micro, reduceCtorEq, Option.some.injEq, Prod.mk.injEq] at h
    obtain ⟨rfl, rfl, rfl, rfl⟩ := h
    exact .pubGet ctx t m
  | pubRead ctx q m =>
    cases a <;> simp only [micro, reduceCtorEq, Option.some.injEq, Prod.mk.injEq] at h
    obtain ⟨rfl, rfl, rfl, rfl⟩ := h
    exact .pubRead ctx q m
  | pubSel ctx q e m =>
    cases a <;> simp only [micro, reduceCtorEq] at h
    · split at h <;> simp only [reduceCtorEq, Option.some.injEq, Prod.mk.injEq] at h
      next hd =>
      obtain ⟨rfl, rfl, rfl, rfl⟩ := h
      exact .pubCtx ctx q e m hd
    · split at h <;> simp only [reduceCtorEq, Option.some.injEq, Prod.mk.injEq] at h
      next hd =>
      obtain ⟨rfl, rfl, rfl, rfl⟩ := h
      exact .pubExit ctx q e m hd
    · simp only [Option.some.injEq, Prod.mk.injEq] at h
      obtain ⟨rfl, rfl, rfl, rfl⟩ := h
      exact .pubTimeout ctx q e m
    · split at h <;> simp only [reduceCtorEq, Option.some.injEq, Prod.mk.injEq] at h
      next hd =>
      obtain ⟨rfl, rfl, rfl, rfl⟩ := h
      exact .pubSend ctx q e m hd
  | pubClose =>
    cases a <;> simp only [micro, reduceCtorEq, Option.some.injEq, Prod.mk.injEq] at h
    obtain ⟨rfl, rfl, rfl, rfl⟩ := h
    exact .pubClose
  | subChk t u =>
    cases a <;> simp only [micro, reduceCtorEq, Option.some.injEq, Prod.mk.injEq] at h
    obtain ⟨rfl, rfl, rfl, rfl⟩ := h
    cases hc : b.connected
    · simp only [Bool.false_eq_true, if_false]; exact .subNo t u hc
    · simp only [if_true]; exact .subYes t u hc
  | subMake t u =>
    cases a <;> simp only [micro, reduceCtorEq, Option.some.injEq, Prod.mk.injEq] at h
    obtain ⟨rfl, rfl, rfl, rfl⟩ := h
    obtain ⟨_, _, h3, _, h5, _, _, _, h9, _, _⟩ := queue_eqs b i t
    rw [h9, h5, h3]
    exact .subMake t u _ _ rfl
  | recvChk ctx x =>
    cases a <;> simp only [micro, reduceCtorEq] at h
    cases ho : b.sub x with
    | none => simp [ho] at h
    | some o =>
      simp only [ho, Option.some.injEq, Prod.mk.injEq] at h
      obtain ⟨rfl, rfl, rfl, rfl⟩ := h
      cases hc : o.active
      · simp only [Bool.false_eq_true, if_false]; exact .recvNo ctx x o ho hc
      · simp only [if_true]; exact .recvYes ctx x o ho hc
  | recvSel ctx x =>
    cases a <;> simp only [micro, reduceCtorEq] at h
    · split at h <;> simp only [reduceCtorEq, Option.some.injEq, Prod.mk.injEq] at h
      next hd =>
      obtain ⟨rfl, rfl, rfl, rfl⟩ := h
      exact .recvCtx ctx x hd
    · cases ho : b.sub x with
      | none => simp [ho] at h
      | some o =>
        simp only [ho] at h
        split at h <;> simp only [reduceCtorEq, Option.some.injEq, Prod.mk.injEq] at h
        next hd =>
        obtain ⟨rfl, rfl, rfl, rfl⟩ := h
        exact .recvExit ctx x o ho hd
    · simp only [Option.some.injEq, Prod.mk.injEq] at h
      obtain ⟨rfl, rfl, rfl, rfl⟩ := h
      exact .recvTimeout ctx x
    · split at h <;> simp only [reduceCtorEq, Option.some.injEq, Prod.mk.injEq] at h
      next hd =>
      obtain ⟨rfl, rfl, rfl, rfl⟩ := h
      exact .recvUnsub ctx x hd
    · cases ho : b.sub x with
      | none => simp [ho] at h
      | some o =>
        simp only [ho] at h
        cases hb : b.buf o.queue.msg with
        | nil => simp [hb] at h
        | cons pm r =>
          obtain ⟨p, m⟩ := pm
          simp only [hb, Option.some.injEq, Prod.mk.injEq] at h
          obtain ⟨rfl, rfl, rfl, rfl⟩ := h
          exact .recvMsg ctx x o p m r ho hb
  | recvDrop x =>
    cases a <;> simp only [micro, reduceCtorEq] at h
    cases ho : b.sub x with
    | none => simp [ho] at h
    | some o =>
      simp only [ho] at h
      cases hb : b.buf o.queue.msg with
      | nil =>
        simp only [hb, Option.some.injEq, Prod.mk.injEq] at h
        obtain ⟨rfl, rfl, rfl, rfl⟩ := h
        exact .dropNone x o ho hb
      | cons pm r =>
        obtain ⟨p, m⟩ := pm
        simp only [hb, Option.some.injEq, Prod.mk.injEq] at h
        obtain ⟨rfl, rfl, rfl, rfl⟩ := h
        exact .dropOne x o p m r ho hb
  | handling m =>
    cases a <;> simp only [micro, reduceCtorEq, Option.some.injEq, Prod.mk.injEq] at h
    next e =>
    obtain ⟨rfl, rfl, rfl, rfl⟩ := h
    cases e with
    | none => exact .handledNil m
    | some e => exact .handledErr m e
  | unsubChk x =>
    cases a <;> simp only [micro, reduceCtorEq] at h
    cases ho : b.sub x with
    | none => simp [ho] at h
    | some o =>
      simp only [ho, Option.some.injEq, Prod.mk.injEq] at h
      obtain ⟨rfl, rfl, rfl, rfl⟩ := h
      cases hc : o.active
      · simp only [Bool.false_eq_true, if_false]; exact .unsubNo x o ho hc
      · simp only [if_true]; exact .unsubYes x o ho hc
  | unsubClose x =>
    cases a <;> simp only [micro, reduceCtorEq] at h
    split at h <;> simp only [Option.some.injEq, Prod.mk.injEq] at h
    · next hc =>
      obtain ⟨rfl, rfl, rfl, rfl⟩ := h
      exact .unsubCrash x hc
    · next hc =>
      obtain ⟨rfl, rfl, rfl, rfl⟩ := h
      exact .unsubClose x (by simpa using hc)
  | unsubSet x =>
    cases a <;> simp only [micro, reduceCtorEq] at h
    cases ho : b.sub x with
    | none => simp [ho] at h
    | some o =>
      simp only [ho, Option.some.injEq, Prod.mk.injEq] at h
      obtain ⟨rfl, rfl, rfl, rfl⟩ := h
      exact .unsubSet x o ho
  | unsubGo x =>
    cases a <;> simp only [micro, reduceCtorEq, Option.some.injEq, Prod.mk.injEq] at h
    obtain ⟨rfl, rfl, rfl, rfl⟩ := h
    exact .unsubGo x
  | notify x =>
    cases a <;> simp only [micro, reduceCtorEq] at h
    · cases ho : b.sub x with
      | none => simp [ho] at h
      | some o =>
        simp only [ho] at h
        split at h <;> simp only [reduceCtorEq, Option.some.injEq, Prod.mk.injEq] at h
        obtain ⟨rfl, rfl, rfl, rfl⟩ := h
        exact .notifyExit x
    · cases ho : b.sub x with
      | none => simp [ho] at h
      | some o =>
        simp only [ho] at h
        cases hc : o.ctl with
        | none => simp [hc] at h
        | some c =>
          simp only [hc] at h
          split at h <;> simp only [reduceCtorEq, Option.some.injEq, Prod.mk.injEq] at h
          obtain ⟨rfl, rfl, rfl, rfl⟩ := h
          exact .notifyMsg x c _
  | run ctx =>
    cases a <;> simp only [micro, reduceCtorEq, Option.some.injEq, Prod.mk.injEq] at h
    obtain ⟨rfl, rfl, rfl, rfl⟩ := h
    exact .run ctx
  | runCtl ctx e =>
    cases a <;> simp only [micro, reduceCtorEq, Option.some.injEq, Prod.mk.injEq] at h <;>
      obtain ⟨rfl, rfl, rfl, rfl⟩ := h
    · exact .runCtl ctx e
    · exact .runWas ctx e
  | runSel ctx e c =>
    cases a <;> simp only [micro, reduceCtorEq] at h
    · split at h <;> simp only [reduceCtorEq, Option.some.injEq, Prod.mk.injEq] at h
      next hd =>
      obtain ⟨rfl, rfl, rfl, rfl⟩ := h
      exact .runCtx ctx e c hd
    · split at h <;> simp only [reduceCtorEq, Option.some.injEq, Prod.mk.injEq] at h
      next hd =>
      obtain ⟨rfl, rfl, rfl, rfl⟩ := h
      exact .runExit ctx e c hd
    · cases c with
      | none => simp at h
      | some c =>
        dsimp only at h
        cases hb : b.ctlBuf c with
        | nil => simp [hb] at h
        | cons ut r =>
          obtain ⟨u, t⟩ := ut
          simp only [hb, Option.some.injEq, Prod.mk.injEq] at h
          obtain ⟨rfl, rfl, rfl, rfl⟩ := h
          exact .runMsg ctx e c u t r hb
  | runDel ctx t u =>
    cases a <;> simp only [micro, reduceCtorEq] at h
    cases hs : b.subs.get? t with
    | none =>
      simp only [hs, Option.some.injEq, Prod.mk.injEq] at h
      obtain ⟨rfl, rfl, rfl, rfl⟩ := h
      exact .runNoDel ctx t u hs
    | some inner =>
      simp only [hs, Option.some.injEq, Prod.mk.injEq] at h
      obtain ⟨rfl, rfl, rfl, rfl⟩ := h
      exact .runDel ctx t u inner hs
  | runClose =>
    cases a <;> simp only [micro, reduceCtorEq, Option.some.injEq, Prod.mk.injEq] at h
    obtain ⟨rfl, rfl, rfl, rfl⟩ := h
    exact .runClose
  | done r =>
    cases a <;> simp only [micro, reduceCtorEq] at h

theorem close_buf (b : Mem) (i : Nat) : (b.close i).1.buf = b.buf ∧ (b.close i).1.size = b.size ∧
    (b.close i).1.sub = b.sub ∧ (b.close i).1.done = b.done ∧ (b.close i).1.ctlBuf = b.ctlBuf ∧
    (b.close i).1.exit = b.exit ∧ (b.close i).1.ctl = b.ctl ∧
    ((b.close i).2 = [] ∨ (b.close i).2 = [.closed i]) := by
  unfold Mem.close
  split
  · split
    · exact ⟨rfl, rfl, rfl, rfl, rfl, rfl, rfl, .inl rfl⟩
    · split
      · exact ⟨rfl, rfl, rfl, rfl, rfl, rfl, rfl, .inl rfl⟩
      · exact ⟨rfl, rfl, rfl, rfl, rfl, rfl, rfl, .inr rfl⟩
  · exact ⟨rfl, rfl, rfl, rfl, rfl, rfl, rfl, .inl rfl⟩

/-! ## What happens to messages -/

/-- The goroutine an event is about; `none` for the opening and closing of the broker. -/
def subj : Ev → Option Nat
  | .call i => some i
  | .ret i _ => some i
  | .sent p _ => some p
  | .took r _ _ => some r
  | .handle r _ => some r
  | .handled r _ => some r
  | .opened _ => none
  | .closed _ => none

/-- A step that moves no message. -/
structure Quiet (b b' : Mem) (i : Nat) (pc pc' : PC) (evs : List Ev) : Prop where
  from_done : ∀ r, pc ≠ .done r
  from_handling : ∀ m, pc ≠ .handling m
  to_handling : ∀ m, pc' ≠ .handling m
  to_fail : ∀ e, pc' ≠ .done (.fail e)
  buf : b'.buf = b.buf
  evs : ∀ e ∈ evs, e = .opened i ∨ e = .closed i

theorem mic_kind {b b' : Mem} {i : Nat} {pc pc' : PC} {a : Alt} {evs : List Ev} {g : Option PC}
    (h : Mic b i pc a b' pc' evs g) :
    b'.size = b.size ∧
    (Quiet b b' i pc pc' evs ∨
     (∃ ctx q e m, pc = .pubSel ctx q e m ∧ (b.buf q.msg).length < b.size ∧ pc' = .done .nil ∧
        b'.buf = upd b.buf q.msg (b.buf q.msg ++ [(i, m)]) ∧ evs = [.sent i q.msg]) ∨
     (∃ ctx x o p m r, pc = .recvSel ctx x ∧ b.sub x = some o ∧ b.buf o.queue.msg = (p, m) :: r ∧
        pc' = .handling m ∧ b'.buf = upd b.buf o.queue.msg r ∧
        evs = [.took i o.queue.msg p, .handle i m]) ∨
     (∃ x o p m r, pc = .recvDrop x ∧ b.sub x = some o ∧ b.buf o.queue.msg = (p, m) :: r ∧
        pc' = .done .timeout ∧ b'.buf = upd b.buf o.queue.msg r ∧ evs = [.took i o.queue.msg p]) ∨
     (∃ m e, pc = .handling m ∧ b' = b ∧ evs = [.handled i e] ∧
        pc' = .done (match e with | none => .nil | some e => .fail e))) := by
  have hq := fun t => queue_eqs b i t
  have hcl := close_buf b i
  cases h with
  | pubSend ctx q e m hl => exact ⟨rfl, .inr (.inl ⟨ctx, q, e, m, rfl, hl, rfl, rfl, rfl⟩)⟩
  | recvMsg ctx x o p m r ho hb =>
    exact ⟨rfl, .inr (.inr (.inl ⟨ctx, x, o, p, m, r, rfl, ho, hb, rfl, rfl, rfl⟩))⟩
  | dropOne x o p m r ho hb =>
    exact ⟨rfl, .inr (.inr (.inr (.inl ⟨x, o, p, m, r, rfl, ho, hb, rfl, rfl, rfl⟩)))⟩
  | handledNil m => exact ⟨rfl, .inr (.inr (.inr (.inr ⟨m, none, rfl, rfl, rfl, rfl⟩)))⟩
  | handledErr m e => exact ⟨rfl, .inr (.inr (.inr (.inr ⟨m, some e, rfl, rfl, rfl, rfl⟩)))⟩
  | closing | pubClose | runClose =>
    refine ⟨hcl.2.1, .inl ⟨?_, ?_, ?_, ?_, hcl.1, ?_⟩⟩
    all_goals try (intro _ e; cases e)
    intro e he
    rcases hcl.2.2.2.2.2.2.2 with e' | e' <;> rw [e'] at he
    · cases he
    · exact .inr (List.mem_singleton.mp he)
  | pubGet ctx t m =>
    refine ⟨(hq t).2.1, .inl ⟨?_, ?_, ?_, ?_, (hq t).2.2.2.2.2.2.1, ?_⟩⟩
    all_goals intro _ e; cases e
  | subMake t u =>
    refine ⟨(hq t).2.1, .inl ⟨?_, ?_, ?_, ?_, (hq t).2.2.2.2.2.2.1, ?_⟩⟩
    all_goals intro _ e; cases e
  | openSet ctx =>
    refine ⟨rfl, .inl ⟨?_, ?_, ?_, ?_, rfl, ?_⟩⟩
    all_goals try (intro _ e; cases e; done)
    intro e he; exact .inl (List.mem_singleton.mp he)
  | _ =>
    refine ⟨rfl, .inl ⟨?_, ?_, ?_, ?_, rfl, ?_⟩⟩
    all_goals intro _ e; cases e

theorem mic_spawn {b b' : Mem} {i : Nat} {pc pc' : PC} {a : Alt} {evs : List Ev} {g : PC}
    (h : Mic b i pc a b' pc' evs (some g)) : (∃ ctx, g = .run ctx) ∨ ∃ x, g = .notify x := by
  cases h with
  | openSet ctx => exact .inl ⟨ctx, rfl⟩
  | unsubGo x => exact .inr ⟨x, rfl⟩

end Netscrape.Broker
