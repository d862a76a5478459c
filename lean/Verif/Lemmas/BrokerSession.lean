import Verif.Lemmas.BrokerLog

/-!
# Sessions, panics and subscriptions
-/

namespace Netscrape.Broker
open Netscrape.Conc (upd upd_self upd_ne)
open Netscrape.Spec Netscrape.Spec.Broker

/-- A step of one goroutine, with or without starting another one. -/
structure MicStep (s s' : St) (i : Nat) (a : Alt) (pc pc' : PC) (evs : List Ev) (g : Option PC) : Prop where
  here : s.calls i = some pc
  mic : Mic s.b i pc a s'.b pc' evs g
  log : s'.log = s.log ++ evs
  ops : s'.ops = s.ops
  there : s'.calls i = some pc'
  other : ∀ j pcj, j ≠ i → s'.calls j = some pcj → s.calls j = some pcj ∨ (j = s.next ∧ g = some pcj)
  keep : ∀ j, j ≠ i → j ≠ s.next → s'.calls j = s.calls j
  num : s.next ≤ s'.next

/-- A hand-over. -/
structure MeetStep (s s' : St) (p r : Nat) (ctx : Nat) (q : Queue) (ex : Option Nat) (m : Msg) (x : Nat)
    (o : Sub) (pr pr' : PC) (evs : List Ev) : Prop where
  ne : p ≠ r
  pub : s.calls p = some (.pubSel ctx q ex m)
  recv : s.calls r = some pr
  sub : s.b.sub x = some o
  queue : o.queue.msg = q.msg
  b : s'.b = s.b
  ops : s'.ops = s.ops
  log : s'.log = s.log ++ evs
  pub' : s'.calls p = some (.done .nil)
  recv' : s'.calls r = some pr'
  keep : ∀ j, j ≠ p → j ≠ r → s'.calls j = s.calls j
  num : s'.next = s.next
  kind : (∃ c, pr = .recvSel c x ∧ pr' = .handling m ∧
      evs = [.sent p q.msg, .took r q.msg p, .handle r m]) ∨
    (pr = .recvDrop x ∧ pr' = .done .timeout ∧ evs = [.sent p q.msg, .took r q.msg p])

theorem tr_elim {s s' : St} {a : Act} (hi : Inv s) (ht : Tr s a s') {C : Prop}
    (call : ∀ op, a = .call op → s.b.has op = true →
      s' = { s with calls := upd s.calls s.next (some (.start op)), ops := upd s.ops s.next (some op),
                    next := s.next + 1, log := s.log ++ [.call s.next] } → C)
    (cancel : ∀ ctx, s' = { s with b := { s.b with done := upd s.b.done ctx true } } → C)
    (mic : ∀ i alt pc pc' evs g, a = .step i alt → MicStep s s' i alt pc pc' evs g → C)
    (meet : ∀ p r ctx q ex m x o pr pr' evs, MeetStep s s' p r ctx q ex m x o pr pr' evs → C)
    (ret : ∀ i r, s.calls i = some (.done r) →
      s' = { s with calls := upd s.calls i none, log := s.log ++ [.ret i r] } → C) : C := by
  cases ht with
  | call op h => exact call op rfl h rfl
  | cancel ctx => exact cancel ctx rfl
  | step i a pc pc' b' evs hc hm =>
    refine mic i a pc pc' evs none rfl ⟨hc, micro_mic hm, rfl, rfl, upd_self _ _ _, ?_, ?_, Nat.le_refl _⟩
    · intro j pcj hj hh; dsimp only at hh; rw [upd_ne _ _ hj] at hh; exact .inl hh
    · intro j hj _; dsimp only; rw [upd_ne _ _ hj]
  | spawn i a pc pc' g b' evs hc hm =>
    refine mic i a pc pc' evs (some g) rfl ⟨hc, micro_mic hm, rfl, rfl, ?_, ?_, ?_, Nat.le_succ _⟩
    · dsimp only; rw [upd_ne _ _ (hi.next hc)]; exact upd_self _ _ _
    · intro j pcj hj hh
      dsimp only at hh
      by_cases hn : j = s.next
      · subst hn; rw [upd_self] at hh; cases hh; exact .inr ⟨rfl, rfl⟩
      · rw [upd_ne _ _ hn, upd_ne _ _ hj] at hh; exact .inl hh
    · intro j hj hn; dsimp only; rw [upd_ne _ _ hn, upd_ne _ _ hj]
  | meet p r pc pr pc' pr' evs hp hr hm =>
    obtain ⟨ctx, q, ex, m, x, o, rfl, ho, hq, hz, rfl, hh⟩ := meet_cases hm
    have hne : p ≠ r := by
      rintro rfl
      rw [hp] at hr
      rcases hh with ⟨c, rfl, _, _⟩ | ⟨rfl, _, _⟩ <;> cases hr
    refine meet p r ctx q ex m x o pr pr' evs
      ⟨hne, hp, hr, ho, hq, rfl, rfl, rfl, ?_, upd_self _ _ _, ?_, rfl, hh⟩
    · dsimp only; rw [upd_ne _ _ hne]; exact upd_self _ _ _
    · intro j h1 h2; dsimp only; rw [upd_ne _ _ h2, upd_ne _ _ h1]
  | ret i r hc => exact ret i r hc rfl

/-! ## Lists -/

theorem before_append {α : Type} {x y : α} {l : List α} (l' : List α) (h : Before x y l) :
    Before x y (l ++ l') := by
  obtain ⟨a, b, d, rfl⟩ := h
  exact ⟨a, b, d ++ l', by simp⟩

theorem before_new {α : Type} {x y : α} {l : List α} (h : x ∈ l) : Before x y (l ++ [y]) := by
  obtain ⟨a, b, rfl⟩ := List.append_of_mem h
  exact ⟨a, b, [], by simp⟩

theorem _root_.Netscrape.Spec.Broker.ClosedAfter.append {i : Nat} {log : List Ev} (l' : List Ev) (h : ClosedAfter i log) :
    ClosedAfter i (log ++ l') := h.imp fun _ => before_append l'

/-! ## Calls -/

structure CallInv (s : St) : Prop where
  called : ∀ i op, s.ops i = some op → Ev.call i ∈ s.log
  uncalled : ∀ i, Ev.call i ∈ s.log → ∃ op, s.ops i = some op
  conn : s.b.connected = isOpen s.log

theorem isOpen_append (l l' : List Ev) : isOpen (l ++ l') =
    List.foldl (fun o e => match e with | .opened _ => true | .closed _ => false | _ => o) (isOpen l) l' :=
  List.foldl_append

/-- Only opening and closing change whether the broker is open, and they are seen. -/
theorem mic_conn {ops : Nat → Option Op} {b b' : Mem} {i : Nat} {pc pc' : PC} {a : Alt} {evs : List Ev}
    {g : Option PC} (hm : MemInv ops b) (h : Mic b i pc a b' pc' evs g) :
    b'.connected = List.foldl (fun o e => match e with | .opened _ => true | .closed _ => false | _ => o)
      b.connected evs := by
  have hq := fun t => queue_eqs b i t
  cases h with
  | closing | pubClose | runClose =>
    rcases hm.close i with ⟨_, e⟩ | ⟨hc, x, hx, hcl, e⟩ <;> rw [e] <;> rfl
  | pubGet ctx t m => exact (hq t).1
  | subMake t u => exact (hq t).1
  | _ => rfl

theorem mic_nocall {b b' : Mem} {i : Nat} {pc pc' : PC} {a : Alt} {evs : List Ev}
    {g : Option PC} (h : Mic b i pc a b' pc' evs g) (j : Nat) : Ev.call j ∉ evs := by
  intro he
  rcases (mic_kind h).2 with hq | ⟨_, _, _, _, _, _, _, _, rfl⟩ | ⟨_, _, _, _, _, _, _, _, _, _, _, rfl⟩ |
    ⟨_, _, _, _, _, _, _, _, _, _, rfl⟩ | ⟨_, _, _, _, rfl, _⟩
  · rcases hq.evs _ he with e | e <;> cases e
  all_goals simp at he

theorem Reach.toCall {cap : Int} {allowed : St → Act → Prop} {s : St} (h : Reach cap allowed s) :
    CallInv s := by
  refine h.inv (P := CallInv) ⟨nofun, nofun, rfl⟩ ?_
  intro s s' a hr h _ _ ht
  have hi := hr.toInv
  have hn : s.ops s.next = none := hi.ops _ (Nat.le_refl _)
  refine tr_elim hi ht ?_ ?_ ?_ ?_ ?_
  · rintro op _ _ rfl
    refine ⟨?_, ?_, ?_⟩ <;> dsimp only
    · intro i o ho
      by_cases hin : i = s.next
      · subst hin; exact List.mem_append_right _ (List.mem_singleton.mpr rfl)
      · rw [upd_ne _ _ hin] at ho; exact List.mem_append_left _ (h.called i o ho)
    · intro i hi
      rcases List.mem_append.mp hi with hi | hi
      · obtain ⟨o, ho⟩ := h.uncalled i hi
        exact ⟨o, ops_upd hn ho⟩
      · cases List.mem_singleton.mp hi; exact ⟨op, upd_self _ _ _⟩
    · rw [isOpen_append, h.conn]; rfl
  · rintro ctx rfl; exact ⟨h.called, h.uncalled, h.conn⟩
  · intro i alt pc pc' evs g _ ms
    refine ⟨?_, ?_, ?_⟩
    · intro j o ho; rw [ms.log]; rw [ms.ops] at ho; exact List.mem_append_left _ (h.called j o ho)
    · intro j hj
      rw [ms.log] at hj; rw [ms.ops]
      rcases List.mem_append.mp hj with hj | hj
      · exact h.uncalled j hj
      · exact (mic_nocall ms.mic j hj).elim
    · rw [mic_conn hi.mem ms.mic, ms.log, isOpen_append, h.conn]
  · intro p r ctx q ex m x o pr pr' evs ms
    refine ⟨?_, ?_, ?_⟩
    · intro j o ho; rw [ms.log]; rw [ms.ops] at ho; exact List.mem_append_left _ (h.called j o ho)
    · intro j hj
      rw [ms.log] at hj; rw [ms.ops]
      rcases List.mem_append.mp hj with hj | hj
      · exact h.uncalled j hj
      · rcases ms.kind with ⟨_, _, _, rfl⟩ | ⟨_, _, rfl⟩ <;> simp at hj
    · rw [ms.b, ms.log, isOpen_append, h.conn]
      rcases ms.kind with ⟨_, _, _, rfl⟩ | ⟨_, _, rfl⟩ <;> rfl
  · rintro i r hc rfl
    refine ⟨fun j o ho => List.mem_append_left _ (h.called j o ho), ?_, ?_⟩
    · intro j hj
      rcases List.mem_append.mp hj with hj | hj
      · exact h.uncalled j hj
      · cases List.mem_singleton.mp hj
    · dsimp only; rw [isOpen_append, h.conn]; rfl

/-! ## Which steps close a channel -/

theorem mic_closed {ops : Nat → Option Op} {b b' : Mem} {i : Nat} {pc pc' : PC} {a : Alt} {evs : List Ev}
    {g : Option PC} (hm : MemInv ops b) (hf : Fits ops b i pc) (h : Mic b i pc a b' pc' evs g) (e : Nat)
    (he : b'.closed e = true) :
    b.closed e = true ∨ (pc = .unsubClose e ∧ IsSub ops e) ∨
      ((∃ j, Ev.closed j ∈ evs) ∧ b.exit = some e ∧ b.connected = true ∧ b'.connected = false) := by
  have hq := fun t => queue_eqs b i t
  cases h with
  | closing | pubClose | runClose =>
    rcases hm.close i with ⟨_, e'⟩ | ⟨hc, x, hx, hcl, e'⟩
    · rw [e'] at he; exact .inl he
    · rw [e'] at he ⊢
      dsimp only at he
      by_cases hex : e = x
      · subst hex; exact .inr (.inr ⟨⟨i, List.mem_singleton.mpr rfl⟩, hx, hc, rfl⟩)
      · rw [upd_ne _ _ hex] at he; exact .inl he
  | pubGet ctx t m => rw [(hq t).2.2.2.2.2.1] at he; exact .inl he
  | subMake t u =>
    dsimp only at he
    rw [(hq t).2.2.2.2.2.1] at he; exact .inl he
  | unsubClose x =>
    dsimp only at he
    by_cases hex : e = x
    · subst hex; exact .inr (.inl ⟨rfl, hf.2⟩)
    · rw [upd_ne _ _ hex] at he; exact .inl he
  | _ => exact .inl he

/-- Every close event disconnects the broker. -/
theorem mic_close_ev {ops : Nat → Option Op} {b b' : Mem} {i : Nat} {pc pc' : PC} {a : Alt} {evs : List Ev}
    {g : Option PC} (hm : MemInv ops b) (h : Mic b i pc a b' pc' evs g)
    (hc : b.connected = true) (hc' : b'.connected = false) : evs = [.closed i] := by
  have hq := fun t => queue_eqs b i t
  cases h with
  | closing | pubClose | runClose =>
    rcases hm.close i with ⟨h1, _⟩ | ⟨_, x, hx, hcl, e'⟩
    · rw [hc] at h1; cases h1
    · rw [e']
  | openSet ctx => cases hc'
  | pubGet ctx t m => rw [(hq t).1, hc] at hc'; cases hc'
  | subMake t u => dsimp only at hc'; rw [(hq t).1, hc] at hc'; cases hc'
  | _ => exact nomatch hc.symm.trans hc'

/-! ## Panics -/

theorem mic_crash {ops : Nat → Option Op} {b b' : Mem} {i : Nat} {pc pc' : PC} {a : Alt} {evs : List Ev}
    {g : Option PC} (hm : MemInv ops b) (h : Mic b i pc a b' pc' evs g) (hc : b.crashed = false)
    (hc' : b'.crashed = true) : ∃ x, pc = .unsubClose x ∧ pc' = .unsubClose x ∧ b.closed x = true := by
  have hq := fun t => queue_eqs b i t
  cases h with
  | closing | pubClose | runClose =>
    rcases hm.close i with ⟨_, e'⟩ | ⟨_, x, hx, hcl, e'⟩ <;> rw [e', hc] at hc' <;> cases hc'
  | pubGet ctx t m => rw [(hq t).2.2.2.2.2.2.2.2.2.2, hc] at hc'; cases hc'
  | subMake t u => dsimp only at hc'; rw [(hq t).2.2.2.2.2.2.2.2.2.2, hc] at hc'; cases hc'
  | unsubCrash x hx => exact ⟨x, rfl, rfl, hx⟩
  | _ => exact nomatch hc.symm.trans hc'

/-- The process only panics in `Unsubscribe`. -/
theorem Reach.crash {cap : Int} {allowed : St → Act → Prop} {s : St} (h : Reach cap allowed s)
    (hc : s.b.crashed = true) : ∃ i x, s.calls i = some (.unsubClose x) := by
  refine h.inv (P := fun s => s.b.crashed = true → ∃ i x, s.calls i = some (.unsubClose x)) nofun ?_ hc
  intro s s' a hr _ _ hnc ht hc
  have hi := hr.toInv
  refine tr_elim hi ht ?_ ?_ ?_ ?_ ?_
  · rintro op _ _ rfl; rw [hnc] at hc; cases hc
  · rintro ctx rfl; dsimp only at hc; rw [hnc] at hc; cases hc
  · intro i alt pc pc' evs g _ ms
    obtain ⟨x, _, h2, _⟩ := mic_crash hi.mem ms.mic hnc hc
    exact ⟨i, x, by rw [ms.there, h2]⟩
  · intro p r ctx q ex m x o pr pr' evs ms; rw [ms.b, hnc] at hc; cases hc
  · rintro i r _ rfl; dsimp only at hc; rw [hnc] at hc; cases hc

/-! ## Publishing -/

/-- What a `Pub` call relies on: the broker is open, or was closed after the call was made. -/
def PubOk (s : St) (i : Nat) : PC → Prop
  | .pubGet _ _ _ => ClosedAfter i s.log ∨ s.b.connected = true
  | .pubRead _ _ _ => ClosedAfter i s.log ∨ s.b.connected = true
  | .pubSel _ _ e _ => ClosedAfter i s.log ∨
      ∃ e' ctx, e = some e' ∧ s.b.closed e' = false ∧ s.ops e' = some (.open ctx)
  | _ => True

/-- Why a `Pub` call that sent nothing may return nil. -/
def PubNil (s : St) (i : Nat) : Prop := ∀ ctx t m, s.ops i = some (.pub ctx t m) → sentBy i s.log = [] →
  ClosedAfter i s.log ∨ s.b.done ctx = true

structure PubInv (s : St) : Prop where
  pcs : ∀ i pc, s.calls i = some pc → PubOk s i pc
  done : ∀ i, s.calls i = some (.done .nil) → PubNil s i
  ret : ∀ i, Ev.ret i .nil ∈ s.log → PubNil s i

theorem sentBy_nil_of_append {i : Nat} {l l' : List Ev} (h : sentBy i (l ++ l') = []) : sentBy i l = [] := by
  rw [sentBy_append] at h
  exact (List.append_eq_nil_iff.mp h).1

/-- How reasons survive. -/
theorem PubNil.mono {s s' : St} {i : Nat} (evs : List Ev) (h : PubNil s i) (hops : s'.ops i = s.ops i)
    (hlog : s'.log = s.log ++ evs) (hd : ∀ c, s.b.done c = true → s'.b.done c = true) : PubNil s' i := by
  intro ctx t m ho hs
  rw [hops] at ho
  rw [hlog] at hs ⊢
  rcases h ctx t m ho (sentBy_nil_of_append hs) with h1 | h1
  · exact .inl (h1.append _)
  · exact .inr (hd _ h1)

theorem mic_done {b b' : Mem} {i : Nat} {pc pc' : PC} {a : Alt} {evs : List Ev}
    {g : Option PC} (h : Mic b i pc a b' pc' evs g) : b'.done = b.done := by
  have hq := fun t => queue_eqs b i t
  have hcl := close_buf b i
  cases h with
  | closing | pubClose | runClose => exact hcl.2.2.2.1
  | pubGet ctx t m => exact (hq t).2.2.2.2.2.2.2.2.2.1
  | subMake t u => exact (hq t).2.2.2.2.2.2.2.2.2.1
  | _ => rfl

theorem Reach.toPub {cap : Int} {allowed : St → Act → Prop} {s : St} (h : Reach cap allowed s) :
    PubInv s := by
  refine h.inv (P := PubInv) ⟨nofun, nofun, nofun⟩ ?_
  intro s s' a hr h _ _ ht
  have hi := hr.toInv
  have hl := (hr.toLog).1
  have hcl := hr.toCall
  have hn : s.ops s.next = none := hi.ops _ (Nat.le_refl _)
  refine tr_elim hi ht ?_ ?_ ?_ ?_ ?_
  · rintro op _ _ rfl
    have key : ∀ i, i ≠ s.next → PubNil s i → PubNil
        { s with calls := upd s.calls s.next (some (.start op)), ops := upd s.ops s.next (some op),
                 next := s.next + 1, log := s.log ++ [.call s.next] } i := by
      intro i hin hp
      exact hp.mono [.call s.next] (upd_ne _ _ hin) rfl fun _ h => h
    refine ⟨?_, ?_, ?_⟩ <;> dsimp only
    · intro i pc hc
      by_cases hin : i = s.next
      · subst hin; rw [upd_self] at hc; cases hc; cases op <;> trivial
      · rw [upd_ne _ _ hin] at hc
        have := h.pcs i pc hc
        cases pc with
        | pubGet | pubRead =>
          rcases this with h1 | h1
          · exact .inl (h1.append _)
          · exact .inr h1
        | pubSel ctx q e m =>
          rcases this with h1 | ⟨e', c, h1, h2, h3⟩
          · exact .inl (h1.append _)
          · exact .inr ⟨e', c, h1, h2, ops_upd hn h3⟩
        | _ => trivial
    · intro i hc
      by_cases hin : i = s.next
      · subst hin; rw [upd_self] at hc; cases op <;> cases hc
      · rw [upd_ne _ _ hin] at hc; exact key i hin (h.done i hc)
    · intro i hc
      rcases List.mem_append.mp hc with hc | hc
      · have : i ≠ s.next := by have := hl.ids _ hc i rfl; omega
        exact key i this (h.ret i hc)
      · cases List.mem_singleton.mp hc
  · rintro ctx rfl
    have key : ∀ i, PubNil s i → PubNil { s with b := { s.b with done := upd s.b.done ctx true } } i := by
      intro i hp
      refine hp.mono [] rfl (List.append_nil _).symm fun c hc => ?_
      dsimp only
      by_cases e : c = ctx
      · subst e; exact upd_self _ _ _
      · rw [upd_ne _ _ e]; exact hc
    refine ⟨?_, fun i hc => key i (h.done i hc), fun i hc => key i (h.ret i hc)⟩
    intro i pc hc
    have := h.pcs i pc hc
    cases pc <;> exact this
  · intro i alt pc pc' evs g _ ms
    have hd := mic_done ms.mic
    have key : ∀ j, PubNil s j → PubNil s' j := by
      intro j hp
      exact hp.mono evs (by rw [ms.ops]) ms.log (by rw [hd]; exact fun _ h => h)
    have hdis : ∀ j, (∃ op, s.ops j = some op) → s.b.connected = true →
        ClosedAfter j s'.log ∨ s'.b.connected = true := by
      intro j ⟨op, hj⟩ hc
      cases hc' : s'.b.connected with
      | true => exact .inr rfl
      | false =>
        left
        rw [ms.log, mic_close_ev hi.mem ms.mic hc hc']
        exact ⟨i, before_new (hcl.called j op hj)⟩
    have hcl' : ∀ j, (∃ op, s.ops j = some op) → ∀ e ctx, s.ops e = some (.open ctx) →
        s.b.closed e = false → ClosedAfter j s'.log ∨ s'.b.closed e = false := by
      intro j ⟨op, hj⟩ e ctx ho hc
      cases hc' : s'.b.closed e with
      | false => exact .inr rfl
      | true =>
        left
        rcases mic_closed hi.mem (hi.fits i pc ms.here) ms.mic e hc' with h1 | ⟨_, _, _, h1⟩ | ⟨_, _, h2, h3⟩
        · rw [hc] at h1; cases h1
        · rw [ho] at h1; cases h1
        · rw [ms.log, mic_close_ev hi.mem ms.mic h2 h3]
          exact ⟨i, before_new (hcl.called j op hj)⟩
    -- positions of others keep what they rely on
    have hold : ∀ j pcj, s.calls j = some pcj → PubOk s' j pcj := by
      intro j pcj hj
      have h1 := h.pcs j pcj hj
      have hf := hi.fits j pcj hj
      cases pcj with
      | pubGet ctx t m =>
        rcases h1 with h1 | h1
        · exact .inl (by rw [ms.log]; exact h1.append _)
        · exact hdis j ⟨_, hf⟩ h1
      | pubRead ctx q m =>
        obtain ⟨t, hf, _⟩ := hf
        rcases h1 with h1 | h1
        · exact .inl (by rw [ms.log]; exact h1.append _)
        · exact hdis j ⟨_, hf⟩ h1
      | pubSel ctx q e m =>
        obtain ⟨t, hf, _⟩ := hf
        rcases h1 with h1 | ⟨e', c, h1, h2, h3⟩
        · exact .inl (by rw [ms.log]; exact h1.append _)
        · rcases hcl' j ⟨_, hf⟩ e' c h3 h2 with h4 | h4
          · exact .inl h4
          · exact .inr ⟨e', c, h1, h4, by rw [ms.ops]; exact h3⟩
      | _ => trivial
    refine ⟨?_, ?_, ?_⟩
    · intro j pcj hj
      by_cases hji : j = i
      · subst hji
        rw [ms.there] at hj
        cases hj
        have h0 := h.pcs j pc ms.here
        have hf := hi.fits j pc ms.here
        have hmic := ms.mic
        have hlog := ms.log
        have hopss := ms.ops
        generalize hb' : s'.b = b' at hmic
        cases hmic with
        | pubYes ctx t m hc => exact .inr (by rw [hb']; exact hc)
        | pubGet ctx t m =>
          rcases h0 with h1 | h1
          · exact .inl (by rw [hlog]; exact h1.append _)
          · exact .inr (by rw [hb', (queue_eqs s.b j t).1]; exact h1)
        | pubRead ctx q m =>
          rcases h0 with h1 | h1
          · exact .inl (by rw [hlog]; exact h1.append _)
          · obtain ⟨e, he, hcl⟩ := hi.mem.live h1
            obtain ⟨c, hc⟩ := hi.mem.exit e he
            exact .inr ⟨e, c, he, by rw [hb']; exact hcl, by rw [hopss]; exact hc⟩
        | _ => trivial
      · rcases ms.other j pcj hji hj with h1 | ⟨_, h1⟩
        · exact hold j pcj h1
        · subst h1
          rcases mic_spawn ms.mic with ⟨_, rfl⟩ | ⟨_, rfl⟩ <;> trivial
    · intro j hj
      by_cases hji : j = i
      · subst hji
        rw [ms.there] at hj
        cases hj
        intro ctx t m ho hs
        rw [ms.ops] at ho
        have h0 := h.pcs j pc ms.here
        have hf := hi.fits j pc ms.here
        have hmic := ms.mic
        have hlog := ms.log
        generalize hb' : s'.b = b' at hmic
        cases hmic with
        | openYes | openSet => rw [hf.1] at ho; cases ho
        | closing => rw [show s.ops j = _ from hf] at ho; cases ho
        | pubExit ctx' q e m' he =>
          rcases h0 with h1 | ⟨e', c, h1, h2, h3⟩
          · exact .inl (by rw [hlog]; exact h1.append _)
          · subst h1
            rw [Mem.isClosed, h2] at he; cases he
        | pubSend ctx' q e m' =>
          exfalso
          rw [hlog, sentBy_append] at hs
          have := (List.append_eq_nil_iff.mp hs).2
          simp [sentBy] at this
        | pubClose =>
          obtain ⟨ctx', t', m', hf, hd'⟩ := hf
          rw [hf] at ho; cases ho
          exact .inr (by rw [← hb', hd]; exact hd')
        | recvCtx | recvExit | recvUnsub => rw [hf.1] at ho; cases ho
        | handledNil => obtain ⟨_, _, hf⟩ := hf; rw [hf] at ho; cases ho
        | unsubNo | unsubGo => rw [hf.1] at ho; cases ho
        | notifyMsg | notifyExit => rw [hf.1] at ho; cases ho
        | runClose => rw [show s.ops j = _ from hf] at ho; cases ho
      · rcases ms.other j _ hji hj with h1 | ⟨_, h1⟩
        · exact key j (h.done j h1)
        · subst h1
          rcases mic_spawn ms.mic with ⟨_, h⟩ | ⟨_, h⟩ <;> cases h
    · intro j hj
      rw [ms.log] at hj
      rcases List.mem_append.mp hj with hj | hj
      · exact key j (h.ret j hj)
      · exfalso
        rcases (mic_kind ms.mic).2 with hq | ⟨_, _, _, _, _, _, _, _, rfl⟩ |
          ⟨_, _, _, _, _, _, _, _, _, _, _, rfl⟩ | ⟨_, _, _, _, _, _, _, _, _, _, rfl⟩ | ⟨_, _, _, _, rfl, _⟩
        · rcases hq.evs _ hj with e | e <;> cases e
        all_goals simp at hj
  · intro p r ctx q ex m x o pr pr' evs ms
    have key : ∀ j, PubNil s j → PubNil s' j := by
      intro j hp
      exact hp.mono evs (by rw [ms.ops]) ms.log (by rw [ms.b]; exact fun _ h => h)
    refine ⟨?_, ?_, ?_⟩
    · intro j pcj hj
      by_cases hjp : j = p
      · subst hjp; rw [ms.pub'] at hj; cases hj; trivial
      · by_cases hjr : j = r
        · subst hjr
          rw [ms.recv'] at hj; cases hj
          rcases ms.kind with ⟨_, _, rfl, _⟩ | ⟨_, rfl, _⟩ <;> trivial
        · rw [ms.keep j hjp hjr] at hj
          have := h.pcs j pcj hj
          cases pcj with
          | pubGet | pubRead =>
            rcases this with h1 | h1
            · exact .inl (by rw [ms.log]; exact h1.append _)
            · exact .inr (by rw [ms.b]; exact h1)
          | pubSel ctx q e m =>
            rcases this with h1 | ⟨e', c, h1, h2, h3⟩
            · exact .inl (by rw [ms.log]; exact h1.append _)
            · exact .inr ⟨e', c, h1, by rw [ms.b]; exact h2, by rw [ms.ops]; exact h3⟩
          | _ => trivial
    · intro j hj
      by_cases hjp : j = p
      · subst hjp
        intro ctx t m ho hs
        exfalso
        rw [ms.log, sentBy_append] at hs
        have := (List.append_eq_nil_iff.mp hs).2
        rcases ms.kind with ⟨_, _, _, rfl⟩ | ⟨_, _, rfl⟩ <;> simp [sentBy] at this
      · by_cases hjr : j = r
        · subst hjr
          rw [ms.recv'] at hj
          rcases ms.kind with ⟨_, _, rfl, _⟩ | ⟨_, rfl, _⟩ <;> cases hj
        · rw [ms.keep j hjp hjr] at hj; exact key j (h.done j hj)
    · intro j hj
      rw [ms.log] at hj
      rcases List.mem_append.mp hj with hj | hj
      · exact key j (h.ret j hj)
      · rcases ms.kind with ⟨_, _, _, rfl⟩ | ⟨_, _, rfl⟩ <;> simp at hj
  · rintro i r hc rfl
    have key : ∀ j, PubNil s j → PubNil { s with calls := upd s.calls i none, log := s.log ++ [.ret i r] } j := by
      intro j hp
      exact hp.mono [.ret i r] rfl rfl fun _ h => h
    refine ⟨?_, ?_, ?_⟩ <;> dsimp only
    · intro j pcj hj
      by_cases hji : j = i
      · subst hji; rw [upd_self] at hj; cases hj
      · rw [upd_ne _ _ hji] at hj
        have := h.pcs j pcj hj
        cases pcj with
        | pubGet | pubRead | pubSel =>
          rcases this with h1 | h1
          · exact .inl (h1.append _)
          · exact .inr h1
        | _ => trivial
    · intro j hj
      by_cases hji : j = i
      · subst hji; rw [upd_self] at hj; cases hj
      · rw [upd_ne _ _ hji] at hj; exact key j (h.done j hj)
    · intro j hj
      rcases List.mem_append.mp hj with hj | hj
      · exact key j (h.ret j hj)
      · cases List.mem_singleton.mp hj; exact key _ (h.done _ hc)

end Netscrape.Broker
