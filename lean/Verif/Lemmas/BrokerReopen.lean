import Verif.Lemmas.BrokerRun

/-!
# Sessions that are closed and opened again
-/

namespace Netscrape.Broker
open Netscrape.Conc (upd upd_self upd_ne)
open Netscrape.Spec Netscrape.Spec.Broker

/-! ## Why a session ends -/

/-- Somebody called `Close`, or the context of an `Open` or `Pub` call was cancelled. -/
def Cause (s : St) : Prop :=
  (∃ i, s.ops i = some .close) ∨ (∃ i ctx, s.ops i = some (.open ctx) ∧ s.b.done ctx = true) ∨
  ∃ i ctx t m, s.ops i = some (.pub ctx t m) ∧ s.b.done ctx = true

theorem Cause.mono {s s' : St} (h : Cause s) (ho : ∀ i op, s.ops i = some op → s'.ops i = some op)
    (hd : ∀ c, s.b.done c = true → s'.b.done c = true) : Cause s' := by
  rcases h with ⟨i, h⟩ | ⟨i, c, h, h'⟩ | ⟨i, c, t, m, h, h'⟩
  · exact .inl ⟨i, ho _ _ h⟩
  · exact .inr (.inl ⟨i, c, ho _ _ h, hd _ h'⟩)
  · exact .inr (.inr ⟨i, c, t, m, ho _ _ h, hd _ h'⟩)

/-- What the goroutine of a session knows. -/
def RunOk (s : St) : PC → Prop
  | .run ctx => ∃ i, s.ops i = some (.open ctx)
  | .runCtl ctx e => (∃ i, s.ops i = some (.open ctx)) ∧
      ∀ e', e = some e' → ∃ ctx', s.ops e' = some (.open ctx')
  | .runSel ctx e _ => (∃ i, s.ops i = some (.open ctx)) ∧
      ∀ e', e = some e' → ∃ ctx', s.ops e' = some (.open ctx')
  | .runDel ctx _ _ => ∃ i, s.ops i = some (.open ctx)
  | .runClose => Cause s
  | _ => True

structure CauseInv (s : St) : Prop where
  log : ∀ j, Ev.closed j ∈ s.log → Cause s
  closed : ∀ e ctx, s.ops e = some (.open ctx) → s.b.closed e = true → Cause s
  pcs : ∀ j pc, s.calls j = some pc → RunOk s pc

theorem RunOk.mono {s s' : St} {pc : PC} (h : RunOk s pc)
    (ho : ∀ i op, s.ops i = some op → s'.ops i = some op)
    (hd : ∀ c, s.b.done c = true → s'.b.done c = true) : RunOk s' pc := by
  cases pc with
  | run ctx | runDel ctx => obtain ⟨i, h⟩ := h; exact ⟨i, ho _ _ h⟩
  | runCtl ctx e | runSel ctx e c =>
    obtain ⟨⟨i, h⟩, h2⟩ := h
    refine ⟨⟨i, ho _ _ h⟩, fun e' he => ?_⟩
    obtain ⟨c', hc⟩ := h2 e' he
    exact ⟨c', ho _ _ hc⟩
  | runClose => exact Cause.mono h ho hd
  | _ => trivial

/-- The only way for a step to close the session. -/
theorem mic_closed_ev {b b' : Mem} {i j : Nat} {pc pc' : PC} {a : Alt} {evs : List Ev} {g : Option PC}
    (h : Mic b i pc a b' pc' evs g) (he : Ev.closed j ∈ evs) :
    j = i ∧ b.connected = true ∧ a = .go ∧ AtClose pc ∧ evs = [.closed i] := by
  have hcl : ∀ k, Ev.closed j ∈ (b.close k).2 → j = k ∧ b.connected = true ∧ (b.close k).2 = [.closed k] := by
    intro k hk
    unfold Mem.close at hk ⊢
    split at hk
    · next hc =>
      split at hk
      · cases hk
      · next e he =>
        split at hk
        · cases hk
        · next hce => exact ⟨by cases List.mem_singleton.mp hk; rfl, hc, by simp [he, hc, hce]⟩
    · cases hk
  cases h with
  | closing | pubClose | runClose =>
    obtain ⟨h1, h2, h3⟩ := hcl _ he
    exact ⟨h1, h2, rfl, trivial, h3⟩
  | _ => simp at he

theorem Reach.toCause {cap : Int} {allowed : St → Act → Prop} {s : St} (h : Reach cap allowed s) :
    CauseInv s := by
  refine h.inv (P := CauseInv) ⟨nofun, nofun, nofun⟩ ?_
  intro s s' a hr h _ _ ht
  have hi := hr.toInv
  have hn : s.ops s.next = none := hi.ops _ (Nat.le_refl _)
  refine tr_elim hi ht ?_ ?_ ?_ ?_ ?_
  · rintro op _ _ rfl
    have ho : ∀ i o, s.ops i = some o → upd s.ops s.next (some op) i = some o := by
      intro i o h
      rw [upd_ne _ _ (by rintro rfl; rw [hn] at h; cases h)]; exact h
    refine ⟨?_, ?_, ?_⟩
    · intro j hj
      rcases List.mem_append.mp hj with hj | hj
      · exact (h.log j hj).mono ho fun _ h => h
      · cases List.mem_singleton.mp hj
    · intro e ctx he hc
      dsimp only at he hc
      by_cases hen : e = s.next
      · subst hen
        exfalso
        rcases hi.mem.closed _ hc with ⟨_, e⟩ | ⟨_, _, e⟩ <;> rw [hn] at e <;> cases e
      · rw [upd_ne _ _ hen] at he; exact (h.closed e ctx he hc).mono ho fun _ h => h
    · intro j pc hj
      dsimp only at hj
      by_cases hjn : j = s.next
      · subst hjn; rw [upd_self] at hj; cases hj; cases op <;> trivial
      · rw [upd_ne _ _ hjn] at hj; exact (h.pcs j pc hj).mono ho fun _ h => h
  · rintro ctx rfl
    have hd : ∀ c, s.b.done c = true → upd s.b.done ctx true c = true := by
      intro c hc
      by_cases h : c = ctx
      · subst h; exact upd_self _ _ _
      · rw [upd_ne _ _ h]; exact hc
    exact ⟨fun j hj => (h.log j hj).mono (fun _ _ h => h) hd,
      fun e c he hc => (h.closed e c he hc).mono (fun _ _ h => h) hd,
      fun j pc hj => (h.pcs j pc hj).mono (fun _ _ h => h) hd⟩
  · intro i alt pc pc' evs g _ ms
    have ho : ∀ i op, s.ops i = some op → s'.ops i = some op := by intro i op h; rw [ms.ops]; exact h
    have hd : ∀ c, s.b.done c = true → s'.b.done c = true := by
      intro c h; rw [mic_done ms.mic]; exact h
    have hf := hi.fits i pc ms.here
    have hrun := h.pcs i pc ms.here
    -- a step that closes the session has a cause
    have key : (∃ j, Ev.closed j ∈ evs) → Cause s := by
      rintro ⟨j, hj⟩
      obtain ⟨_, _, _, h4, _⟩ := mic_closed_ev ms.mic hj
      cases pc with
      | closing => exact .inl ⟨i, hf⟩
      | pubClose =>
        obtain ⟨ctx, t, m, h1, h2⟩ := hf
        exact .inr (.inr ⟨i, ctx, t, m, h1, h2⟩)
      | runClose => exact hrun
      | _ => exact h4.elim
    refine ⟨?_, ?_, ?_⟩
    · intro j hj
      rw [ms.log] at hj
      rcases List.mem_append.mp hj with hj | hj
      · exact (h.log j hj).mono ho hd
      · exact (key ⟨j, hj⟩).mono ho hd
    · intro e ctx he hc
      rw [ms.ops] at he
      rcases mic_closed hi.mem hf ms.mic e hc with h1 | ⟨_, t, u, h1⟩ | ⟨h1, _, _⟩
      · exact (h.closed e ctx he h1).mono ho hd
      · rw [he] at h1; cases h1
      · exact (key h1).mono ho hd
    · intro j pcj hj
      by_cases hji : j = i
      · subst hji
        rw [ms.there] at hj
        cases hj
        have hmic := ms.mic
        generalize s'.b = b' at hmic
        cases hmic with
        | run ctx => exact RunOk.mono (s := s) (pc := .runCtl ctx s.b.exit) ⟨hrun, fun e he => hi.mem.exit e he⟩ ho hd
        | runCtl ctx e => exact RunOk.mono (s := s) (pc := .runSel ctx e s.b.ctl) hrun ho hd
        | runWas ctx e => exact RunOk.mono (s := s) (pc := .runSel ctx e s.b.ctlWas) hrun ho hd
        | runCtx ctx e c hdone =>
          obtain ⟨⟨k, hk⟩, _⟩ := hrun
          exact Cause.mono (s := s) (.inr (.inl ⟨k, ctx, hk, hdone⟩)) ho hd
        | runExit ctx e c hcl =>
          obtain ⟨_, h2⟩ := hrun
          cases e with
          | none => cases hcl
          | some e =>
            obtain ⟨ctx', hc'⟩ := h2 e rfl
            exact Cause.mono (h.closed e ctx' hc' hcl) ho hd
        | runMsg ctx e c u t r => exact RunOk.mono (s := s) (pc := .runDel ctx t u) hrun.1 ho hd
        | runNoDel ctx | runDel ctx => exact RunOk.mono (s := s) (pc := .run ctx) hrun ho hd
        | _ => trivial
      · rcases ms.other j _ hji hj with h1 | ⟨_, h1⟩
        · exact (h.pcs j pcj h1).mono ho hd
        · subst h1
          have hmic := ms.mic
          generalize s'.b = b' at hmic
          cases hmic with
          | openSet ctx => exact RunOk.mono (s := s) (pc := .run ctx) ⟨i, hf.1⟩ ho hd
          | unsubGo => trivial
  · intro p r ctx q ex m x o pr pr' evs ms
    have ho : ∀ i op, s.ops i = some op → s'.ops i = some op := by intro i op h; rw [ms.ops]; exact h
    have hd : ∀ c, s.b.done c = true → s'.b.done c = true := by intro c h; rw [ms.b]; exact h
    refine ⟨?_, ?_, ?_⟩
    · intro j hj
      rw [ms.log] at hj
      rcases List.mem_append.mp hj with hj | hj
      · exact (h.log j hj).mono ho hd
      · rcases ms.kind with ⟨_, _, _, rfl⟩ | ⟨_, _, rfl⟩ <;> simp at hj
    · intro e c he hc
      rw [ms.ops] at he
      rw [ms.b] at hc
      exact (h.closed e c he hc).mono ho hd
    · intro j pcj hj
      by_cases h1 : ∃ r, pcj = .done r
      · obtain ⟨_, rfl⟩ := h1; trivial
      · by_cases h2 : ∃ r, pcj = .handling r
        · obtain ⟨_, rfl⟩ := h2; trivial
        · exact (h.pcs j pcj (ms.before hj (fun r e => h1 ⟨r, e⟩) (fun r e => h2 ⟨r, e⟩))).mono ho hd
  · rintro i r hc rfl
    refine ⟨?_, fun e c he hc => h.closed e c he hc, ?_⟩
    · intro j hj
      rcases List.mem_append.mp hj with hj | hj
      · exact h.log j hj
      · cases List.mem_singleton.mp hj
    · intro j pc hj
      dsimp only at hj
      by_cases hji : j = i
      · subst hji; rw [upd_self] at hj; cases hj
      · rw [upd_ne _ _ hji] at hj; exact h.pcs j pc hj

/-! ## One session at a time -/

theorem mic_exit {b b' : Mem} {i : Nat} {pc pc' : PC} {a : Alt} {evs : List Ev} {g : Option PC}
    (h : Mic b i pc a b' pc' evs g) : b'.exit = b.exit ∨ ∃ ctx, pc = .openSet ctx := by
  have hq := fun t => queue_eqs b i t
  cases h with
  | openSet ctx => exact .inr ⟨ctx, rfl⟩
  | closing | pubClose | runClose =>
    left
    unfold Mem.close
    split
    · split
      · rfl
      · split <;> rfl
    · rfl
  | pubGet ctx t m => exact .inl (hq t).2.2.2.1
  | subMake t u => exact .inl (hq t).2.2.2.1
  | _ => exact .inl rfl

theorem mic_connect {b b' : Mem} {i : Nat} {pc pc' : PC} {a : Alt} {evs : List Ev} {g : Option PC}
    (h : Mic b i pc a b' pc' evs g) (hc : b.connected = false) (hc' : b'.connected = true) :
    ∃ ctx, pc = .openSet ctx := by
  have hq := fun t => queue_eqs b i t
  cases h with
  | openSet ctx => exact ⟨ctx, rfl⟩
  | closing | pubClose | runClose =>
    rw [Mem.close, hc] at hc'
    simp [hc] at hc'
  | pubGet ctx t m => rw [(hq t).1, hc] at hc'; cases hc'
  | subMake t u => dsimp only at hc'; rw [(hq t).1, hc] at hc'; cases hc'
  | _ => exact nomatch hc'.symm.trans hc

/-- Steps keep goroutines of a session in it, and start at most one more, from `Open`. -/
theorem mic_session {b b' : Mem} {i : Nat} {pc pc' : PC} {a : Alt} {evs : List Ev} {g : Option PC}
    (h : Mic b i pc a b' pc' evs g) :
    (InSession pc' → InSession pc) ∧ (∀ gp, g = some gp → InSession gp → InSession pc ∧ ¬ InSession pc') := by
  cases h with
  | openSet ctx => exact ⟨fun h => h.elim, fun gp e _ => ⟨trivial, id⟩⟩
  | unsubGo x => exact ⟨fun h => h.elim, fun gp e h => by cases e; exact h.elim⟩
  | _ => exact ⟨by first | exact fun _ => trivial | exact fun h => h.elim, fun gp e => by cases e⟩

/-- Opening is seen. -/
theorem mic_opened_ev {b b' : Mem} {i j : Nat} {pc pc' : PC} {a : Alt} {evs : List Ev} {g : Option PC}
    (h : Mic b i pc a b' pc' evs g) (he : Ev.opened j ∈ evs) : j = i ∧ b'.exit = some i := by
  have hcl : ∀ k, Ev.opened j ∉ (b.close k).2 := by
    intro k hk
    unfold Mem.close at hk
    split at hk
    · split at hk
      · cases hk
      · split at hk
        · cases hk
        · simp at hk
    · cases hk
  cases h with
  | openSet ctx => exact ⟨by simpa using he, rfl⟩
  | closing | pubClose | runClose => exact (hcl _ he).elim
  | _ => simp at he

theorem mic_openSet_ev {b b' : Mem} {i : Nat} {ctx : Nat} {pc' : PC} {a : Alt} {evs : List Ev} {g : Option PC}
    (h : Mic b i (.openSet ctx) a b' pc' evs g) : evs = [.opened i] := by
  cases h; rfl

/-- The exit channel of the broker is that of the last session opened. -/
theorem Reach.exit_last {cap : Int} {allowed : St → Act → Prop} {s : St} (h : Reach cap allowed s)
    {l1 l2 : List Ev} {i : Nat} (hl : s.log = l1 ++ Ev.opened i :: l2) (ho : ¬ Opens l2) :
    s.b.exit = some i := by
  refine h.inv (P := fun s => ∀ l1 i l2, s.log = l1 ++ Ev.opened i :: l2 → ¬ Opens l2 → s.b.exit = some i)
    ?_ ?_ l1 i l2 hl ho
  · intro l1 i l2 e
    have := congrArg List.length e
    simp [St.init] at this
  intro s s' a hr h _ _ ht
  have quiet : ∀ evs, s'.log = s.log ++ evs → (∀ j, Ev.opened j ∉ evs) → s'.b.exit = s.b.exit →
      ∀ l1 i l2, s'.log = l1 ++ Ev.opened i :: l2 → ¬ Opens l2 → s'.b.exit = some i := by
    intro evs hlog hne hex l1 i l2 he ho
    rw [hlog] at he
    rw [hex]
    rcases split_append he with ⟨b', rfl, hb⟩ | ⟨a', _, hb⟩
    · exact h l1 i b' hb fun ⟨j, hj⟩ => ho ⟨j, List.mem_append_left _ hj⟩
    · exact (hne i (by rw [hb]; simp)).elim
  refine tr_elim hr.toInv ht ?_ ?_ ?_ ?_ ?_
  · rintro op _ _ hs'
    refine quiet [.call s.next] (by rw [hs']) (by intro j hj; cases List.mem_singleton.mp hj) (by rw [hs'])
  · intro ctx hs'
    exact quiet [] (by rw [hs']; simp) (by simp) (by rw [hs'])
  · intro i alt pc pc' evs g _ ms
    rcases mic_exit ms.mic with h1 | ⟨ctx, rfl⟩
    · by_cases hop : ∃ j, Ev.opened j ∈ evs
      · obtain ⟨j, hj⟩ := hop
        obtain ⟨rfl, h2⟩ := mic_opened_ev ms.mic hj
        intro l1 k l2 he ho
        rw [ms.log] at he
        rcases split_append he with ⟨b', rfl, hb⟩ | ⟨a', _, hb⟩
        · exact (ho ⟨j, List.mem_append_right _ hj⟩).elim
        · obtain ⟨rfl, _⟩ := mic_opened_ev ms.mic (j := k) (by rw [hb]; simp)
          exact h2
      · exact quiet evs ms.log (fun j hj => hop ⟨j, hj⟩) h1
    · have hev := mic_openSet_ev ms.mic
      intro l1 k l2 he ho
      rw [ms.log] at he
      have h2 := mic_opened_ev ms.mic (j := i) (by rw [hev]; simp)
      rcases split_append he with ⟨b', rfl, hb⟩ | ⟨a', _, hb⟩
      · exact (ho ⟨i, List.mem_append_right _ (by rw [hev]; simp)⟩).elim
      · obtain ⟨rfl, _⟩ := mic_opened_ev ms.mic (j := k) (by rw [hb]; simp)
        exact h2.2
  · intro p r ctx q ex m x o pr pr' evs ms
    refine quiet evs ms.log ?_ (by rw [ms.b])
    intro j hj
    rcases ms.kind with ⟨_, _, _, rfl⟩ | ⟨_, _, rfl⟩ <;> simp at hj
  · rintro i r _ hs'
    exact quiet [.ret i r] (by rw [hs']) (by intro j hj; cases List.mem_singleton.mp hj) (by rw [hs'])

/-- The context of the current session was cancelled. -/
def ExitDone (s : St) : Prop := ∃ e ctx, s.b.exit = some e ∧ s.ops e = some (.open ctx) ∧ s.b.done ctx = true

/-- The goroutine has the context of the current session. -/
def RunCtx (s : St) : PC → Prop
  | .run ctx => ∃ e, s.b.exit = some e ∧ s.ops e = some (.open ctx)
  | .runCtl ctx x => x = s.b.exit ∧ ∃ e, s.b.exit = some e ∧ s.ops e = some (.open ctx)
  | .runSel ctx x _ => x = s.b.exit ∧ ∃ e, s.b.exit = some e ∧ s.ops e = some (.open ctx)
  | .runDel ctx _ _ => ∃ e, s.b.exit = some e ∧ s.ops e = some (.open ctx)
  | .runClose => s.b.connected = false ∨ ExitDone s
  | _ => True

/-- Why the session opened by `i` was closed by `j`. -/
def Why (s : St) (i j : Nat) : Prop := s.ops j = some .close ∨
  (∃ ctx, s.ops i = some (.open ctx) ∧ s.b.done ctx = true) ∨
  ∃ ctx t m, s.ops j = some (.pub ctx t m) ∧ s.b.done ctx = true

structure SoloInv (s : St) : Prop where
  one : ∀ i j pc pc', s.calls i = some pc → s.calls j = some pc' → InSession pc → InSession pc' → i = j
  pcs : ∀ j pc, s.calls j = some pc → RunCtx s pc
  log : ∀ l1 i l2 j l3, s.log = l1 ++ Ev.opened i :: (l2 ++ Ev.closed j :: l3) → ¬ Opens l2 → Why s i j

theorem ExitDone.mono {s s' : St} (h : ExitDone s) (he : s'.b.exit = s.b.exit)
    (ho : ∀ i op, s.ops i = some op → s'.ops i = some op)
    (hd : ∀ c, s.b.done c = true → s'.b.done c = true) : ExitDone s' := by
  obtain ⟨i, c, h1, h2, h3⟩ := h
  exact ⟨i, c, by rw [he]; exact h1, ho _ _ h2, hd _ h3⟩

theorem RunCtx.mono {s s' : St} {pc : PC} (h : RunCtx s pc) (he : s'.b.exit = s.b.exit)
    (hc : s.b.connected = false → s'.b.connected = false)
    (ho : ∀ i op, s.ops i = some op → s'.ops i = some op)
    (hd : ∀ c, s.b.done c = true → s'.b.done c = true) : RunCtx s' pc := by
  cases pc with
  | run ctx | runDel ctx =>
    obtain ⟨e, h1, h2⟩ := h
    exact ⟨e, by rw [he]; exact h1, ho _ _ h2⟩
  | runCtl ctx x | runSel ctx x c =>
    obtain ⟨h0, e, h1, h2⟩ := h
    exact ⟨by rw [he]; exact h0, e, by rw [he]; exact h1, ho _ _ h2⟩
  | runClose => exact h.imp hc fun h => h.mono he ho hd
  | _ => trivial

theorem Why.mono {s s' : St} {i j : Nat} (h : Why s i j)
    (ho : ∀ i op, s.ops i = some op → s'.ops i = some op)
    (hd : ∀ c, s.b.done c = true → s'.b.done c = true) : Why s' i j := by
  rcases h with h1 | ⟨c, h1, h2⟩ | ⟨c, t, m, h1, h2⟩
  · exact .inl (ho _ _ h1)
  · exact .inr (.inl ⟨c, ho _ _ h1, hd _ h2⟩)
  · exact .inr (.inr ⟨c, t, m, ho _ _ h1, hd _ h2⟩)

theorem RunCtx.of_not {s : St} {pc : PC} (h : ¬ InSession pc) : RunCtx s pc := by
  cases pc with
  | run | runCtl | runSel | runDel | runClose => exact (h trivial).elim
  | _ => trivial

theorem reach_solo {cap : Int} {s : St} (h : Reach cap SoloOpen s) : SoloInv s := by
  refine h.inv (P := SoloInv) ⟨nofun, nofun, ?_⟩ ?_
  · intro l1 i l2 j l3 e
    have := congrArg List.length e
    simp [St.init] at this
  intro s s' a hr h hal _ ht
  have hi := hr.toInv
  have hn : s.ops s.next = none := hi.ops _ (Nat.le_refl _)
  -- how the last part survives
  have keep : ∀ evs, s'.log = s.log ++ evs → (∀ i op, s.ops i = some op → s'.ops i = some op) →
      (∀ c, s.b.done c = true → s'.b.done c = true) → (∀ j, Ev.closed j ∉ evs) →
      ∀ l1 i l2 j l3, s'.log = l1 ++ Ev.opened i :: (l2 ++ Ev.closed j :: l3) → ¬ Opens l2 → Why s' i j := by
    intro evs hlog ho hd hne l1 i l2 j l3 he hop
    rw [hlog] at he
    have he' : s.log ++ evs = (l1 ++ Ev.opened i :: l2) ++ Ev.closed j :: l3 := by rw [he]; simp
    rcases split_append he' with ⟨b', rfl, hb⟩ | ⟨a', _, hb⟩
    · exact (h.log l1 i l2 j b' (by rw [hb]; simp) hop).mono ho hd
    · exact (hne j (by rw [hb]; simp)).elim
  refine tr_elim hi ht ?_ ?_ ?_ ?_ ?_
  · rintro op rfl _ rfl
    have ho : ∀ i o, s.ops i = some o → upd s.ops s.next (some op) i = some o := by
      intro i o h
      rw [upd_ne _ _ (by rintro rfl; rw [hn] at h; cases h)]; exact h
    have hstart : InSession (.start op) → ∃ ctx, op = .open ctx := by
      cases op with
      | «open» ctx => exact fun _ => ⟨ctx, rfl⟩
      | _ => exact fun h => h.elim
    refine ⟨?_, ?_, ?_⟩
    · intro i j pc pc' hi' hj hpc hpc'
      dsimp only at hi' hj
      by_cases hin : i = s.next
      · subst hin
        by_cases hjn : j = s.next
        · exact hjn.symm
        · rw [upd_self] at hi'
          cases hi'
          obtain ⟨ctx, rfl⟩ := hstart hpc
          rw [upd_ne _ _ hjn] at hj
          exact (hal ctx rfl j pc' hj hpc').elim
      · rw [upd_ne _ _ hin] at hi'
        by_cases hjn : j = s.next
        · subst hjn
          rw [upd_self] at hj
          cases hj
          obtain ⟨ctx, rfl⟩ := hstart hpc'
          exact (hal ctx rfl i pc hi' hpc).elim
        · rw [upd_ne _ _ hjn] at hj
          exact h.one i j pc pc' hi' hj hpc hpc'
    · intro j pc hj
      dsimp only at hj
      by_cases hjn : j = s.next
      · subst hjn; rw [upd_self] at hj; cases hj; cases op <;> trivial
      · rw [upd_ne _ _ hjn] at hj
        exact (h.pcs j pc hj).mono rfl id ho fun _ h => h
    · exact keep [.call s.next] rfl ho (fun _ h => h) (by intro j hj; cases List.mem_singleton.mp hj)
  · rintro ctx rfl
    have hd : ∀ c, s.b.done c = true → upd s.b.done ctx true c = true := by
      intro c hc
      by_cases h : c = ctx
      · subst h; exact upd_self _ _ _
      · rw [upd_ne _ _ h]; exact hc
    exact ⟨h.one, fun j pc hj => (h.pcs j pc hj).mono rfl id (fun _ _ h => h) hd,
      keep [] (by simp) (fun _ _ h => h) hd (by simp)⟩
  · intro i alt pc pc' evs g _ ms
    have ho : ∀ i op, s.ops i = some op → s'.ops i = some op := by intro i op h; rw [ms.ops]; exact h
    have hd : ∀ c, s.b.done c = true → s'.b.done c = true := by
      intro c h; rw [mic_done ms.mic]; exact h
    have hf := hi.fits i pc ms.here
    have hmi := mic_session ms.mic
    have hrun := h.pcs i pc ms.here
    -- who was in the session before
    have back : ∀ j pcj, s'.calls j = some pcj → InSession pcj →
        (s.calls j = some pcj ∧ j ≠ i) ∨ (InSession pc ∧ ((j = i ∧ pcj = pc') ∨
          (j = s.next ∧ g = some pcj ∧ ¬ InSession pc' ∧ j ≠ i))) := by
      intro j pcj hj hin
      by_cases hji : j = i
      · subst hji
        rw [ms.there] at hj; cases hj
        exact .inr ⟨hmi.1 hin, .inl ⟨rfl, rfl⟩⟩
      · rcases ms.other j _ hji hj with h1 | ⟨h1, h2⟩
        · exact .inl ⟨h1, hji⟩
        · exact .inr ⟨(hmi.2 _ h2 hin).1, .inr ⟨h1, h2, (hmi.2 _ h2 hin).2, hji⟩⟩
    have hone : ∀ j pcj, s.calls j = some pcj → InSession pcj → InSession pc → j = i :=
      fun j pcj hj h1 h2 => h.one j i pcj pc hj ms.here h1 h2
    refine ⟨?_, ?_, ?_⟩
    · intro j k pcj pck hj hk hpj hpk
      rcases back j pcj hj hpj with ⟨h1, h1'⟩ | ⟨h1, h2⟩
      · rcases back k pck hk hpk with ⟨h3, _⟩ | ⟨h3, _⟩
        · exact h.one j k pcj pck h1 h3 hpj hpk
        · exact (h1' (hone j pcj h1 hpj h3)).elim
      · rcases back k pck hk hpk with ⟨h3, h3'⟩ | ⟨_, h4⟩
        · exact (h3' (hone k pck h3 hpk h1)).elim
        · rcases h2 with ⟨h2, h2'⟩ | ⟨h2, _, h5, _⟩
          · rcases h4 with ⟨h4, _⟩ | ⟨_, _, h6, _⟩
            · rw [h2, h4]
            · rw [h2'] at hpj; exact (h6 hpj).elim
          · rcases h4 with ⟨_, h4⟩ | ⟨h4, _⟩
            · rw [h4] at hpk; exact (h5 hpk).elim
            · rw [h2, h4]
    · intro j pcj hj
      by_cases hin : InSession pcj
      · rcases back j _ hj hin with ⟨h1, h1'⟩ | ⟨h1, h2⟩
        · have hex : s'.b.exit = s.b.exit := by
            rcases mic_exit ms.mic with h2 | ⟨c', h2⟩
            · exact h2
            · exact (h1' (hone j _ h1 hin (by rw [h2]; trivial))).elim
          refine (h.pcs j pcj h1).mono hex ?_ ho hd
          intro hc
          cases hc' : s'.b.connected with
          | false => rfl
          | true =>
            obtain ⟨c, h3⟩ := mic_connect ms.mic hc hc'
            exact (h1' (hone j _ h1 hin (by rw [h3]; trivial))).elim
        · rcases h2 with ⟨_, h2⟩ | ⟨_, h2, _⟩
          · subst h2
            have hmic := ms.mic
            have hhere := ms.here
            generalize hb' : s'.b = b' at hmic
            cases hmic with
            | openNo => trivial
            | run ctx =>
              exact RunCtx.mono (s := s) (pc := .runCtl ctx s.b.exit) ⟨rfl, hrun⟩
                (by rw [hb']) (by rw [hb']; exact id) ho hd
            | runCtl ctx e =>
              exact RunCtx.mono (s := s) (pc := .runSel ctx e s.b.ctl) hrun
                (by rw [hb']) (by rw [hb']; exact id) ho hd
            | runWas ctx e =>
              exact RunCtx.mono (s := s) (pc := .runSel ctx e s.b.ctlWas) hrun
                (by rw [hb']) (by rw [hb']; exact id) ho hd
            | runMsg ctx e c u t r =>
              exact RunCtx.mono (s := s) (pc := .runDel ctx t u) hrun.2
                (by rw [hb']) (by rw [hb']; exact id) ho hd
            | runNoDel ctx | runDel ctx =>
              exact RunCtx.mono (s := s) (pc := .run ctx) hrun
                (by rw [hb']) (by rw [hb']; exact id) ho hd
            | runCtx ctx e c hdone =>
              obtain ⟨_, k, h3, h4⟩ := hrun
              exact .inr (ExitDone.mono (s := s) ⟨k, ctx, h3, h4, hdone⟩ (by rw [hb']) ho hd)
            | runExit ctx e c hcl =>
              left
              rw [hb']
              cases hc : s.b.connected with
              | false => rfl
              | true =>
                obtain ⟨e', h3, h4⟩ := hi.mem.live hc
                rw [hrun.1, h3] at hcl
                rw [show s.b.isClosed (some e') = s.b.closed e' from rfl, h4] at hcl
                cases hcl
            | _ => exact hin.elim
          · subst h2
            have hmic := ms.mic
            generalize hb' : s'.b = b' at hmic
            cases hmic with
            | openSet ctx => exact ⟨i, by rw [hb'], ho _ _ hf.1⟩
            | unsubGo => exact hin.elim
      · exact .of_not hin
    · intro l1 k l2 j l3 he hop
      by_cases hj : ∃ j, Ev.closed j ∈ evs
      · obtain ⟨j', hj'⟩ := hj
        obtain ⟨rfl, hco, _, h4, hev⟩ := mic_closed_ev ms.mic hj'
        rw [ms.log] at he
        have he' : s.log ++ evs = (l1 ++ Ev.opened k :: l2) ++ Ev.closed j :: l3 := by rw [he]; simp
        rcases split_append he' with ⟨b', rfl, hb⟩ | ⟨a', ha, hb⟩
        · exact (h.log l1 k l2 j b' (by rw [hb]; simp) hop).mono ho hd
        · rw [hev] at hb
          have ha' : a' = [] := by
            cases a' with
            | nil => rfl
            | cons y l =>
              have := congrArg List.length hb
              simp at this
          subst ha'
          simp only [List.nil_append, List.cons.injEq, Ev.closed.injEq] at hb
          obtain ⟨rfl, _⟩ := hb
          rw [List.append_nil] at ha
          have hex := hr.exit_last ha.symm hop
          refine Why.mono (s := s) ?_ ho hd
          cases pc with
          | closing => exact .inl hf
          | pubClose =>
            obtain ⟨ctx, t, m, h1, h2⟩ := hf
            exact .inr (.inr ⟨ctx, t, m, h1, h2⟩)
          | runClose =>
            rcases hrun with h5 | ⟨e, ctx, h5, h6, h7⟩
            · rw [hco] at h5; cases h5
            · rw [hex] at h5; cases h5
              exact .inr (.inl ⟨ctx, h6, h7⟩)
          | _ => exact h4.elim
      · exact keep evs ms.log ho hd (fun j h => hj ⟨j, h⟩) l1 k l2 j l3 he hop
  · intro p r ctx q ex m x o pr pr' evs ms
    have ho : ∀ i op, s.ops i = some op → s'.ops i = some op := by intro i op h; rw [ms.ops]; exact h
    have hd : ∀ c, s.b.done c = true → s'.b.done c = true := by intro c h; rw [ms.b]; exact h
    have back : ∀ j pcj, s'.calls j = some pcj → InSession pcj → s.calls j = some pcj := by
      intro j pcj hj hin
      exact ms.before hj (by rintro r rfl; exact hin) (by rintro r rfl; exact hin)
    refine ⟨?_, ?_, ?_⟩
    · intro i j pc pc' h1 h2 h3 h4
      exact h.one i j pc pc' (back _ _ h1 h3) (back _ _ h2 h4) h3 h4
    · intro j pcj hj
      by_cases hin : InSession pcj
      · exact (h.pcs j pcj (back _ _ hj hin)).mono (by rw [ms.b]) (by rw [ms.b]; exact id) ho hd
      · exact .of_not hin
    · refine keep evs ms.log ho hd ?_
      intro j hj
      rcases ms.kind with ⟨_, _, _, rfl⟩ | ⟨_, _, rfl⟩ <;> simp at hj
  · rintro i r hc rfl
    have back : ∀ j pcj, upd s.calls i none j = some pcj → s.calls j = some pcj := by
      intro j pcj hj
      by_cases hji : j = i
      · subst hji; rw [upd_self] at hj; cases hj
      · rw [upd_ne _ _ hji] at hj; exact hj
    refine ⟨?_, fun j pc hj => h.pcs j pc (back _ _ hj), ?_⟩
    · intro i j pc pc' h1 h2 h3 h4; exact h.one i j pc pc' (back _ _ h1) (back _ _ h2) h3 h4
    · exact keep [.ret i r] rfl (fun _ _ h => h) (fun _ h => h) (by intro j hj; cases List.mem_singleton.mp hj)

/-- A call closes the session only while it is in progress. -/
theorem Reach.closed_after {cap : Int} {allowed : St → Act → Prop} {s : St} (h : Reach cap allowed s)
    {j : Nat} {r : Ret} : ¬ Before (.ret j r) (.closed j) s.log := by
  refine h.inv (P := fun s => ∀ j r, ¬ Before (.ret j r) (.closed j) s.log) ?_ ?_ j r
  · rintro j r ⟨a, b, d, e⟩
    have := congrArg List.length e
    simp [St.init] at this
  intro s s' a hr h _ _ ht
  have hi := hr.toInv
  have hl := hr.toLog.1
  refine tr_elim hi ht ?_ ?_ ?_ ?_ ?_
  · rintro op _ _ rfl j r hb
    rcases before_split hb with hb | ⟨_, hb⟩ | ⟨_, hb⟩
    · exact h j r hb
    all_goals cases List.mem_singleton.mp hb
  · rintro ctx rfl; exact h
  · intro i alt pc pc' evs g _ ms j r hb
    rw [ms.log] at hb
    rcases before_split hb with hb | ⟨h1, hb⟩ | ⟨h1, _⟩
    · exact h j r hb
    · obtain ⟨rfl, _⟩ := mic_closed_ev ms.mic hb
      have := (hl.rets _ _ h1).1
      rw [ms.here] at this; cases this
    · exact mic_noret ms.mic _ _ h1
  · intro p r ctx q ex m x o pr pr' evs ms j k hb
    rw [ms.log] at hb
    rcases before_split hb with hb | ⟨_, hb⟩ | ⟨hb, _⟩
    · exact h j k hb
    · rcases ms.kind with ⟨_, _, _, rfl⟩ | ⟨_, _, rfl⟩ <;> simp at hb
    · exact ms.noret.1 _ _ hb
  · rintro i r hc rfl j k hb
    rcases before_split hb with hb | ⟨_, hb⟩ | ⟨_, hb⟩
    · exact h j k hb
    all_goals cases List.mem_singleton.mp hb

end Netscrape.Broker
