import Verif.Model.Digest
import Verif.Lemmas.BrokerFinish

/-!
# The digester on the in-memory broker
-/

namespace Netscrape.Broker
open Netscrape.Conc (upd upd_self upd_ne)
open Netscrape.Spec Netscrape.Spec.Broker

/-- Events are about calls in progress, apart from new calls. -/
theorem tr_evs {s s' : St} {a : Act} (hi : Inv s) (ht : Tr s a s') :
    ∃ evs, s'.log = s.log ++ evs ∧ ∀ e ∈ evs, ∀ j, subj e = some j →
      (s.calls j).isSome = true ∨ (e = .call s.next ∧ j = s.next) := by
  refine tr_elim hi ht ?_ ?_ ?_ ?_ ?_
  · rintro op _ _ rfl
    refine ⟨_, rfl, ?_⟩
    intro e he j hj
    cases List.mem_singleton.mp he
    cases hj
    exact .inr ⟨rfl, rfl⟩
  · rintro ctx rfl
    exact ⟨[], by simp, nofun⟩
  · intro i alt pc pc' evs g _ ms
    refine ⟨evs, ms.log, ?_⟩
    intro e he j hj
    have : j = i := by
      rcases (mic_kind ms.mic).2 with hq | ⟨_, _, _, _, _, _, _, _, rfl⟩ | ⟨_, _, _, _, _, _, _, _, _, _, _, rfl⟩ |
        ⟨_, _, _, _, _, _, _, _, _, _, rfl⟩ | ⟨_, _, _, _, rfl, _⟩
      · rcases hq.evs e he with rfl | rfl <;> cases hj
      all_goals
        simp only [List.mem_cons, List.not_mem_nil, or_false] at he
        try rcases he with rfl | rfl
        all_goals
          try subst he
          cases hj
          rfl
    subst this
    exact .inl (by rw [ms.here]; rfl)
  · intro p r ctx q ex m x o pr pr' evs ms
    refine ⟨evs, ms.log, ?_⟩
    intro e he j hj
    have : j = p ∨ j = r := by
      rcases ms.kind with ⟨c, rfl, rfl, rfl⟩ | ⟨rfl, rfl, rfl⟩ <;>
        simp only [List.mem_cons, List.not_mem_nil, or_false] at he
      · rcases he with rfl | rfl | rfl <;> cases hj
        · exact .inl rfl
        · exact .inr rfl
        · exact .inr rfl
      · rcases he with rfl | rfl <;> cases hj
        · exact .inl rfl
        · exact .inr rfl
    rcases this with rfl | rfl
    · exact .inl (by rw [ms.pub]; rfl)
    · exact .inl (by rw [ms.recv]; rfl)
  · rintro i r hc rfl
    refine ⟨_, rfl, ?_⟩
    intro e he j hj
    cases List.mem_singleton.mp he
    cases hj
    exact .inl (by rw [hc]; rfl)

/-- A call is in progress or has returned. -/
theorem Reach.pending {cap : Int} {allowed : St → Act → Prop} {s : St} (h : Reach cap allowed s) :
    ∀ i op, s.ops i = some op → (s.calls i).isSome = true ∨ ∃ r, Ev.ret i r ∈ s.log := by
  refine h.inv (P := fun s => ∀ i op, s.ops i = some op →
    (s.calls i).isSome = true ∨ ∃ r, Ev.ret i r ∈ s.log) nofun ?_
  intro s s' a hr h _ _ ht
  have hi := hr.toInv
  refine tr_elim hi ht ?_ ?_ ?_ ?_ ?_
  · rintro op _ _ rfl i o ho
    dsimp only at ho ⊢
    by_cases hn : i = s.next
    · subst hn; rw [upd_self]; exact .inl rfl
    · rw [upd_ne _ _ hn] at ho ⊢
      rcases h i o ho with h1 | ⟨r, h1⟩
      · exact .inl h1
      · exact .inr ⟨r, List.mem_append_left _ h1⟩
  · rintro ctx rfl; exact h
  · intro i alt pc pc' evs g _ ms j o ho
    rw [ms.ops] at ho
    by_cases hji : j = i
    · subst hji; rw [ms.there]; exact .inl rfl
    · have hn : j ≠ s.next := by
        rintro rfl; rw [hi.ops _ (Nat.le_refl _)] at ho; cases ho
      rw [ms.keep j hji hn, ms.log]
      rcases h j o ho with h1 | ⟨r, h1⟩
      · exact .inl h1
      · exact .inr ⟨r, List.mem_append_left _ h1⟩
  · intro p r ctx q ex m x o pr pr' evs ms j op ho
    rw [ms.ops] at ho
    by_cases hp : j = p
    · subst hp; rw [ms.pub']; exact .inl rfl
    · by_cases hr' : j = r
      · subst hr'; rw [ms.recv']; exact .inl rfl
      · rw [ms.keep j hp hr', ms.log]
        rcases h j op ho with h1 | ⟨r, h1⟩
        · exact .inl h1
        · exact .inr ⟨r, List.mem_append_left _ h1⟩
  · rintro i r hc rfl j op ho
    dsimp only at ho ⊢
    by_cases hji : j = i
    · subst hji; exact .inr ⟨r, List.mem_append_right _ (List.mem_singleton.mpr rfl)⟩
    · rw [upd_ne _ _ hji]
      rcases h j op ho with h1 | ⟨r, h1⟩
      · exact .inl h1
      · exact .inr ⟨r, List.mem_append_left _ h1⟩

/-- An inactive subscription has its exit channel closed. -/
theorem Reach.offClosed {cap : Int} {allowed : St → Act → Prop} {s : St} (h : Reach cap allowed s) :
    (∀ x o, s.b.sub x = some o → o.active = false → s.b.closed x = true) ∧
    ∀ u x, s.calls u = some (.unsubSet x) → s.b.closed x = true := by
  refine h.inv (P := fun s => (∀ x o, s.b.sub x = some o → o.active = false → s.b.closed x = true) ∧
    ∀ u x, s.calls u = some (.unsubSet x) → s.b.closed x = true) ⟨nofun, nofun⟩ ?_
  intro s s' a hr h _ _ ht
  have hi := hr.toInv
  refine tr_elim hi ht ?_ ?_ ?_ ?_ ?_
  · rintro op _ _ rfl
    refine ⟨h.1, ?_⟩
    intro u x hu
    dsimp only at hu
    by_cases hn : u = s.next
    · subst hn; rw [upd_self] at hu; cases op <;> cases hu
    · rw [upd_ne _ _ hn] at hu; exact h.2 u x hu
  · rintro ctx rfl; exact h
  · intro i alt pc pc' evs g _ ms
    constructor
    · intro x o ho ha
      rcases mic_sub ms.mic ho with ⟨o', h1, h2 | ⟨h2, h3⟩⟩ | ⟨t, u, _, _, rfl⟩
      · subst h2; exact mic_closed_mono ms.mic (h.1 x o h1 ha)
      · have := ms.here
        rw [h2] at this
        exact mic_closed_mono ms.mic (h.2 i x this)
      · cases ha
    · intro u x hu
      by_cases hui : u = i
      · subst hui
        rw [ms.there] at hu
        cases hu
        have hmic := ms.mic
        generalize s'.b = b' at hmic
        cases hmic with
        | unsubClose _ _ => exact upd_self _ _ _
      · rcases ms.other u _ hui hu with h1 | ⟨_, rfl⟩
        · exact mic_closed_mono ms.mic (h.2 u x h1)
        · rcases mic_spawn ms.mic with ⟨_, h1⟩ | ⟨_, h1⟩ <;> cases h1
  · intro p r ctx q ex m x o pr pr' evs ms
    rw [ms.b]
    refine ⟨h.1, ?_⟩
    intro u y hu
    by_cases hp : u = p
    · subst hp; rw [ms.pub'] at hu; cases hu
    · by_cases hr' : u = r
      · subst hr'
        rw [ms.recv'] at hu
        rcases ms.kind with ⟨_, _, rfl, _⟩ | ⟨_, rfl, _⟩ <;> cases hu
      · rw [ms.keep u hp hr'] at hu; exact h.2 u y hu
  · rintro i r hc rfl
    refine ⟨h.1, ?_⟩
    intro u x hu
    dsimp only at hu
    by_cases hui : u = i
    · subst hui; rw [upd_self] at hu; cases hu
    · rw [upd_ne _ _ hui] at hu; exact h.2 u x hu

theorem tr_sub_some {s s' : St} {a : Act} (hi : Inv s) (ht : Tr s a s') {x : Nat}
    (hx : (s.b.sub x).isSome = true) : (s'.b.sub x).isSome = true := by
  refine tr_elim hi ht ?_ ?_ ?_ ?_ ?_
  · rintro op _ _ rfl; exact hx
  · rintro ctx rfl; exact hx
  · intro i alt pc pc' evs g _ ms; exact mic_sub_some ms.mic hx
  · intro p r ctx q ex m x o pr pr' evs ms; rw [ms.b]; exact hx
  · rintro i r _ rfl; exact hx

end Netscrape.Broker

namespace Netscrape.Digest
open Netscrape.Conc (upd upd_self upd_ne)
open Netscrape.Broker Netscrape.Spec Netscrape.Spec.Broker

theorem retOf_mem {r : Nat} {l : List Ev} {v : Ret} (h : retOf r l = some v) : Ev.ret r v ∈ l := by
  obtain ⟨e, he, h1⟩ := List.exists_of_findSome?_eq_some h
  cases e with
  | ret i w =>
    simp only at h1
    split at h1
    · subst_vars; cases h1; exact he
    · cases h1
  | _ => cases h1

theorem retOf_some {r : Nat} {l : List Ev} {v : Ret} (h : Ev.ret r v ∈ l) : (retOf r l).isSome = true := by
  unfold retOf
  rw [List.findSome?_isSome_iff]
  exact ⟨_, h, by simp⟩

theorem retOf_eq {cap : Int} {s : St} (hr : Reach cap Any s) {r : Nat} {v : Ret} (h : Ev.ret r v ∈ s.log) :
    retOf r s.log = some v := by
  obtain ⟨w, hw⟩ := Option.isSome_iff_exists.mp (retOf_some h)
  rw [hw, hr.toLog.1.rets1 r v w h (retOf_mem hw)]

/-! ## One step -/

/-- The cases of a step. -/
theorem dstep_cases {ctx x : Nat} {d d' : DSt} {a : DAct} (h : dstep ctx x d a = some d') :
    (∃ b s', a = .sys b ∧ step d.s b = some s' ∧ d' = { d with s := s' }) ∨
    (∃ s', a = .receive ∧ d.pos = .start ∧ step d.s (.call (.receive ctx x)) = some s' ∧
      d' = ⟨s', .waiting d.s.next, d.recvs ++ [d.s.next]⟩) ∨
    (∃ r v, a = .resume ∧ d.pos = .waiting r ∧ retOf r d.s.log = some v ∧
      d' = { d with pos := if v = .nil then .start else .returned v }) := by
  unfold dstep at h
  cases a with
  | sys b =>
    dsimp only at h
    cases hs : step d.s b with
    | none => rw [hs] at h; cases h
    | some s' => rw [hs] at h; cases h; exact .inl ⟨b, s', rfl, hs, rfl⟩
  | receive =>
    dsimp only at h
    cases hp : d.pos with
    | start =>
      rw [hp] at h
      dsimp only at h
      cases hs : step d.s (.call (.receive ctx x)) with
      | none => rw [hs] at h; cases h
      | some s' => rw [hs] at h; cases h; exact .inr (.inl ⟨s', rfl, rfl, rfl, rfl⟩)
    | waiting r => rw [hp] at h; cases h
    | returned v => rw [hp] at h; cases h
  | resume =>
    dsimp only at h
    cases hp : d.pos with
    | start => rw [hp] at h; cases h
    | returned v => rw [hp] at h; cases h
    | waiting r =>
      rw [hp] at h
      dsimp only at h
      cases hv : retOf r d.s.log with
      | none => rw [hv] at h; cases h
      | some v =>
        rw [hv] at h
        refine .inr (.inr ⟨r, v, rfl, rfl, hv, ?_⟩)
        cases v <;> cases h <;> rfl

theorem DReach.reach {cap : Int} {ctx x : Nat} {d : DSt} (h : DReach cap ctx x d) : Reach cap Any d.s := by
  induction h with
  | init s hr _ => exact hr
  | step d d' a _ hs ih =>
    rcases dstep_cases hs with ⟨b, s', _, h1, rfl⟩ | ⟨s', _, _, h1, rfl⟩ | ⟨r, v, _, _, _, rfl⟩
    · exact .step _ _ _ ih trivial h1
    · exact .step _ _ _ ih trivial h1
    · exact ih

/-! ## The calls of `Receive` -/

/-- The messages taken by the calls in a list, in the order they were taken. -/
def tookByAny (rs : List Nat) (l : List Ev) : List Nat :=
  l.filterMap fun | .took r _ p => if r ∈ rs then some p else none | _ => none

/-- Calls that have returned, without an error. -/
def AllNil (l : List Ev) (rs : List Nat) : Prop := ∀ r ∈ rs, Ev.ret r .nil ∈ l

structure DInv (ctx x : Nat) (d : DSt) : Prop where
  sub : (d.s.b.sub x).isSome = true
  ops : ∀ r ∈ d.recvs, d.s.ops r = some (.receive ctx x)
  nodup : d.recvs.Nodup
  pos : match d.pos with
    | .start => AllNil d.s.log d.recvs
    | .waiting r => ∃ cs, d.recvs = cs ++ [r] ∧ AllNil d.s.log cs
    | .returned v => ∃ cs r, d.recvs = cs ++ [r] ∧ AllNil d.s.log cs ∧ Ev.ret r v ∈ d.s.log ∧ v ≠ .nil
  took : tookByAny d.recvs d.s.log = d.recvs.flatMap fun r => tookBy r d.s.log

theorem AllNil.mono {l l' : List Ev} {rs : List Nat} (h : AllNil l rs) : AllNil (l ++ l') rs :=
  fun r hr => List.mem_append_left _ (h r hr)

theorem tookByAny_append (rs : List Nat) (l l' : List Ev) :
    tookByAny rs (l ++ l') = tookByAny rs l ++ tookByAny rs l' := List.filterMap_append

theorem filterMap_ext {α β : Type} {l : List α} {f g : α → Option β} (h : ∀ a ∈ l, f a = g a) :
    l.filterMap f = l.filterMap g := by
  induction l with
  | nil => rfl
  | cons a l ih =>
    rw [List.filterMap_cons, List.filterMap_cons, h a (by simp), ih fun b hb => h b (by simp [hb])]

theorem tookByAny_congr {rs rs' : List Nat} {l : List Ev}
    (h : ∀ r c p, Ev.took r c p ∈ l → (r ∈ rs ↔ r ∈ rs')) : tookByAny rs l = tookByAny rs' l := by
  unfold tookByAny
  refine filterMap_ext ?_
  intro e he
  cases e with
  | took r c p => simp only [h r c p he]
  | _ => rfl

theorem tookByAny_one (r : Nat) (l : List Ev) : tookByAny [r] l = tookBy r l := by
  unfold tookByAny tookBy
  refine filterMap_ext ?_
  intro e _
  cases e with
  | took => simp only [List.mem_singleton]
  | _ => rfl

theorem tookByAny_nil (l : List Ev) : tookByAny [] l = [] := by
  unfold tookByAny
  rw [List.filterMap_eq_nil_iff]
  intro e _
  cases e <;> simp

theorem flatMap_congr {α β : Type} {l : List α} {f g : α → List β} (h : ∀ a ∈ l, f a = g a) :
    l.flatMap f = l.flatMap g := by
  induction l with
  | nil => rfl
  | cons a l ih =>
    rw [List.flatMap_cons, List.flatMap_cons, h a (by simp), ih fun b hb => h b (by simp [hb])]

theorem DReach.inv {cap : Int} {ctx x : Nat} {d : DSt} (h : DReach cap ctx x d) : DInv ctx x d := by
  induction h with
  | init s hr hx =>
    refine ⟨hx, nofun, List.nodup_nil, nofun, ?_⟩
    exact tookByAny_nil _
  | step d d' a hd hs ih =>
    have hr := hd.reach
    have hi := hr.toInv
    have hl := hr.toLog.1
    rcases dstep_cases hs with ⟨b, s', _, h1, rfl⟩ | ⟨s', _, hp, h1, rfl⟩ | ⟨r, v, _, hp, hv, rfl⟩
    · obtain ⟨_, ht⟩ := step_tr h1
      obtain ⟨evs, hlog, hev⟩ := tr_evs hi ht
      have hops : ∀ i op, d.s.ops i = some op → s'.ops i = some op := by
        intro i op ho
        refine tr_elim hi ht ?_ ?_ ?_ ?_ ?_
        · rintro op' _ _ rfl
          exact ops_upd (hi.ops _ (Nat.le_refl _)) ho
        · rintro ctx rfl; exact ho
        · intro _ _ _ _ _ _ _ ms; rw [ms.ops]; exact ho
        · intro _ _ _ _ _ _ _ _ _ _ _ ms; rw [ms.ops]; exact ho
        · rintro _ _ _ rfl; exact ho
      -- calls that have returned are not mentioned
      have hdone : ∀ {cs : List Nat}, AllNil d.s.log cs → ∀ r ∈ cs, ∀ c p, Ev.took r c p ∉ evs := by
        intro cs hcs r hr' c p he
        rcases hev _ he r rfl with h2 | ⟨h2, _⟩
        · rw [(hl.rets r _ (hcs r hr')).1] at h2; cases h2
        · cases h2
      have hnil : ∀ {r : Nat}, (∀ c p, Ev.took r c p ∉ evs) → tookBy r evs = [] := by
        intro r h2
        unfold tookBy
        rw [List.filterMap_eq_nil_iff]
        intro e he
        cases e with
        | took r' c p =>
          simp only
          rw [if_neg]
          rintro rfl
          exact h2 c p he
        | _ => rfl
      have hstep : ∀ {cs : List Nat} {r : Nat}, AllNil d.s.log cs → (d.recvs = cs ∨ d.recvs = cs ++ [r]) →
          tookByAny d.recvs evs = d.recvs.flatMap (fun r => tookBy r evs) := by
        intro cs r hcs hrs
        have h0 : cs.flatMap (fun r => tookBy r evs) = [] := by
          rw [List.flatMap_eq_nil_iff]
          exact fun r hr' => hnil (hdone hcs r hr')
        rcases hrs with hrs | hrs
        · rw [hrs, h0, ← tookByAny_nil evs]
          refine tookByAny_congr fun r c p he => ?_
          exact ⟨fun h3 => (hdone hcs r h3 c p he).elim, nofun⟩
        · rw [hrs, List.flatMap_append, h0, List.nil_append, List.flatMap_singleton, ← tookByAny_one]
          refine tookByAny_congr fun r' c p he => ?_
          rw [List.mem_append]
          exact ⟨fun h3 => h3.resolve_left fun h3 => hdone hcs r' h3 c p he, .inr⟩
      have htook : tookByAny d.recvs evs = d.recvs.flatMap (fun r => tookBy r evs) →
          tookByAny d.recvs s'.log = d.recvs.flatMap fun r => tookBy r s'.log := by
        intro h2
        cases hpos : d.pos with
        | start =>
          have h3 := ih.pos; rw [hpos] at h3
          rw [hlog, tookByAny_append, ih.took]
          have h4 : tookByAny d.recvs evs = [] := by
            rw [h2, List.flatMap_eq_nil_iff]
            exact fun r hr' => hnil (hdone h3 r hr')
          rw [h4, List.append_nil]
          exact flatMap_congr fun r hr' => by rw [tookBy_append, hnil (hdone h3 r hr'), List.append_nil]
        | waiting r =>
          have h3 := ih.pos; rw [hpos] at h3
          obtain ⟨cs, h5, h6⟩ := h3
          rw [hlog, tookByAny_append, ih.took, h2, h5, List.flatMap_append, List.flatMap_append,
            List.flatMap_append]
          have h4 : cs.flatMap (fun r => tookBy r evs) = [] := by
            rw [List.flatMap_eq_nil_iff]
            exact fun r hr' => hnil (hdone h6 r hr')
          rw [h4, List.nil_append, List.append_assoc]
          congr 1
          · exact flatMap_congr fun r hr' => by rw [tookBy_append, hnil (hdone h6 r hr'), List.append_nil]
          · rw [List.flatMap_singleton, List.flatMap_singleton, List.flatMap_singleton, tookBy_append]
        | returned v =>
          have h3 := ih.pos; rw [hpos] at h3
          obtain ⟨cs, r, h5, h6, h7, _⟩ := h3
          have hno : ∀ r' ∈ d.recvs, ∀ c p, Ev.took r' c p ∉ evs := by
            intro r' hr' c p he
            rw [h5] at hr'
            rcases List.mem_append.mp hr' with h8 | h8
            · exact hdone h6 r' h8 c p he
            · cases List.mem_singleton.mp h8
              rcases hev _ he r rfl with h9 | ⟨h9, _⟩
              · rw [(hl.rets r _ h7).1] at h9; cases h9
              · cases h9
          have h4 : tookByAny d.recvs evs = [] := by
            rw [h2, List.flatMap_eq_nil_iff]
            exact fun r hr' => hnil (hno r hr')
          rw [hlog, tookByAny_append, ih.took, h4, List.append_nil]
          exact flatMap_congr fun r hr' => by rw [tookBy_append, hnil (hno r hr'), List.append_nil]
      refine ⟨tr_sub_some hi ht ih.sub, fun r hr' => hops r _ (ih.ops r hr'), ih.nodup, ?_, ?_⟩
      · have h3 := ih.pos
        show match d.pos with | .start => _ | .waiting r => _ | .returned v => _
        cases hpos : d.pos with
        | start =>
          rw [hpos] at h3
          show AllNil s'.log _
          rw [hlog]; exact h3.mono
        | waiting r =>
          rw [hpos] at h3
          obtain ⟨cs, h5, h6⟩ := h3
          refine ⟨cs, h5, ?_⟩
          show AllNil s'.log _
          rw [hlog]; exact h6.mono
        | returned v =>
          rw [hpos] at h3
          obtain ⟨cs, r, h5, h6, h7, h8⟩ := h3
          refine ⟨cs, r, h5, ?_, ?_, h8⟩
          · show AllNil s'.log _
            rw [hlog]; exact h6.mono
          · show _ ∈ s'.log
            rw [hlog]; exact List.mem_append_left _ h7
      · refine htook ?_
        have h3 := ih.pos
        cases hpos : d.pos with
        | start => rw [hpos] at h3; exact hstep (r := 0) h3 (.inl rfl)
        | waiting r => rw [hpos] at h3; obtain ⟨cs, h5, h6⟩ := h3; exact hstep h6 (.inr h5)
        | returned v =>
          rw [hpos] at h3
          obtain ⟨cs, r, h5, h6, _, _⟩ := h3
          exact hstep h6 (.inr h5)
    · obtain ⟨_, ht⟩ := step_tr h1
      cases ht with
      | call op hop =>
      have hn : d.s.ops d.s.next = none := hi.ops _ (Nat.le_refl _)
      have h3 := ih.pos; rw [hp] at h3
      have hnot : d.s.next ∉ d.recvs := by
        intro h4; rw [ih.ops _ h4] at hn; cases hn
      refine ⟨ih.sub, ?_, ?_, ?_, ?_⟩ <;> dsimp only
      · intro r hr'
        rcases List.mem_append.mp hr' with h4 | h4
        · exact ops_upd hn (ih.ops r h4)
        · cases List.mem_singleton.mp h4; exact upd_self _ _ _
      · rw [List.nodup_append]
        refine ⟨ih.nodup, by simp, ?_⟩
        intro a ha b hb
        cases List.mem_singleton.mp hb
        rintro rfl; exact hnot ha
      · exact ⟨_, rfl, h3.mono⟩
      · have hfresh : ∀ c p, Ev.took d.s.next c p ∉ d.s.log ++ [Ev.call d.s.next] := by
          intro c p he
          rcases List.mem_append.mp he with he | he
          · have := hl.ids _ he _ rfl; omega
          · cases List.mem_singleton.mp he
        have h5 : tookBy d.s.next (d.s.log ++ [Ev.call d.s.next]) = [] := by
          unfold tookBy
          rw [List.filterMap_eq_nil_iff]
          intro e he
          cases e with
          | took r' c p =>
            simp only
            rw [if_neg]
            rintro rfl
            exact hfresh c p he
          | _ => rfl
        have h6 : tookByAny (d.recvs ++ [d.s.next]) (d.s.log ++ [Ev.call d.s.next]) =
            tookByAny d.recvs (d.s.log ++ [Ev.call d.s.next]) := by
          refine tookByAny_congr fun r c p he => ?_
          rw [List.mem_append]
          refine ⟨fun h7 => h7.resolve_right ?_, .inl⟩
          intro h7; cases List.mem_singleton.mp h7; exact hfresh c p he
        rw [h6, tookByAny_append, ih.took, List.flatMap_append, List.flatMap_singleton, h5]
        rw [show tookByAny d.recvs [Ev.call d.s.next] = [] from rfl]
        congr 1
        exact flatMap_congr fun r hr' => by
          rw [tookBy_append, show tookBy r [Ev.call d.s.next] = [] from rfl, List.append_nil]
    · have h3 := ih.pos; rw [hp] at h3
      obtain ⟨cs, h5, h6⟩ := h3
      refine ⟨ih.sub, ih.ops, ih.nodup, ?_, ih.took⟩
      dsimp only
      by_cases hvn : v = .nil
      · subst hvn
        rw [if_pos rfl]
        intro r' hr'
        rw [h5] at hr'
        rcases List.mem_append.mp hr' with h7 | h7
        · exact h6 r' h7
        · cases List.mem_singleton.mp h7; exact retOf_mem hv
      · rw [if_neg hvn]
        exact ⟨cs, r, h5, h6, retOf_mem hv, hvn⟩

theorem tookByAny_sublist {rs : List Nat} {l : List Ev} {ch : Nat}
    (h : ∀ r c p, Ev.took r c p ∈ l → r ∈ rs → c = ch) : (tookByAny rs l).Sublist (tookFrom ch l) := by
  induction l with
  | nil => exact .slnil
  | cons e l ih =>
    have ih := ih fun r c p he => h r c p (List.mem_cons_of_mem _ he)
    cases e with
    | took r c p =>
      have h1 := h r c p (by simp)
      unfold tookByAny tookFrom at ih ⊢
      rw [List.filterMap_cons, List.filterMap_cons]
      by_cases hr : r ∈ rs
      · simp only [hr, h1 hr, if_true]; exact ih.cons_cons p
      · simp only [hr, if_false]
        by_cases hc : c = ch
        · simp only [hc, if_true]; exact ih.cons p
        · simp only [hc, if_false]; exact ih
    | _ => exact ih

end Netscrape.Digest
