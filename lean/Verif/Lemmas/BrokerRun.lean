import Verif.Lemmas.BrokerUnsub

/-!
# Runs, prefixes of histories, full queues
-/

namespace Netscrape.Broker
open Netscrape.Conc (upd upd_self upd_ne)
open Netscrape.Spec Netscrape.Spec.Broker

/-! ## Concrete runs -/

theorem reach_exec {cap : Int} {s s' : St} {acts : List Act} (h : Reach cap Any s)
    (he : exec s acts = some s') : Reach cap Any s' := by
  induction acts generalizing s with
  | nil => cases he; exact h
  | cons a acts ih =>
    rw [exec] at he
    cases hs : step s a with
    | none => rw [hs] at he; cases he
    | some s1 => rw [hs] at he; exact ih (.step s s1 a h trivial hs) he

/-- A sequence of steps each of which passes a check. -/
def execIf (ok : St → Act → Bool) (s : St) : List Act → Option St
  | [] => some s
  | a :: as =>
    if ok s a then
      match step s a with
      | none => none
      | some s' => execIf ok s' as
    else none

theorem reach_execIf {cap : Int} {allowed : St → Act → Prop} {ok : St → Act → Bool}
    (hok : ∀ s a, Reach cap allowed s → ok s a = true → allowed s a) {s s' : St} {acts : List Act}
    (h : Reach cap allowed s) (he : execIf ok s acts = some s') : Reach cap allowed s' := by
  induction acts generalizing s with
  | nil => cases he; exact h
  | cons a acts ih =>
    rw [execIf] at he
    split at he
    · next hk =>
      cases hs : step s a with
      | none => rw [hs] at he; cases he
      | some s1 => rw [hs] at he; exact ih (.step s s1 a h (hok s a h hk) hs) he
    · cases he

/-- The state after a concrete run. -/
def run (cap : Int) (acts : List Act) : St := (exec (.init cap) acts).getD (.init cap)

theorem reach_run {cap : Int} {acts : List Act} (h : (exec (.init cap) acts).isSome = true) :
    Reach cap Any (run cap acts) := by
  cases he : exec (.init cap) acts with
  | none => rw [he] at h; cases h
  | some s => rw [run, he]; exact reach_exec .init he

theorem reach_runIf {cap : Int} {allowed : St → Act → Prop} {ok : St → Act → Bool}
    (hok : ∀ s a, Reach cap allowed s → ok s a = true → allowed s a) {acts : List Act}
    (h : (execIf ok (.init cap) acts).isSome = true) :
    Reach cap allowed ((execIf ok (.init cap) acts).getD (.init cap)) := by
  cases he : execIf ok (.init cap) acts with
  | none => rw [he] at h; cases h
  | some s => exact reach_execIf hok .init he

/-! ## Prefixes -/

theorem prefix_append {α : Type} {l1 l evs : List α} (h : l1 <+: l ++ evs) :
    l1 <+: l ∨ ∃ e1, e1 <+: evs ∧ l1 = l ++ e1 := by
  obtain ⟨t, ht⟩ := h
  rcases List.append_eq_append_iff.mp ht with ⟨a', h1, h2⟩ | ⟨c', h1, h2⟩
  · exact .inl ⟨a', h1.symm⟩
  · exact .inr ⟨c', ⟨t, h2.symm⟩, h1⟩

theorem prefix_one {α : Type} {l : List α} {x : α} (h : l <+: [x]) : l = [] ∨ l = [x] := by
  cases l with
  | nil => exact .inl rfl
  | cons y l =>
    obtain ⟨rfl, h2⟩ := List.cons_prefix_cons.mp h
    exact .inr (by rw [List.prefix_nil.mp h2])

/-- Once something is taken, nothing is sent or taken any more in the same step. -/
def Tidy (evs : List Ev) : Prop := ∀ ch e1, e1 <+: evs → tookFrom ch e1 = [] ∨
  (tookFrom ch e1 = tookFrom ch evs ∧ sentOn ch e1 = sentOn ch evs)

theorem tidy_one (e : Ev) : Tidy [e] := by
  intro ch e1 h
  rcases prefix_one h with rfl | rfl
  · exact .inl rfl
  · exact .inr ⟨rfl, rfl⟩

theorem tidy_nil : Tidy [] := by
  intro ch e1 h; rw [List.prefix_nil.mp h]; exact .inl rfl

theorem tidy_handle (r ch p : Nat) (m : Msg) : Tidy [.took r ch p, .handle r m] := by
  intro c e1 h
  cases e1 with
  | nil => exact .inl rfl
  | cons y l =>
    obtain ⟨rfl, h2⟩ := List.cons_prefix_cons.mp h
    rcases prefix_one h2 with rfl | rfl <;> exact .inr ⟨rfl, rfl⟩

theorem Tidy.cons {p ch : Nat} {evs : List Ev} (h : Tidy evs) : Tidy (.sent p ch :: evs) := by
  intro c e1 he
  cases e1 with
  | nil => exact .inl rfl
  | cons y l =>
    obtain ⟨rfl, h2⟩ := List.cons_prefix_cons.mp he
    rcases h c l h2 with h1 | ⟨h1, h2⟩
    · exact .inl h1
    · refine .inr ⟨h1, ?_⟩
      simp only [sentOn, List.filterMap_cons] at h2 ⊢
      rw [h2]

theorem mic_tidy {b b' : Mem} {i : Nat} {pc pc' : PC} {a : Alt} {evs : List Ev} {g : Option PC}
    (h : Mic b i pc a b' pc' evs g) : Tidy evs := by
  rcases (mic_kind h).2 with hq | ⟨_, _, _, _, _, _, _, _, rfl⟩ | ⟨_, _, _, _, _, _, _, _, _, _, _, rfl⟩ |
    ⟨_, _, _, _, _, _, _, _, _, _, rfl⟩ | ⟨_, _, _, _, rfl, _⟩
  · intro ch e1 h1
    exact .inl ((quiet_nil fun e he => hq.evs e (h1.subset he)).2.1 ch)
  · exact tidy_one _
  · exact tidy_handle _ _ _ _
  · exact tidy_one _
  · exact tidy_one _

theorem tr_tidy {s s' : St} {a : Act} (hi : Inv s) (ht : Tr s a s') :
    ∃ evs, s'.log = s.log ++ evs ∧ Tidy evs := by
  refine tr_elim hi ht ?_ ?_ ?_ ?_ ?_
  · rintro op _ _ rfl; exact ⟨_, rfl, tidy_one _⟩
  · rintro ctx rfl; exact ⟨[], by simp, tidy_nil⟩
  · intro i alt pc pc' evs g _ ms; exact ⟨evs, ms.log, mic_tidy ms.mic⟩
  · intro p r ctx q ex m x o pr pr' evs ms
    refine ⟨evs, ms.log, ?_⟩
    rcases ms.kind with ⟨_, _, _, rfl⟩ | ⟨_, _, rfl⟩
    · exact (tidy_handle _ _ _ _).cons
    · exact (tidy_one _).cons
  · rintro i r _ rfl; exact ⟨_, rfl, tidy_one _⟩

/-- At every moment, what was taken is a prefix of what was sent. -/
theorem Reach.order {cap : Int} {allowed : St → Act → Prop} {s : St} (h : Reach cap allowed s) :
    ∀ ch l1, l1 <+: s.log → tookFrom ch l1 <+: sentOn ch l1 := by
  have base : ∀ {s : St}, Reach cap allowed s → ∀ ch, tookFrom ch s.log <+: sentOn ch s.log :=
    fun h ch => ⟨_, (h.toLog.1.chan ch).symm⟩
  induction h with
  | init => intro ch l1 h1; rw [List.prefix_nil.mp h1]; exact List.prefix_refl _
  | step s s' a hr ha hst ih =>
    intro ch l1 hpre
    obtain ⟨evs, hlog, htidy⟩ := tr_tidy hr.toInv (step_tr hst).2
    have hend := base (.step s s' a hr ha hst) ch
    rw [hlog] at hpre hend
    rcases prefix_append hpre with h1 | ⟨e1, h1, rfl⟩
    · exact ih ch l1 h1
    · rcases htidy ch e1 h1 with h2 | ⟨h2, h3⟩
      · rw [tookFrom_append, sentOn_append, h2, List.append_nil]
        exact (base hr ch).trans (List.prefix_append _ _)
      · rw [tookFrom_append, sentOn_append, h2, h3, ← tookFrom_append, ← sentOn_append]
        exact hend

/-- A message that was taken was sent before, on the same channel. -/
theorem Reach.sent_before {cap : Int} {allowed : St → Act → Prop} {s : St} (h : Reach cap allowed s)
    {r ch p : Nat} (ht : Ev.took r ch p ∈ s.log) : Before (.sent p ch) (.took r ch p) s.log := by
  obtain ⟨a, d, e⟩ := List.append_of_mem ht
  have h1 := h.order ch (a ++ [.took r ch p]) ⟨d, by rw [e]; simp⟩
  have h2 : p ∈ sentOn ch (a ++ [.took r ch p]) := by
    refine h1.subset ?_
    rw [tookFrom_append]
    exact List.mem_append_right _ (by simp [tookFrom])
  rw [sentOn_append] at h2
  have h3 : p ∈ sentOn ch a := by
    rcases List.mem_append.mp h2 with h2 | h2
    · exact h2
    · simp [sentOn] at h2
  obtain ⟨ev, hev, hp⟩ := List.mem_filterMap.mp h3
  have : ev = .sent p ch := by
    cases ev with
    | sent p' c =>
      dsimp only at hp
      split at hp
      · next hc => cases hp; rw [hc]
      · cases hp
    | _ => cases hp
  subst this
  obtain ⟨a1, a2, rfl⟩ := List.append_of_mem hev
  exact ⟨a1, a2, d, by rw [e]; simp⟩

/-! ## Returns -/

/-- What a call returned is something such a call may return. -/
theorem retOk_ret {cap : Int} {allowed : St → Act → Prop} {s : St} (h : Reach cap allowed s) {i : Nat} {r : Ret}
    (hr : Ev.ret i r ∈ s.log) : RetOk (s.ops i) r := by
  refine h.inv (P := fun s => ∀ i r, Ev.ret i r ∈ s.log → RetOk (s.ops i) r) nofun ?_ i r hr
  intro s s' a hr h _ _ ht
  have hi := hr.toInv
  have hl := hr.toLog.1
  refine tr_elim hi ht ?_ ?_ ?_ ?_ ?_
  · rintro op _ _ rfl j v hv
    dsimp only at hv ⊢
    rcases List.mem_append.mp hv with hv | hv
    · have := hl.ids _ hv j rfl
      rw [upd_ne _ _ (by omega)]; exact h j v hv
    · cases List.mem_singleton.mp hv
  · rintro _ rfl; exact h
  · intro _ _ _ _ _ _ _ ms j v hv
    rw [ms.log] at hv
    rw [ms.ops]
    rcases List.mem_append.mp hv with hv | hv
    · exact h j v hv
    · exact (mic_noret ms.mic _ _ hv).elim
  · intro _ _ _ _ _ _ _ _ _ _ _ ms j v hv
    rw [ms.log] at hv
    rw [ms.ops]
    rcases List.mem_append.mp hv with hv | hv
    · exact h j v hv
    · exact (ms.noret.1 _ _ hv).elim
  · rintro j v hc rfl k w hw
    dsimp only at hw ⊢
    rcases List.mem_append.mp hw with hw | hw
    · exact h k w hw
    · cases List.mem_singleton.mp hw; exact hi.fits j _ hc

/-! ## Full queues -/

/-- A queue can be filled up to its capacity. -/
theorem fill {cap : Int} (n : Nat) (hn : n ≤ sizeOf cap) : ∃ s ch e, Reach cap Any s ∧
    s.b.crashed = false ∧ s.b.connected = true ∧ s.b.topics.get? "t" = some ⟨ch, e⟩ ∧
    (s.b.buf ch).length = n := by
  induction n with
  | zero =>
    let s0 := run cap [.call (.open 0), .step 0 .go, .step 0 .go, .call (.sub "t" "u"), .step 2 .go,
      .step 2 .go]
    exact ⟨s0, 2, some 0, reach_run rfl, rfl, rfl, rfl, rfl⟩
  | succ n ih =>
    obtain ⟨s, ch, e, hr, hcr, hco, ht, hb⟩ := ih (by omega)
    have hsz : s.b.size = sizeOf cap := hr.toLog.2.1
    have hlt : (s.b.buf ch).length < s.b.size := by omega
    let acts : List Act := [.call (.pub 0 "t" ⟨"", 0, "", GoMap.empty⟩), .step s.next .go, .step s.next .go,
      .step s.next .go, .step s.next .msg]
    have hex : ∃ s', exec s acts = some s' ∧ s'.b = { s.b with
        buf := upd s.b.buf ch (s.b.buf ch ++ [(s.next, ⟨"", 0, "", GoMap.empty⟩)]) } := by
      simp [acts, exec, step, micro, hcr, hco, ht, hlt, Mem.has, Mem.queue, PC.start, upd_self]
    obtain ⟨s', hs', hb'⟩ := hex
    refine ⟨s', ch, e, reach_exec hr hs', ?_, ?_, ?_, ?_⟩ <;> rw [hb']
    · exact hcr
    · exact hco
    · exact ht
    · simp [upd_self, hb]

end Netscrape.Broker
