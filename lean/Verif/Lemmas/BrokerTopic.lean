import Verif.Lemmas.DigestStop

/-!
# Everybody on a topic uses one channel until the broker is closed
-/

namespace Netscrape.Broker
open Netscrape.Conc (upd upd_self upd_ne)
open Netscrape.Spec Netscrape.Spec.Broker

/-- The broker was closed since call `x`, or the queue of topic `t` is `q`. -/
def Cur (s : St) (x : Nat) (t : String) (q : Queue) : Prop :=
  ClosedAfter x s.log ∨ s.b.topics.get? t = some q

theorem queue_get (b : Mem) (i : Nat) (t : String) :
    (b.queue i t).1.topics.get? t = some (b.queue i t).2 := by
  unfold Mem.queue
  cases h : b.topics.get? t with
  | some q => exact h
  | none => dsimp only; rw [GoMap.get?_set, if_pos rfl]

theorem queue_keeps {b : Mem} {i : Nat} {t t' : String} {q : Queue} (h : b.topics.get? t' = some q) :
    (b.queue i t).1.topics.get? t' = some q := by
  unfold Mem.queue
  cases hq : b.topics.get? t with
  | some q' => exact h
  | none =>
    dsimp only
    rw [GoMap.get?_set]
    split
    · next e => subst e; rw [hq] at h; cases h
    · exact h

/-- Topics go away only when the broker is closed. -/
theorem mic_keeps_topic {ops : Nat → Option Op} {b b' : Mem} {i : Nat} {pc pc' : PC} {a : Alt}
    {evs : List Ev} {g : Option PC} (hm : MemInv ops b) (h : Mic b i pc a b' pc' evs g) {t : String}
    {q : Queue} (hq : b.topics.get? t = some q) : b'.topics.get? t = some q ∨ evs = [.closed i] := by
  cases h with
  | closing | pubClose | runClose =>
    rcases hm.close i with ⟨_, e⟩ | ⟨_, _, _, _, e⟩ <;> rw [e]
    · exact .inl hq
    · exact .inr rfl
  | pubGet ctx t m => exact .inl (queue_keeps hq)
  | subMake t u => exact .inl (queue_keeps hq)
  | _ => exact .inl hq

theorem Cur.mic {s s' : St} {i : Nat} {a : Alt} {pc pc' : PC} {evs : List Ev} {g : Option PC}
    (hi : Inv s) (ms : MicStep s s' i a pc pc' evs g) {x : Nat} {t : String} {q : Queue}
    (hx : Ev.call x ∈ s.log) (h : Cur s x t q) : Cur s' x t q := by
  rcases h with h | h
  · exact .inl (by rw [ms.log]; exact h.append _)
  · rcases mic_keeps_topic hi.mem ms.mic h with h | h
    · exact .inr h
    · exact .inl (by rw [ms.log, h]; exact ⟨i, before_new hx⟩)

theorem Cur.log {s s' : St} {x : Nat} {t : String} {q : Queue} (h : Cur s x t q)
    (hb : s'.b.topics = s.b.topics) (hl : ∃ l, s'.log = s.log ++ l) : Cur s' x t q := by
  obtain ⟨l, hl⟩ := hl
  rcases h with h | h
  · exact .inl (by rw [hl]; exact h.append _)
  · exact .inr (by rw [hb]; exact h)

structure TopicInv (s : St) : Prop where
  sub : ∀ x o, s.b.sub x = some o → Cur s x o.topic o.queue
  read : ∀ p ctx q m t, s.calls p = some (.pubRead ctx q m) → s.ops p = some (.pub ctx t m) → Cur s p t q
  sel : ∀ p ctx q e m t, s.calls p = some (.pubSel ctx q e m) → s.ops p = some (.pub ctx t m) → Cur s p t q
  sent : ∀ p ch ctx m t, Ev.sent p ch ∈ s.log → s.ops p = some (.pub ctx t m) →
    ∃ q, q.msg = ch ∧ Cur s p t q

theorem Reach.toTopic {cap : Int} {allowed : St → Act → Prop} {s : St} (h : Reach cap allowed s) :
    TopicInv s := by
  refine h.inv (P := TopicInv) ⟨nofun, nofun, nofun, nofun⟩ ?_
  intro s s' a hr h _ _ ht
  have hi := hr.toInv
  have hc := hr.toCall
  have hn : s.ops s.next = none := hi.ops _ (Nat.le_refl _)
  refine tr_cases hi ht ?_ ?_ ?_ ?_ ?_
  · rintro op rfl _ rfl
    have old : ∀ {j op'}, j ≠ s.next → upd s.ops s.next (some op) j = some op' → s.ops j = some op' := by
      intro j op' hj h; rw [upd_ne _ _ hj] at h; exact h
    refine ⟨?_, ?_, ?_, ?_⟩
    · intro x o hx; exact (h.sub x o hx).log rfl ⟨_, rfl⟩
    · intro p ctx q m t hp ho
      dsimp only at hp ho
      by_cases hj : p = s.next
      · subst hj; rw [upd_self] at hp; cases op <;> cases hp
      · rw [upd_ne _ _ hj] at hp; exact (h.read p ctx q m t hp (old hj ho)).log rfl ⟨_, rfl⟩
    · intro p ctx q e m t hp ho
      dsimp only at hp ho
      by_cases hj : p = s.next
      · subst hj; rw [upd_self] at hp; cases op <;> cases hp
      · rw [upd_ne _ _ hj] at hp; exact (h.sel p ctx q e m t hp (old hj ho)).log rfl ⟨_, rfl⟩
    · intro p ch ctx m t hp ho
      dsimp only at hp ho
      have hp : Ev.sent p ch ∈ s.log := by simpa using hp
      have hj : p ≠ s.next := by
        rintro rfl
        obtain ⟨_, _, _, h1, _⟩ := hr.toLog.1.sent _ _ hp
        rw [hn] at h1; cases h1
      obtain ⟨q, h1, h2⟩ := h.sent p ch ctx m t hp (old hj ho)
      exact ⟨q, h1, h2.log rfl ⟨_, rfl⟩⟩
  · rintro c rfl rfl
    exact ⟨fun x o hx => (h.sub x o hx).log rfl ⟨[], by simp⟩,
      fun p ctx q m t h1 h2 => (h.read p ctx q m t h1 h2).log rfl ⟨[], by simp⟩,
      fun p ctx q e m t h1 h2 => (h.sel p ctx q e m t h1 h2).log rfl ⟨[], by simp⟩,
      fun p ch ctx m t h1 h2 => (h.sent p ch ctx m t h1 h2).imp
        fun q h => ⟨h.1, h.2.log rfl ⟨[], by simp⟩⟩⟩
  · rintro i alt pc pc' evs g rfl ms
    have keep : ∀ {x t q op}, s.ops x = some op → Cur s x t q → Cur s' x t q :=
      fun ho hcur => hcur.mic hi ms (hc.called _ _ ho)
    have hf := hi.fits _ _ ms.here
    have hmic := ms.mic
    refine ⟨?_, ?_, ?_, ?_⟩
    · intro x o hx
      rcases mic_sub ms.mic hx with ⟨o', h1, h2⟩ | ⟨t, u, rfl, rfl, rfl⟩
      · have := keep (hi.mem.subs x o' h1).1 (h.sub x o' h1)
        rcases h2 with rfl | ⟨_, rfl⟩ <;> exact this
      · right
        dsimp only
        generalize s'.b = b' at hmic
        cases hmic
        exact queue_get _ _ _
    · intro p ctx q m t hp ho
      rw [ms.ops] at ho
      by_cases hj : p = i
      · subst hj
        rw [ms.there] at hp; cases hp
        right
        generalize s'.b = b' at hmic
        cases hmic with
        | pubGet c t' m' =>
          have : s.ops p = _ := hf
          rw [ho] at this; cases this
          exact queue_get _ _ _
      · rcases ms.other p _ hj hp with h1 | ⟨_, rfl⟩
        · exact keep ho (h.read p ctx q m t h1 ho)
        · rcases mic_spawn ms.mic with ⟨_, e⟩ | ⟨_, e⟩ <;> cases e
    · intro p ctx q e m t hp ho
      rw [ms.ops] at ho
      by_cases hj : p = i
      · subst hj
        have hh := ms.here
        rw [ms.there] at hp; cases hp
        refine keep ho ?_
        generalize s'.b = b' at hmic
        cases hmic with
        | pubRead c q m => exact h.read p _ _ _ _ hh ho
      · rcases ms.other p _ hj hp with h1 | ⟨_, rfl⟩
        · exact keep ho (h.sel p ctx q e m t h1 ho)
        · rcases mic_spawn ms.mic with ⟨_, e⟩ | ⟨_, e⟩ <;> cases e
    · intro p ch ctx m t hp ho
      rw [ms.ops] at ho
      rw [ms.log, List.mem_append] at hp
      rcases hp with hp | hp
      · obtain ⟨q, h1, h2⟩ := h.sent p ch ctx m t hp ho
        exact ⟨q, h1, keep ho h2⟩
      · rcases (mic_kind ms.mic).2 with hq | ⟨c, q, e, m', rfl, _, _, _, rfl⟩ |
          ⟨_, _, _, _, _, _, _, _, _, _, _, rfl⟩ | ⟨_, _, _, _, _, _, _, _, _, _, rfl⟩ | ⟨_, _, _, _, rfl, _⟩
        · rcases hq.evs _ hp with e | e <;> cases e
        · have e := List.mem_singleton.mp hp
          cases e
          obtain ⟨t', h1, _⟩ := hf
          rw [ho] at h1; cases h1
          exact ⟨q, rfl, keep ho (h.sel _ _ _ _ _ _ ms.here ho)⟩
        all_goals simp at hp
  · rintro p r ctx q ex m x o pr pr' evs rfl ms
    have keep : ∀ {x t q}, Cur s x t q → Cur s' x t q :=
      fun hcur => hcur.log (by rw [ms.b]) ⟨evs, ms.log⟩
    have other : ∀ {j pc}, s'.calls j = some pc → (∀ r, pc ≠ .done r) → (∀ m, pc ≠ .handling m) →
        s.calls j = some pc := by
      intro j pc hj h1 h2
      by_cases hp : j = p
      · subst hp; rw [ms.pub'] at hj; cases hj; exact (h1 _ rfl).elim
      · by_cases hrr : j = r
        · subst hrr; rw [ms.recv'] at hj; cases hj
          rcases ms.kind with ⟨_, _, rfl, _⟩ | ⟨_, rfl, _⟩
          · exact (h2 _ rfl).elim
          · exact (h1 _ rfl).elim
        · rw [ms.keep j hp hrr] at hj; exact hj
    refine ⟨?_, ?_, ?_, ?_⟩
    · intro y o' hy; rw [ms.b] at hy; exact keep (h.sub y o' hy)
    · intro p' c q' m' t hp ho
      rw [ms.ops] at ho
      exact keep (h.read p' c q' m' t (other hp (fun _ => nofun) (fun _ => nofun)) ho)
    · intro p' c q' e m' t hp ho
      rw [ms.ops] at ho
      exact keep (h.sel p' c q' e m' t (other hp (fun _ => nofun) (fun _ => nofun)) ho)
    · intro p' ch c m' t hp ho
      rw [ms.ops] at ho
      rw [ms.log, List.mem_append] at hp
      rcases hp with hp | hp
      · obtain ⟨q', h1, h2⟩ := h.sent p' ch c m' t hp ho
        exact ⟨q', h1, keep h2⟩
      · have e : p' = p ∧ ch = q.msg := by
          rcases ms.kind with ⟨_, _, _, rfl⟩ | ⟨_, _, rfl⟩ <;> simpa using hp
        obtain ⟨rfl, rfl⟩ := e
        obtain ⟨t', h1, _⟩ := hi.fits _ _ ms.pub
        rw [ho] at h1; cases h1
        exact ⟨q, rfl, keep (h.sel _ _ _ _ _ _ ms.pub ho)⟩
  · rintro i v rfl hcl rfl
    have other : ∀ {j pc}, upd s.calls i none j = some pc → s.calls j = some pc := by
      intro j pc hj
      by_cases hji : j = i
      · subst hji; rw [upd_self] at hj; cases hj
      · rw [upd_ne _ _ hji] at hj; exact hj
    refine ⟨?_, ?_, ?_, ?_⟩
    · intro x o hx; exact (h.sub x o hx).log rfl ⟨_, rfl⟩
    · intro p ctx q m t hp ho; exact (h.read p ctx q m t (other hp) ho).log rfl ⟨_, rfl⟩
    · intro p ctx q e m t hp ho; exact (h.sel p ctx q e m t (other hp) ho).log rfl ⟨_, rfl⟩
    · intro p ch ctx m t hp ho
      have hp : Ev.sent p ch ∈ s.log := by simpa using hp
      obtain ⟨q, h1, h2⟩ := h.sent p ch ctx m t hp ho
      exact ⟨q, h1, h2.log rfl ⟨_, rfl⟩⟩

/-- A call of `Sub` that returns a subscription has made it. -/
theorem Reach.made {cap : Int} {allowed : St → Act → Prop} {s : St} (h : Reach cap allowed s) :
    ∀ x, (s.calls x = some (.done .sub) ∨ Ev.ret x .sub ∈ s.log) → (s.b.sub x).isSome = true := by
  refine h.inv (P := fun s => ∀ x, (s.calls x = some (.done .sub) ∨ Ev.ret x .sub ∈ s.log) →
    (s.b.sub x).isSome = true) (by rintro x (h | h) <;> cases h) ?_
  intro s s' a hr h _ _ ht
  have hi := hr.toInv
  refine tr_cases hi ht ?_ ?_ ?_ ?_ ?_
  · rintro op rfl _ rfl x hx
    refine h x (hx.imp ?_ ?_)
    · intro hx
      dsimp only at hx
      by_cases hj : x = s.next
      · subst hj; rw [upd_self] at hx; cases op <;> cases hx
      · rw [upd_ne _ _ hj] at hx; exact hx
    · intro hx; simpa using hx
  · rintro c rfl rfl x hx; exact h x hx
  · rintro i alt pc pc' evs g rfl ms x hx
    rcases hx with hx | hx
    · by_cases hj : x = i
      · subst hj
        have hmic := ms.mic
        rw [ms.there] at hx; cases hx
        generalize s'.b = b' at hmic
        cases hmic
        dsimp only; rw [upd_self]; rfl
      · rcases ms.other x _ hj hx with h1 | ⟨_, rfl⟩
        · exact mic_sub_some ms.mic (h x (.inl h1))
        · rcases mic_spawn ms.mic with ⟨_, e⟩ | ⟨_, e⟩ <;> cases e
    · rw [ms.log, List.mem_append] at hx
      rcases hx with hx | hx
      · exact mic_sub_some ms.mic (h x (.inr hx))
      · exact (mic_noret ms.mic _ _ hx).elim
  · rintro p r ctx q ex m x' o pr pr' evs rfl ms x hx
    rw [ms.b]
    rcases hx with hx | hx
    · refine h x (.inl ?_)
      by_cases hp : x = p
      · subst hp; rw [ms.pub'] at hx; cases hx
      · by_cases hrr : x = r
        · subst hrr; rw [ms.recv'] at hx; cases hx
          rcases ms.kind with ⟨_, _, e, _⟩ | ⟨_, e, _⟩ <;> cases e
        · rw [ms.keep x hp hrr] at hx; exact hx
    · rw [ms.log, List.mem_append] at hx
      rcases hx with hx | hx
      · exact h x (.inr hx)
      · exact (ms.noret.1 _ _ hx).elim
  · rintro i v rfl hc rfl x hx
    refine h x ?_
    rcases hx with hx | hx
    · dsimp only at hx
      by_cases hji : x = i
      · subst hji; rw [upd_self] at hx; cases hx
      · rw [upd_ne _ _ hji] at hx; exact .inl hx
    · rw [List.mem_append] at hx
      rcases hx with hx | hx
      · exact .inr hx
      · cases List.mem_singleton.mp hx; exact .inl hc

end Netscrape.Broker
