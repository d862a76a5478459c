import Verif.Lemmas.BrokerSession

/-!
# Topics, channels and subscriptions
-/

namespace Netscrape.Broker
open Netscrape.Conc (upd upd_self upd_ne)
open Netscrape.Spec Netscrape.Spec.Broker

/-! ## Lists -/

theorem split_append {α : Type} {l evs a b : List α} {x : α} (h : l ++ evs = a ++ x :: b) :
    (∃ b', b = b' ++ evs ∧ l = a ++ x :: b') ∨ ∃ a', a = l ++ a' ∧ evs = a' ++ x :: b := by
  rcases List.append_eq_append_iff.mp h with ⟨a', h1, h2⟩ | ⟨c', h1, h2⟩
  · exact .inr ⟨a', h1, h2⟩
  · cases c' with
    | nil => exact .inr ⟨[], by simp [h1], by simpa using h2.symm⟩
    | cons y c' =>
      rw [List.cons_append] at h2
      cases h2
      exact .inl ⟨c', rfl, h1⟩

theorem before_split {α : Type} {x y : α} {l l' : List α} (h : Before x y (l ++ l')) :
    Before x y l ∨ (x ∈ l ∧ y ∈ l') ∨ (x ∈ l' ∧ y ∈ l') := by
  obtain ⟨a, b, d, e⟩ := h
  rcases split_append e with ⟨b', h1, h2⟩ | ⟨a', _, h2⟩
  · rcases split_append h1.symm with ⟨d', _, h4⟩ | ⟨b'', _, h4⟩
    · exact .inl ⟨a, b, d', by rw [h2, h4]⟩
    · exact .inr (.inl ⟨by rw [h2]; simp, by rw [h4]; simp⟩)
  · exact .inr (.inr ⟨by rw [h2]; simp, by rw [h2]; simp⟩)

/-! ## Channels that do not exist yet -/

/-- The call has made nothing yet, and never will if it is done. -/
def Early : PC → Prop
  | .pubChk _ _ _ => True
  | .pubGet _ _ _ => True
  | .subChk _ _ => True
  | .subMake _ _ => True
  | .done .notConnected => True
  | _ => False

/-- Nothing has the number `i`. -/
structure Unused (s : St) (i : Nat) : Prop where
  sub : s.b.sub i = none
  topics : ∀ t q, s.b.topics.get? t = some q → q.msg ≠ i
  subs : ∀ x o, s.b.sub x = some o → o.queue.msg ≠ i
  read : ∀ j ctx q m, s.calls j = some (.pubRead ctx q m) → q.msg ≠ i
  sel : ∀ j ctx q e m, s.calls j = some (.pubSel ctx q e m) → q.msg ≠ i
  sent : ∀ p, Ev.sent p i ∉ s.log

def UnusedInv (s : St) : Prop := ∀ i,
  (s.next ≤ i ∨ (∃ pc, s.calls i = some pc ∧ Early pc) ∨ Ev.ret i .notConnected ∈ s.log) → Unused s i

theorem queue_or (b : Mem) (i : Nat) (t : String) :
    b.topics.get? t = some (b.queue i t).2 ∨ (b.queue i t).2 = ⟨i, b.exit⟩ := by
  unfold Mem.queue
  cases h : b.topics.get? t with
  | some q => exact .inl rfl
  | none => exact .inr rfl

theorem queue_topics {b : Mem} {i : Nat} {t t' : String} {q : Queue}
    (h : (b.queue i t).1.topics.get? t' = some q) : b.topics.get? t' = some q ∨ q = ⟨i, b.exit⟩ := by
  unfold Mem.queue at h
  cases hq : b.topics.get? t with
  | some q' => rw [hq] at h; exact .inl h
  | none =>
    rw [hq] at h
    dsimp only at h
    rw [GoMap.get?_set] at h
    split at h
    · cases h; exact .inr rfl
    · exact .inl h

theorem close_topics {b : Mem} {i : Nat} {t : String} {q : Queue}
    (h : (b.close i).1.topics.get? t = some q) : b.topics.get? t = some q := by
  unfold Mem.close at h
  split at h
  · split at h
    · exact h
    · split at h
      · exact h
      · exact foldl_del_get? _ _ _ _ h
  · exact h

/-- What one step does to topics and subscriptions. -/
theorem mic_topics {b b' : Mem} {i : Nat} {pc pc' : PC} {a : Alt} {evs : List Ev} {g : Option PC}
    (h : Mic b i pc a b' pc' evs g) {t : String} {q : Queue} (hq : b'.topics.get? t = some q) :
    b.topics.get? t = some q ∨
      (q = ⟨i, b.exit⟩ ∧ ((∃ ctx t m, pc = .pubGet ctx t m) ∨ ∃ t u, pc = .subMake t u)) := by
  cases h with
  | closing | pubClose | runClose => exact .inl (close_topics hq)
  | pubGet ctx t m =>
    rcases queue_topics hq with h | h
    · exact .inl h
    · exact .inr ⟨h, .inl ⟨ctx, t, m, rfl⟩⟩
  | subMake t u =>
    rcases queue_topics hq with h | h
    · exact .inl h
    · exact .inr ⟨h, .inr ⟨t, u, rfl⟩⟩
  | _ => exact .inl hq

/-- Subscriptions are made by `Sub`, and may become inactive. -/
theorem mic_sub {b b' : Mem} {i : Nat} {pc pc' : PC} {a : Alt} {evs : List Ev} {g : Option PC}
    (h : Mic b i pc a b' pc' evs g) {x : Nat} {o : Sub} (hx : b'.sub x = some o) :
    (∃ o', b.sub x = some o' ∧ (o = o' ∨ (pc = .unsubSet x ∧ o = { o' with active := false }))) ∨
    (∃ t u, x = i ∧ pc = .subMake t u ∧ o = ⟨u, t, true, (b.queue i t).2, b.ctl⟩) := by
  have hcl := close_buf b i
  cases h with
  | closing | pubClose | runClose => rw [hcl.2.2.1] at hx; exact .inl ⟨o, hx, .inl rfl⟩
  | pubGet ctx t m =>
    rw [(queue_eqs b i t).2.2.2.2.2.2.2.2.1] at hx; exact .inl ⟨o, hx, .inl rfl⟩
  | subMake t u =>
    dsimp only at hx
    by_cases hxi : x = i
    · subst hxi; rw [upd_self] at hx; cases hx; exact .inr ⟨t, u, rfl, rfl, rfl⟩
    · rw [upd_ne _ _ hxi] at hx; exact .inl ⟨o, hx, .inl rfl⟩
  | unsubSet y o' ho =>
    dsimp only at hx
    by_cases hxy : x = y
    · subst hxy; rw [upd_self] at hx; cases hx; exact .inl ⟨o', ho, .inr ⟨rfl, rfl⟩⟩
    · rw [upd_ne _ _ hxy] at hx; exact .inl ⟨o, hx, .inl rfl⟩
  | _ => exact .inl ⟨o, hx, .inl rfl⟩

/-- Subscriptions do not go away. -/
theorem mic_sub_some {b b' : Mem} {i : Nat} {pc pc' : PC} {a : Alt} {evs : List Ev} {g : Option PC}
    (h : Mic b i pc a b' pc' evs g) {x : Nat} (hx : (b.sub x).isSome = true) : (b'.sub x).isSome = true := by
  have hcl := close_buf b i
  cases h with
  | closing | pubClose | runClose => rw [hcl.2.2.1]; exact hx
  | pubGet ctx t m => rw [(queue_eqs b i t).2.2.2.2.2.2.2.2.1]; exact hx
  | subMake t u =>
    dsimp only
    by_cases hxi : x = i
    · subst hxi; rw [upd_self]; rfl
    · rw [upd_ne _ _ hxi]; exact hx
  | unsubSet y o' ho =>
    dsimp only
    by_cases hxy : x = y
    · subst hxy; rw [upd_self]; rfl
    · rw [upd_ne _ _ hxy]; exact hx
  | _ => exact hx

theorem early_start (op : Op) : Early (.start op) ↔ (∃ ctx t m, op = .pub ctx t m) ∨ ∃ t u, op = .sub t u := by
  cases op <;> simp [PC.start, Early]

theorem Reach.toUnused {cap : Int} {allowed : St → Act → Prop} {s : St} (h : Reach cap allowed s) :
    UnusedInv s := by
  refine h.inv (P := UnusedInv) (fun _ _ => ⟨rfl, nofun, nofun, nofun, nofun, nofun⟩) ?_
  intro s s' a hr h _ _ ht
  have hi := hr.toInv
  have hl := (hr.toLog).1
  refine tr_elim hi ht ?_ ?_ ?_ ?_ ?_
  · rintro op _ _ rfl j hj
    have hu : Unused s j := by
      apply h
      by_cases hjn : s.next ≤ j
      · exact .inl hjn
      · right
        rcases hj with hj | ⟨pc, hj, he⟩ | hj
        · dsimp only at hj; omega
        · dsimp only at hj; rw [upd_ne _ _ (by omega)] at hj; exact .inl ⟨pc, hj, he⟩
        · rcases List.mem_append.mp hj with hj | hj
          · exact .inr hj
          · cases List.mem_singleton.mp hj
    refine ⟨hu.sub, hu.topics, hu.subs, ?_, ?_, ?_⟩ <;> dsimp only
    · intro k ctx q m hk
      by_cases hkn : k = s.next
      · subst hkn; rw [upd_self] at hk; cases op <;> cases hk
      · rw [upd_ne _ _ hkn] at hk; exact hu.read k ctx q m hk
    · intro k ctx q e m hk
      by_cases hkn : k = s.next
      · subst hkn; rw [upd_self] at hk; cases op <;> cases hk
      · rw [upd_ne _ _ hkn] at hk; exact hu.sel k ctx q e m hk
    · intro p hp
      rcases List.mem_append.mp hp with hp | hp
      · exact hu.sent p hp
      · cases List.mem_singleton.mp hp
  · rintro ctx rfl j hj
    have hu := h j hj
    exact ⟨hu.sub, hu.topics, hu.subs, hu.read, hu.sel, hu.sent⟩
  · intro i alt pc pc' evs g hact ms j hj
    have hin := hi.next ms.here
    have hin' : i < s.next := by
      rcases Nat.lt_or_ge i s.next with h1 | h1
      · exact h1
      · have h2 := ms.here
        rw [hi.calls i h1] at h2; cases h2
    have hret : ∀ j r, Ev.ret j r ∉ evs := by
      intro j r he
      rcases (mic_kind ms.mic).2 with hq | ⟨_, _, _, _, _, _, _, _, rfl⟩ |
        ⟨_, _, _, _, _, _, _, _, _, _, _, rfl⟩ | ⟨_, _, _, _, _, _, _, _, _, _, rfl⟩ | ⟨_, _, _, _, rfl, _⟩
      · rcases hq.evs _ he with e | e <;> cases e
      all_goals simp at he
    have hnext := ms.num
    -- the number was unused before
    have hu : Unused s j ∧ (j = i → s'.b = s.b) := by
      by_cases hji : j = i
      · subst hji
        have hE : Early pc' := by
          rcases hj with hj | ⟨pcj, hj, he⟩ | hj
          · omega
          · rw [ms.there] at hj; cases hj; exact he
          · rw [ms.log] at hj
            rcases List.mem_append.mp hj with hj | hj
            · have h1 := (hl.rets j _ hj).1
              rw [ms.here] at h1; cases h1
            · exact (hret _ _ hj).elim
        have hmic := ms.mic
        have hhere := ms.here
        generalize hb' : s'.b = b' at hmic
        cases hmic with
        | pubYes | pubNo | subYes | subNo =>
          exact ⟨h j (.inr (.inl ⟨_, hhere, trivial⟩)), fun _ => rfl⟩
        | _ => exact hE.elim
      · refine ⟨h j ?_, fun e => (hji e).elim⟩
        rcases hj with hj | ⟨pcj, hj, he⟩ | hj
        · exact .inl (by omega)
        · rcases ms.other j pcj hji hj with h1 | ⟨_, h1⟩
          · exact .inr (.inl ⟨pcj, h1, he⟩)
          · subst h1
            rcases mic_spawn ms.mic with ⟨_, rfl⟩ | ⟨_, rfl⟩ <;> exact he.elim
        · rw [ms.log] at hj
          rcases List.mem_append.mp hj with hj | hj
          · exact .inr (.inr hj)
          · exact (hret _ _ hj).elim
    obtain ⟨hu, hsame⟩ := hu
    have hqq : ∀ t, (∃ q, s.b.queue i t = (q, (s.b.queue i t).2)) → j ≠ i → (s.b.queue i t).2.msg ≠ j := by
      intro t _ hji
      rcases queue_or s.b i t with h1 | h1
      · exact hu.topics t _ h1
      · rw [h1]; exact Ne.symm hji
    have hqq := fun t => hqq t ⟨_, rfl⟩
    refine ⟨?_, ?_, ?_, ?_, ?_, ?_⟩
    · cases hs : s'.b.sub j with
      | none => rfl
      | some o =>
        exfalso
        rcases mic_sub ms.mic hs with ⟨o', ho', _⟩ | ⟨t, u, e, hpc, _⟩
        · rw [hu.sub] at ho'; cases ho'
        · rw [hsame e, hu.sub] at hs; cases hs
    · intro t q hq
      rcases mic_topics ms.mic hq with h1 | ⟨h1, _⟩
      · exact hu.topics t q h1
      · by_cases hji : j = i
        · rw [hsame hji] at hq; exact hu.topics t q hq
        · rw [h1]; exact Ne.symm hji
    · intro x o ho
      rcases mic_sub ms.mic ho with ⟨o', ho', rfl | ⟨_, rfl⟩⟩ | ⟨t, u, e, hpc, rfl⟩
      · exact hu.subs x _ ho'
      · exact hu.subs x o' ho'
      · by_cases hji : j = i
        · rw [hsame hji] at ho; exact hu.subs x _ ho
        · exact hqq t hji
    · intro k ctx q m hk
      by_cases hki : k = i
      · subst hki
        rw [ms.there] at hk
        cases hk
        have hmic := ms.mic
        have hhere := ms.here
        have hex : j ≠ k := by
          rintro rfl
          rcases hj with hj | ⟨pcj, hj, he⟩ | hj
          · omega
          · rw [ms.there] at hj; cases hj; exact he.elim
          · rw [ms.log] at hj
            rcases List.mem_append.mp hj with hj | hj
            · have h1 := (hl.rets j _ hj).1
              rw [ms.here] at h1; cases h1
            · exact (hret _ _ hj).elim
        generalize s'.b = b' at hmic
        cases hmic with
        | pubGet ctx t m => exact hqq t hex
      · rcases ms.other k _ hki hk with h1 | ⟨_, h1⟩
        · exact hu.read k ctx q m h1
        · subst h1
          rcases mic_spawn ms.mic with ⟨_, h⟩ | ⟨_, h⟩ <;> cases h
    · intro k ctx q e m hk
      by_cases hki : k = i
      · subst hki
        rw [ms.there] at hk
        cases hk
        have hmic := ms.mic
        have hhere := ms.here
        generalize s'.b = b' at hmic
        cases hmic with
        | pubRead => exact hu.read k ctx q m hhere
      · rcases ms.other k _ hki hk with h1 | ⟨_, h1⟩
        · exact hu.sel k ctx q e m h1
        · subst h1
          rcases mic_spawn ms.mic with ⟨_, h⟩ | ⟨_, h⟩ <;> cases h
    · intro p hp
      rw [ms.log] at hp
      rcases List.mem_append.mp hp with hp | hp
      · exact hu.sent p hp
      · rcases (mic_kind ms.mic).2 with hq | ⟨ctx, q, ex, m, rfl, _, _, _, rfl⟩ |
          ⟨_, _, _, _, _, _, _, _, _, _, _, rfl⟩ | ⟨_, _, _, _, _, _, _, _, _, _, rfl⟩ | ⟨_, _, _, _, rfl, _⟩
        · rcases hq.evs _ hp with e | e <;> cases e
        · cases List.mem_singleton.mp hp
          exact hu.sel i ctx q ex m ms.here rfl
        all_goals simp at hp
  · intro p r ctx q ex m x o pr pr' evs ms j hj
    have hret : ∀ j k, Ev.ret j k ∉ evs := by
      intro j k he
      rcases ms.kind with ⟨_, _, _, rfl⟩ | ⟨_, _, rfl⟩ <;> simp at he
    have hnext := ms.num
    have hu : Unused s j := by
      apply h
      rcases hj with hj | ⟨pcj, hj, he⟩ | hj
      · exact .inl (by omega)
      · right; left
        by_cases hjp : j = p
        · subst hjp; rw [ms.pub'] at hj; cases hj; exact he.elim
        · by_cases hjr : j = r
          · subst hjr
            rw [ms.recv'] at hj; cases hj
            rcases ms.kind with ⟨_, _, rfl, _⟩ | ⟨_, rfl, _⟩ <;> exact he.elim
          · rw [ms.keep j hjp hjr] at hj; exact ⟨pcj, hj, he⟩
      · rw [ms.log] at hj
        rcases List.mem_append.mp hj with hj | hj
        · exact .inr (.inr hj)
        · exact (hret _ _ hj).elim
    have hcalls : ∀ k pck, s'.calls k = some pck → (∀ r, pck ≠ .done r) → (∀ m, pck ≠ .handling m) →
        s.calls k = some pck := by
      intro k pck hk h1 h2
      by_cases hkp : k = p
      · subst hkp; rw [ms.pub'] at hk; cases hk; exact (h1 _ rfl).elim
      · by_cases hkr : k = r
        · subst hkr
          rw [ms.recv'] at hk; cases hk
          rcases ms.kind with ⟨_, _, rfl, _⟩ | ⟨_, rfl, _⟩
          · exact (h2 _ rfl).elim
          · exact (h1 _ rfl).elim
        · rw [ms.keep k hkp hkr] at hk; exact hk
    refine ⟨by rw [ms.b]; exact hu.sub, by rw [ms.b]; exact hu.topics, by rw [ms.b]; exact hu.subs, ?_, ?_, ?_⟩
    · intro k c q m hk; exact hu.read k c q m (hcalls k _ hk nofun nofun)
    · intro k c q e m hk; exact hu.sel k c q e m (hcalls k _ hk nofun nofun)
    · intro p' hp
      rw [ms.log] at hp
      rcases List.mem_append.mp hp with hp | hp
      · exact hu.sent p' hp
      · have : j = q.msg := by
          rcases ms.kind with ⟨_, _, _, rfl⟩ | ⟨_, _, rfl⟩ <;> simp at hp <;> exact hp.2
        exact hu.sel p ctx q ex m ms.pub this.symm
  · rintro i r hc rfl j hj
    have hu : Unused s j := by
      apply h
      rcases hj with hj | ⟨pcj, hj, he⟩ | hj
      · exact .inl hj
      · dsimp only at hj
        by_cases hji : j = i
        · subst hji; rw [upd_self] at hj; cases hj
        · rw [upd_ne _ _ hji] at hj; exact .inr (.inl ⟨pcj, hj, he⟩)
      · rcases List.mem_append.mp hj with hj | hj
        · exact .inr (.inr hj)
        · cases List.mem_singleton.mp hj
          exact .inr (.inl ⟨_, hc, trivial⟩)
    refine ⟨hu.sub, hu.topics, hu.subs, ?_, ?_, ?_⟩ <;> dsimp only
    · intro k ctx q m hk
      by_cases hki : k = i
      · subst hki; rw [upd_self] at hk; cases hk
      · rw [upd_ne _ _ hki] at hk; exact hu.read k ctx q m hk
    · intro k ctx q e m hk
      by_cases hki : k = i
      · subst hki; rw [upd_self] at hk; cases hk
      · rw [upd_ne _ _ hki] at hk; exact hu.sel k ctx q e m hk
    · intro p hp
      rcases List.mem_append.mp hp with hp | hp
      · exact hu.sent p hp
      · cases List.mem_singleton.mp hp

end Netscrape.Broker
