import Verif.Lemmas.BrokerReopen

/-!
# What a new session finds
-/

namespace Netscrape.Broker
open Netscrape.Conc (upd upd_self upd_ne)
open Netscrape.Spec Netscrape.Spec.Broker

theorem foldl_del_none {V W : Type} (l : List (String × W)) (m : GoMap String V) (k : String)
    (h : k ∈ l.map Prod.fst) : (l.foldl (fun t x => t.del x.1) m).get? k = none := by
  cases hg : (l.foldl (fun t x => t.del x.1) m).get? k with
  | none => rfl
  | some v =>
    exfalso
    induction l generalizing m with
    | nil => cases h
    | cons x l ih =>
      by_cases hx : k ∈ l.map Prod.fst
      · exact ih _ hx hg
      · have : k = x.1 := by
          rcases List.mem_cons.mp h with h | h
          · exact h
          · exact (hx h).elim
        have h2 := foldl_del_get? l _ _ _ hg
        rw [this, GoMap.get?_del_self] at h2
        cases h2

/-- Closing removes the topics that have subscribers. -/
theorem MemInv.close_empty {ops : Nat → Option Op} {b : Mem} (h : MemInv ops b) (i : Nat)
    (hc : b.connected = true)
    (hs : ∀ t, (b.topics.get? t).isSome = true → (b.subs.get? t).isSome = true) (t : String) :
    (b.close i).1.topics.get? t = none := by
  rcases h.close i with ⟨h1, _⟩ | ⟨_, e, _, _, h2⟩
  · rw [hc] at h1; cases h1
  · rw [h2]
    dsimp only
    cases ht : b.topics.get? t with
    | none =>
      cases hg : (b.subs.entries.foldl (fun t x => t.del x.1) b.topics).get? t with
      | none => rfl
      | some v => have := foldl_del_get? _ _ _ _ hg; rw [ht] at this; cases this
    | some q =>
      refine foldl_del_none _ _ _ ?_
      have := hs t (by rw [ht]; rfl)
      cases hx : b.subs.get? t with
      | none => rw [hx] at this; cases this
      | some v => exact (GoMap.mem_keys _ _).mpr ⟨v, hx⟩

theorem mic_closes {b b' : Mem} {i : Nat} {pc pc' : PC} {a : Alt} {evs : List Ev} {g : Option PC}
    (h : Mic b i pc a b' pc' evs g) (hp : AtClose pc) : b' = (b.close i).1 := by
  cases h with
  | closing | pubClose | runClose => rfl
  | _ => exact hp.elim

/-- An exit channel of a session that is open. -/
def LiveExit (s : St) (q : Queue) : Prop :=
  ∃ e ctx, q.exit = some e ∧ s.b.closed e = false ∧ s.ops e = some (.open ctx)

structure FreshInv (s : St) : Prop where
  empty : s.b.connected = false → ∀ t, s.b.topics.get? t = none
  pubMid : ∀ j ctx t m, s.calls j = some (.pubGet ctx t m) → s.b.connected = true
  subMid : ∀ j t u, s.calls j = some (.subMake t u) → s.b.connected = true
  live : ∀ t q, s.b.topics.get? t = some q → LiveExit s q
  subs : ∀ x o, s.b.sub x = some o → LiveExit s o.queue ∨ ClosedAfter x s.log
  old : ∀ l1 j l2 p ch, s.log = l1 ++ Ev.closed j :: l2 → Ev.sent p ch ∈ l1 →
    (∀ t q, s.b.topics.get? t = some q → q.msg ≠ ch) ∧
    ∀ x o, s.b.sub x = some o → Ev.call x ∈ l2 → o.queue.msg ≠ ch

theorem reach_fresh {cap : Int} {s : St} (h : Reach cap TidyClose s) : FreshInv s := by
  refine h.inv (P := FreshInv) ⟨fun _ _ => rfl, nofun, nofun, nofun, nofun, ?_⟩ ?_
  · intro l1 j l2 p ch e
    have := congrArg List.length e
    simp [St.init] at this
  intro s s' a hr h hal _ ht
  have hi := hr.toInv
  have hl := hr.toLog.1
  have hcl := hr.toCall
  have hun := hr.toUnused
  have hn : s.ops s.next = none := hi.ops _ (Nat.le_refl _)
  -- steps that do not touch topics and subscriptions
  have frame : ∀ evs, s'.log = s.log ++ evs → (∀ j, Ev.closed j ∉ evs) →
      (∀ x, Ev.call x ∈ evs → s.b.sub x = none) → s'.b.topics = s.b.topics → s'.b.sub = s.b.sub →
      ∀ l1 j l2 p ch, s'.log = l1 ++ Ev.closed j :: l2 → Ev.sent p ch ∈ l1 →
        (∀ t q, s'.b.topics.get? t = some q → q.msg ≠ ch) ∧
        ∀ x o, s'.b.sub x = some o → Ev.call x ∈ l2 → o.queue.msg ≠ ch := by
    intro evs hlog hc hx ht' hs' l1 j l2 p ch he hp
    rw [ht', hs']
    rw [hlog] at he
    rcases split_append he with ⟨b', rfl, hb⟩ | ⟨a', _, hb⟩
    · obtain ⟨h1, h2⟩ := h.old l1 j b' p ch hb hp
      refine ⟨h1, fun x o ho hcx => ?_⟩
      rcases List.mem_append.mp hcx with hcx | hcx
      · exact h2 x o ho hcx
      · rw [hx x hcx] at ho; cases ho
    · exact (hc j (by rw [hb]; simp)).elim
  refine tr_elim hi ht ?_ ?_ ?_ ?_ ?_
  · rintro op _ _ rfl
    have back : ∀ j pc, pc ≠ .start op → upd s.calls s.next (some (.start op)) j = some pc →
        s.calls j = some pc := by
      intro j pc hne hj
      by_cases hjn : j = s.next
      · subst hjn; rw [upd_self] at hj; cases hj; exact (hne rfl).elim
      · rw [upd_ne _ _ hjn] at hj; exact hj
    have hle : ∀ q, LiveExit s q → LiveExit { s with
        calls := upd s.calls s.next (some (.start op)), ops := upd s.ops s.next (some op),
        next := s.next + 1, log := s.log ++ [.call s.next] } q := by
      rintro q ⟨e, c, h1, h2, h3⟩
      refine ⟨e, c, h1, h2, ?_⟩
      dsimp only
      rw [upd_ne _ _ (by rintro rfl; rw [hn] at h3; cases h3)]; exact h3
    refine ⟨h.empty, ?_, ?_, ?_, ?_, ?_⟩
    · intro j c t m hj; exact h.pubMid j c t m (back j _ (by cases op <;> nofun) hj)
    · intro j t u hj; exact h.subMid j t u (back j _ (by cases op <;> nofun) hj)
    · intro t q hq; exact hle q (h.live t q hq)
    · intro x o ho; exact (h.subs x o ho).imp (hle _) fun h => h.append _
    · refine frame [.call s.next] rfl (by intro j hj; cases List.mem_singleton.mp hj) ?_ rfl rfl
      intro x hx
      cases List.mem_singleton.mp hx
      cases ho : s.b.sub s.next with
      | none => rfl
      | some o => have := (hi.mem.subs _ o ho).1; rw [hn] at this; cases this
  · rintro ctx rfl
    exact ⟨h.empty, h.pubMid, h.subMid, h.live, h.subs, h.old⟩
  · intro i alt pc pc' evs g ha ms
    have hf := hi.fits i pc ms.here
    -- closing steps
    have closing : (∃ j, Ev.closed j ∈ evs) → (∀ t, s'.b.topics.get? t = none) ∧ evs = [.closed i] ∧
        (∀ j ctx t m, s.calls j ≠ some (.pubGet ctx t m)) ∧ ∀ j t u, s.calls j ≠ some (.subMake t u) := by
      rintro ⟨j, hj⟩
      obtain ⟨_, h2, h3, h4, h5⟩ := mic_closed_ev ms.mic hj
      subst h3
      obtain ⟨h6, h7, h8⟩ := hal i pc ha ms.here h4 h2
      refine ⟨fun t => ?_, h5, h7, h8⟩
      rw [mic_closes ms.mic h4]
      exact hi.mem.close_empty i h2 h6 t
    have toClosed : s.b.connected = true → s'.b.connected = false → ∃ j, Ev.closed j ∈ evs := by
      intro h1 h2
      exact ⟨i, by rw [mic_close_ev hi.mem ms.mic h1 h2]; simp⟩
    have exitLive : s.b.connected = true → ∃ e ctx, s.b.exit = some e ∧ s.b.closed e = false ∧
        s.ops e = some (.open ctx) := by
      intro hc
      obtain ⟨e, h1, h2⟩ := hi.mem.live hc
      obtain ⟨c, h3⟩ := hi.mem.exit e h1
      exact ⟨e, c, h1, h2, h3⟩
    have stays : ∀ q, LiveExit s q → LiveExit s' q ∨ ∃ j, Ev.closed j ∈ evs := by
      rintro q ⟨e, c, h1, h2, h3⟩
      cases hce : s'.b.closed e with
      | false => exact .inl ⟨e, c, h1, hce, by rw [ms.ops]; exact h3⟩
      | true =>
        rcases mic_closed hi.mem hf ms.mic e hce with h4 | ⟨_, t, u, h4⟩ | ⟨h4, _⟩
        · rw [h2] at h4; cases h4
        · rw [h3] at h4; cases h4
        · exact .inr h4
    refine ⟨?_, ?_, ?_, ?_, ?_, ?_⟩
    · intro hc t
      cases hco : s.b.connected with
      | true => exact (closing (toClosed hco hc)).1 t
      | false =>
        cases hq : s'.b.topics.get? t with
        | none => rfl
        | some q =>
          rcases mic_topics ms.mic hq with h1 | ⟨_, ⟨c, t', m, rfl⟩ | ⟨t', u, rfl⟩⟩
          · rw [h.empty hco t] at h1; cases h1
          · rw [h.pubMid i c t' m ms.here] at hco; cases hco
          · rw [h.subMid i t' u ms.here] at hco; cases hco
    · intro j ctx t m hj
      by_cases hji : j = i
      · subst hji
        rw [ms.there] at hj
        cases hj
        have hmic := ms.mic
        generalize hb' : s'.b = b' at hmic ⊢
        cases hmic with
        | pubYes _ _ _ hc => exact hc
      · rcases ms.other j _ hji hj with h1 | ⟨_, h1⟩
        · have hco := h.pubMid j ctx t m h1
          cases hc : s'.b.connected with
          | true => rfl
          | false => exact ((closing (toClosed hco hc)).2.2.1 j ctx t m h1).elim
        · subst h1
          rcases mic_spawn ms.mic with ⟨_, h3⟩ | ⟨_, h3⟩ <;> cases h3
    · intro j t u hj
      by_cases hji : j = i
      · subst hji
        rw [ms.there] at hj
        cases hj
        have hmic := ms.mic
        generalize hb' : s'.b = b' at hmic ⊢
        cases hmic with
        | subYes _ _ hc => exact hc
      · rcases ms.other j _ hji hj with h1 | ⟨_, h1⟩
        · have hco := h.subMid j t u h1
          cases hc : s'.b.connected with
          | true => rfl
          | false => exact ((closing (toClosed hco hc)).2.2.2 j t u h1).elim
        · subst h1
          rcases mic_spawn ms.mic with ⟨_, h3⟩ | ⟨_, h3⟩ <;> cases h3
    · intro t q hq
      have hl : LiveExit s q := by
        rcases mic_topics ms.mic hq with h1 | ⟨rfl, ⟨c, t', m, rfl⟩ | ⟨t', u, rfl⟩⟩
        · exact h.live t q h1
        · exact exitLive (h.pubMid i c t' m ms.here)
        · exact exitLive (h.subMid i t' u ms.here)
      rcases stays q hl with h1 | h1
      · exact h1
      · rw [(closing h1).1 t] at hq; cases hq
    · intro x o ho
      have hl : LiveExit s o.queue ∨ ClosedAfter x s.log := by
        rcases mic_sub ms.mic ho with ⟨o', ho', hoo⟩ | ⟨t, u, rfl, rfl, rfl⟩
        · have hq : o.queue = o'.queue := by
            rcases hoo with rfl | ⟨_, rfl⟩ <;> rfl
          rw [hq]; exact h.subs x o' ho'
        · left
          rcases queue_or s.b x t with h1 | h1
          · exact h.live t _ h1
          · dsimp only
            rw [h1]
            exact exitLive (h.subMid x t u ms.here)
      rcases hl with hl | hl
      · rcases stays _ hl with h1 | h1
        · exact .inl h1
        · right
          have hx : Ev.call x ∈ s.log := by
            rcases mic_sub ms.mic ho with ⟨o', ho', _⟩ | ⟨t, u, rfl, rfl, _⟩
            · exact hcl.called x _ (hi.mem.subs x o' ho').1
            · exact hcl.called x _ hf
          refine ⟨i, ?_⟩
          rw [ms.log, (closing h1).2.1]
          exact before_new hx
      · rw [ms.log]; exact .inr (hl.append _)
    · intro l1 j l2 p ch he hp
      rw [ms.log] at he
      rcases split_append he with ⟨b', rfl, hb⟩ | ⟨a', _, hb⟩
      · obtain ⟨h1, h2⟩ := h.old l1 j b' p ch hb hp
        have hps : Ev.sent p ch ∈ s.log := by rw [hb]; exact List.mem_append_left _ hp
        have hni : Early pc → i ≠ ch := by
          rintro hpc rfl
          exact (hun i (.inr (.inl ⟨pc, ms.here, hpc⟩))).sent p hps
        constructor
        · intro t q hq
          rcases mic_topics ms.mic hq with h3 | ⟨rfl, ⟨c, t', m, rfl⟩ | ⟨t', u, rfl⟩⟩
          · exact h1 t q h3
          · exact hni trivial
          · exact hni trivial
        · intro x o ho hcx
          have hcx : Ev.call x ∈ b' := by
            rcases List.mem_append.mp hcx with h | h
            · exact h
            · exact (mic_nocall ms.mic _ h).elim
          rcases mic_sub ms.mic ho with ⟨o', ho', hoo⟩ | ⟨t, u, rfl, rfl, rfl⟩
          · have hq : o.queue = o'.queue := by
              rcases hoo with rfl | ⟨_, rfl⟩ <;> rfl
            rw [hq]; exact h2 x o' ho' hcx
          · rcases queue_or s.b x t with h3 | h3
            · exact h1 t _ h3
            · dsimp only
              rw [h3]
              exact hni trivial
      · obtain ⟨h1, h2, _⟩ := closing ⟨j, by rw [hb]; simp⟩
        constructor
        · intro t q hq; rw [h1 t] at hq; cases hq
        · intro x o _ hcx
          have : Ev.call x ∈ evs := by rw [hb]; simp [hcx]
          exact (mic_nocall ms.mic _ this).elim
  · intro p r ctx q ex m x o pr pr' evs ms
    refine ⟨?_, ?_, ?_, ?_, ?_, ?_⟩
    · rw [ms.b]; exact h.empty
    · intro j c t m hj; rw [ms.b]; exact h.pubMid j c t m (ms.before hj nofun nofun)
    · intro j t u hj; rw [ms.b]; exact h.subMid j t u (ms.before hj nofun nofun)
    · intro t q hq
      rw [ms.b] at hq
      obtain ⟨e, c, h1, h2, h3⟩ := h.live t q hq
      exact ⟨e, c, h1, by rw [ms.b]; exact h2, by rw [ms.ops]; exact h3⟩
    · intro x o ho
      rw [ms.b] at ho
      rcases h.subs x o ho with ⟨e, c, h1, h2, h3⟩ | h1
      · exact .inl ⟨e, c, h1, by rw [ms.b]; exact h2, by rw [ms.ops]; exact h3⟩
      · rw [ms.log]; exact .inr (h1.append _)
    · refine frame evs ms.log ?_ (fun x hx => (ms.noret.2 x hx).elim) (by rw [ms.b]) (by rw [ms.b])
      intro j hj
      rcases ms.kind with ⟨_, _, _, rfl⟩ | ⟨_, _, rfl⟩ <;> simp at hj
  · rintro i r hc rfl
    have back : ∀ j pcj, upd s.calls i none j = some pcj → s.calls j = some pcj := by
      intro j pcj hj
      by_cases hji : j = i
      · subst hji; rw [upd_self] at hj; cases hj
      · rw [upd_ne _ _ hji] at hj; exact hj
    refine ⟨h.empty, fun j c t m hj => h.pubMid j c t m (back _ _ hj),
      fun j t u hj => h.subMid j t u (back _ _ hj), h.live,
      fun x o ho => (h.subs x o ho).imp_right fun h => h.append _, ?_⟩
    refine frame [.ret i r] rfl (by intro j hj; cases List.mem_singleton.mp hj)
      (by intro j hj; cases List.mem_singleton.mp hj) rfl rfl

/-! ## Where messages are taken -/

/-- A receiver takes messages from the channel its subscription was made with. -/
theorem Reach.took {cap : Int} {allowed : St → Act → Prop} {s : St} (h : Reach cap allowed s) :
    ∀ r ch p, Ev.took r ch p ∈ s.log → ∃ ctx x o, s.ops r = some (.receive ctx x) ∧ s.b.sub x = some o ∧
      o.queue.msg = ch := by
  refine h.inv (P := fun s => ∀ r ch p, Ev.took r ch p ∈ s.log → ∃ ctx x o,
    s.ops r = some (.receive ctx x) ∧ s.b.sub x = some o ∧ o.queue.msg = ch) nofun ?_
  intro s s' a hr h _ _ ht
  have hi := hr.toInv
  have hun := hr.toUnused
  have hn : s.ops s.next = none := hi.ops _ (Nat.le_refl _)
  refine tr_elim hi ht ?_ ?_ ?_ ?_ ?_
  · rintro op _ _ rfl r ch p hp
    rcases List.mem_append.mp hp with hp | hp
    · obtain ⟨ctx, x, o, h1, h2⟩ := h r ch p hp
      refine ⟨ctx, x, o, ?_, h2⟩
      dsimp only
      rw [upd_ne _ _ (by rintro rfl; rw [hn] at h1; cases h1)]; exact h1
    · cases List.mem_singleton.mp hp
  · rintro ctx rfl; exact h
  · intro i alt pc pc' evs g _ ms r ch p hp
    have hf := hi.fits i pc ms.here
    have hold : ∃ ctx x o, s.ops r = some (.receive ctx x) ∧ s.b.sub x = some o ∧ o.queue.msg = ch := by
      rw [ms.log] at hp
      rcases List.mem_append.mp hp with hp | hp
      · exact h r ch p hp
      · rcases (mic_kind ms.mic).2 with hq | ⟨_, _, _, _, _, _, _, _, rfl⟩ |
          ⟨c, x, o, _, _, _, rfl, ho, _, _, _, rfl⟩ | ⟨x, o, _, _, _, rfl, ho, _, _, _, rfl⟩ |
          ⟨_, _, _, _, rfl, _⟩
        · rcases hq.evs _ hp with e | e <;> cases e
        · simp at hp
        · simp only [List.mem_cons, Ev.took.injEq, reduceCtorEq, List.not_mem_nil, or_false] at hp
          obtain ⟨rfl, rfl, _⟩ := hp
          exact ⟨c, x, o, hf.1, ho, rfl⟩
        · simp only [List.mem_cons, Ev.took.injEq, List.not_mem_nil, or_false] at hp
          obtain ⟨rfl, rfl, _⟩ := hp
          obtain ⟨⟨c, hc⟩, _⟩ := hf
          exact ⟨c, x, o, hc, ho, rfl⟩
        · simp at hp
    obtain ⟨ctx, x, o, h1, h2, h3⟩ := hold
    have hs := mic_sub_some ms.mic (x := x) (by rw [h2]; rfl)
    cases ho : s'.b.sub x with
    | none => rw [ho] at hs; cases hs
    | some o' =>
      refine ⟨ctx, x, o', by rw [ms.ops]; exact h1, ho, ?_⟩
      rcases mic_sub ms.mic ho with ⟨o'', ho'', hoo⟩ | ⟨t, u, rfl, rfl, _⟩
      · rw [h2] at ho''
        cases ho''
        rcases hoo with rfl | ⟨_, rfl⟩ <;> exact h3
      · have := (hun x (.inr (.inl ⟨_, ms.here, trivial⟩))).sub
        rw [h2] at this; cases this
  · intro p r ctx q ex m x o pr pr' evs ms r' ch p' hp
    rw [ms.log] at hp
    rw [ms.ops, ms.b]
    rcases List.mem_append.mp hp with hp | hp
    · exact h r' ch p' hp
    · have hf := hi.fits r _ ms.recv
      rcases ms.kind with ⟨c, rfl, _, rfl⟩ | ⟨rfl, _, rfl⟩
      · simp only [List.mem_cons, Ev.took.injEq, reduceCtorEq, List.not_mem_nil, or_false, false_or] at hp
        obtain ⟨rfl, rfl, _⟩ := hp
        exact ⟨c, x, o, hf.1, ms.sub, ms.queue⟩
      · simp only [List.mem_cons, Ev.took.injEq, reduceCtorEq, List.not_mem_nil, or_false, false_or] at hp
        obtain ⟨rfl, rfl, _⟩ := hp
        obtain ⟨⟨c, hc⟩, _⟩ := hf
        exact ⟨c, x, o, hc, ms.sub, ms.queue⟩
  · rintro i r hc rfl r' ch p hp
    rcases List.mem_append.mp hp with hp | hp
    · exact h r' ch p hp
    · cases List.mem_singleton.mp hp

/-! ## Why `Receive` returns nil -/

/-- The context was cancelled, the subscription ended, or its exit channel is closed. -/
def RecvReason (s : St) (ctx x : Nat) : Prop :=
  s.b.done ctx = true ∨ (∃ u, s.ops u = some (.unsubscribe x)) ∨
  ∃ o, s.b.sub x = some o ∧ s.b.isClosed o.queue.exit = true

structure RecvInv (s : St) : Prop where
  unsub : ∀ x, IsSub s.ops x → s.b.closed x = true → ∃ u, s.ops u = some (.unsubscribe x)
  nil : ∀ r ctx x, s.ops r = some (.receive ctx x) →
    (s.calls r = some (.done .nil) ∨ Ev.ret r .nil ∈ s.log) → handledBy r s.log = [] → RecvReason s ctx x

theorem mic_closed_mono {b b' : Mem} {i : Nat} {pc pc' : PC} {a : Alt} {evs : List Ev} {g : Option PC}
    (h : Mic b i pc a b' pc' evs g) {e : Nat} (he : b.closed e = true) : b'.closed e = true := by
  have hq := fun t => queue_eqs b i t
  cases h with
  | closing | pubClose | runClose =>
    unfold Mem.close
    split
    · split
      · exact he
      · split
        · exact he
        · next e' _ _ =>
          dsimp only
          by_cases h : e = e'
          · subst h; exact upd_self _ _ _
          · rw [upd_ne _ _ h]; exact he
    · exact he
  | pubGet ctx t m => rw [(hq t).2.2.2.2.2.1]; exact he
  | subMake t u => dsimp only; rw [(hq t).2.2.2.2.2.1]; exact he
  | unsubClose x hx =>
    dsimp only
    by_cases h : e = x
    · subst h; exact upd_self _ _ _
    · rw [upd_ne _ _ h]; exact he
  | _ => exact he

theorem handledBy_nil_of_append {i : Nat} {l l' : List Ev} (h : handledBy i (l ++ l') = []) :
    handledBy i l = [] := by
  rw [handledBy_append] at h
  exact (List.append_eq_nil_iff.mp h).1

theorem Reach.toRecv {cap : Int} {allowed : St → Act → Prop} {s : St} (h : Reach cap allowed s) :
    RecvInv s := by
  refine h.inv (P := RecvInv) ⟨nofun, nofun⟩ ?_
  intro s s' a hr h _ _ ht
  have hi := hr.toInv
  have hl := hr.toLog.1
  have hun := hr.toUnused
  have hn : s.ops s.next = none := hi.ops _ (Nat.le_refl _)
  refine tr_elim hi ht ?_ ?_ ?_ ?_ ?_
  · rintro op _ _ rfl
    have ho : ∀ {i o}, s.ops i = some o → upd s.ops s.next (some op) i = some o := by
      intro i o h
      rw [upd_ne _ _ (by rintro rfl; rw [hn] at h; cases h)]; exact h
    refine ⟨?_, ?_⟩
    · intro x ⟨t, u, hx⟩ hc
      dsimp only at hx hc ⊢
      by_cases hxn : x = s.next
      · subst hxn
        exfalso
        rcases hi.mem.closed _ hc with ⟨_, e⟩ | ⟨_, _, e⟩ <;> rw [hn] at e <;> cases e
      · rw [upd_ne _ _ hxn] at hx
        obtain ⟨v, hv⟩ := h.unsub x ⟨t, u, hx⟩ hc
        exact ⟨v, ho hv⟩
    · intro r ctx x hr' hd hh
      dsimp only at hr' hd hh
      by_cases hrn : r = s.next
      · subst hrn
        exfalso
        rcases hd with hd | hd
        · rw [upd_self] at hd; cases op <;> cases hd
        · rcases List.mem_append.mp hd with hd | hd
          · have := hl.ids _ hd _ rfl; omega
          · cases List.mem_singleton.mp hd
      · rw [upd_ne _ _ hrn] at hr' hd
        have hd' : s.calls r = some (.done .nil) ∨ Ev.ret r .nil ∈ s.log := by
          rcases hd with hd | hd
          · exact .inl hd
          · rcases List.mem_append.mp hd with hd | hd
            · exact .inr hd
            · cases List.mem_singleton.mp hd
        rcases h.nil r ctx x hr' hd' (handledBy_nil_of_append hh) with h1 | ⟨u, h1⟩ | h1
        · exact .inl h1
        · exact .inr (.inl ⟨u, ho h1⟩)
        · exact .inr (.inr h1)
  · rintro ctx rfl
    refine ⟨h.unsub, ?_⟩
    intro r c x hr' hd hh
    rcases h.nil r c x hr' hd hh with h1 | h1 | h1
    · left
      dsimp only
      by_cases hc : c = ctx
      · subst hc; exact upd_self _ _ _
      · rw [upd_ne _ _ hc]; exact h1
    · exact .inr (.inl h1)
    · exact .inr (.inr h1)
  · intro i alt pc pc' evs g _ ms
    have hf := hi.fits i pc ms.here
    have mono : ∀ ctx x, RecvReason s ctx x → RecvReason s' ctx x := by
      rintro ctx x (h1 | h1 | ⟨o, h1, h2⟩)
      · exact .inl (by rw [mic_done ms.mic]; exact h1)
      · exact .inr (.inl (by rw [ms.ops]; exact h1))
      · right; right
        have hs := mic_sub_some ms.mic (x := x) (by rw [h1]; rfl)
        cases ho : s'.b.sub x with
        | none => rw [ho] at hs; cases hs
        | some o' =>
          refine ⟨o', rfl, ?_⟩
          have hq : o'.queue = o.queue := by
            rcases mic_sub ms.mic ho with ⟨o'', ho'', hoo⟩ | ⟨t, u, rfl, rfl, _⟩
            · rw [h1] at ho''
              cases ho''
              rcases hoo with rfl | ⟨_, rfl⟩ <;> rfl
            · have := (hun x (.inr (.inl ⟨_, ms.here, trivial⟩))).sub
              rw [h1] at this; cases this
          rw [hq]
          cases he : o.queue.exit with
          | none => rw [he] at h2; cases h2
          | some e => rw [he] at h2; exact mic_closed_mono ms.mic h2
    refine ⟨?_, ?_⟩
    · intro x hx hc
      rw [ms.ops] at hx ⊢
      rcases mic_closed hi.mem hf ms.mic x hc with h1 | ⟨h1, _⟩ | ⟨_, h2, _⟩
      · exact h.unsub x hx h1
      · subst h1; exact ⟨i, hf.1⟩
      · obtain ⟨c, hc'⟩ := hi.mem.exit x h2
        obtain ⟨t, u, hx⟩ := hx
        rw [hc'] at hx; cases hx
    · intro r ctx x hr' hd hh
      rw [ms.ops] at hr'
      rw [ms.log] at hd hh
      have hh' := handledBy_nil_of_append hh
      by_cases hri : r = i
      · subst hri
        rcases hd with hd | hd
        · rw [ms.there] at hd
          cases hd
          apply mono
          have hhere := ms.here
          have hmic := ms.mic
          generalize s'.b = b' at hmic
          have hx : ∀ {c y}, s.ops r = some (.receive c y) → c = ctx ∧ y = x := by
            intro c y h; rw [hr'] at h; cases h; exact ⟨rfl, rfl⟩
          cases hmic with
          | recvCtx c y hdone => obtain ⟨rfl, rfl⟩ := hx hf.1; exact .inl hdone
          | recvExit c y o h1 h2 => obtain ⟨rfl, rfl⟩ := hx hf.1; exact .inr (.inr ⟨o, h1, h2⟩)
          | recvUnsub c y h1 =>
            obtain ⟨rfl, rfl⟩ := hx hf.1
            exact .inr (.inl (h.unsub y hf.2 h1))
          | handledNil m =>
            obtain ⟨_, p, _, h2⟩ := hl.calls r _ hhere
            rw [h2] at hh'; cases hh'
          | openYes | openSet => have := hf.1; rw [hr'] at this; cases this
          | closing => rw [show s.ops r = _ from hf] at hr'; cases hr'
          | pubExit | pubSend => obtain ⟨_, hf, _⟩ := hf; rw [hf] at hr'; cases hr'
          | pubClose => obtain ⟨_, _, _, hf, _⟩ := hf; rw [hf] at hr'; cases hr'
          | unsubNo | unsubGo => have := hf.1; rw [hr'] at this; cases this
          | notifyMsg | notifyExit => have := hf.1; rw [hr'] at this; cases this
          | runClose => rw [show s.ops r = _ from hf] at hr'; cases hr'
        · rcases List.mem_append.mp hd with hd | hd
          · have := (hl.rets _ _ hd).1
            rw [ms.here] at this; cases this
          · exact (mic_noret ms.mic _ _ hd).elim
      · apply mono
        refine h.nil r ctx x hr' ?_ hh'
        rcases hd with hd | hd
        · rcases ms.other r _ hri hd with h1 | ⟨h1, _⟩
          · exact .inl h1
          · subst h1; rw [hn] at hr'; cases hr'
        · rcases List.mem_append.mp hd with hd | hd
          · exact .inr hd
          · exact (mic_noret ms.mic _ _ hd).elim
  · intro p r ctx q ex m x o pr pr' evs ms
    refine ⟨?_, ?_⟩
    · intro y hy hc
      rw [ms.ops] at hy ⊢
      rw [ms.b] at hc
      exact h.unsub y hy hc
    · intro r' c y hr' hd hh
      rw [ms.ops] at hr'
      rw [ms.log] at hd hh
      have hh' := handledBy_nil_of_append hh
      have : RecvReason s c y := by
        refine h.nil r' c y hr' ?_ hh'
        rcases hd with hd | hd
        · by_cases h1 : r' = p
          · subst h1
            obtain ⟨t, hf, _⟩ := hi.fits r' _ ms.pub
            rw [hf] at hr'; cases hr'
          · by_cases h2 : r' = r
            · subst h2
              rw [ms.recv'] at hd
              rcases ms.kind with ⟨_, _, rfl, _⟩ | ⟨_, rfl, _⟩ <;> cases hd
            · rw [ms.keep r' h1 h2] at hd; exact .inl hd
        · rcases List.mem_append.mp hd with hd | hd
          · exact .inr hd
          · exact (ms.noret.1 _ _ hd).elim
      unfold RecvReason
      rw [ms.b, ms.ops]
      exact this
  · rintro i r hc rfl
    refine ⟨h.unsub, ?_⟩
    intro r' c y hr' hd hh
    dsimp only at hr' hd hh
    refine h.nil r' c y hr' ?_ (handledBy_nil_of_append hh)
    rcases hd with hd | hd
    · by_cases hri : r' = i
      · subst hri; rw [upd_self] at hd; cases hd
      · rw [upd_ne _ _ hri] at hd; exact .inl hd
    · rcases List.mem_append.mp hd with hd | hd
      · exact .inr hd
      · cases List.mem_singleton.mp hd; exact .inl hc

end Netscrape.Broker
