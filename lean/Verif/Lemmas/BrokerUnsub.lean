import Verif.Lemmas.BrokerSubs

/-!
# Calls on a closed broker, and unsubscribing
-/

namespace Netscrape.Broker
open Netscrape.Conc (upd upd_self upd_ne)
open Netscrape.Spec Netscrape.Spec.Broker

theorem mic_noret {b b' : Mem} {i : Nat} {pc pc' : PC} {a : Alt} {evs : List Ev}
    {g : Option PC} (h : Mic b i pc a b' pc' evs g) (j : Nat) (r : Ret) : Ev.ret j r ∉ evs := by
  intro he
  rcases (mic_kind h).2 with hq | ⟨_, _, _, _, _, _, _, _, rfl⟩ | ⟨_, _, _, _, _, _, _, _, _, _, _, rfl⟩ |
    ⟨_, _, _, _, _, _, _, _, _, _, rfl⟩ | ⟨_, _, _, _, rfl, _⟩
  · rcases hq.evs _ he with e | e <;> cases e
  all_goals simp at he

theorem MeetStep.noret {s s' : St} {p r ctx : Nat} {q : Queue} {ex : Option Nat} {m : Msg} {x : Nat} {o : Sub}
    {pr pr' : PC} {evs : List Ev} (ms : MeetStep s s' p r ctx q ex m x o pr pr' evs) :
    (∀ j k, Ev.ret j k ∉ evs) ∧ ∀ j, Ev.call j ∉ evs := by
  constructor
  · intro j k he
    rcases ms.kind with ⟨_, _, _, rfl⟩ | ⟨_, _, rfl⟩ <;> simp at he
  · intro j he
    rcases ms.kind with ⟨_, _, _, rfl⟩ | ⟨_, _, rfl⟩ <;> simp at he

/-- Positions other than those a hand-over ends in were there before it. -/
theorem MeetStep.before {s s' : St} {p r ctx : Nat} {q : Queue} {ex : Option Nat} {m : Msg} {x : Nat} {o : Sub}
    {pr pr' : PC} {evs : List Ev} (ms : MeetStep s s' p r ctx q ex m x o pr pr' evs) {k : Nat} {pck : PC}
    (hk : s'.calls k = some pck) (h1 : ∀ r, pck ≠ .done r) (h2 : ∀ m, pck ≠ .handling m) :
    s.calls k = some pck := by
  by_cases hkp : k = p
  · subst hkp; rw [ms.pub'] at hk; cases hk; exact (h1 _ rfl).elim
  · by_cases hkr : k = r
    · subst hkr
      rw [ms.recv'] at hk; cases hk
      rcases ms.kind with ⟨_, _, rfl, _⟩ | ⟨_, rfl, _⟩
      · exact (h2 _ rfl).elim
      · exact (h1 _ rfl).elim
    · rw [ms.keep k hkp hkr] at hk; exact hk

/-- Positions other than those a hand-over starts from stay. -/
theorem MeetStep.after {s s' : St} {p r ctx : Nat} {q : Queue} {ex : Option Nat} {m : Msg} {x : Nat} {o : Sub}
    {pr pr' : PC} {evs : List Ev} (ms : MeetStep s s' p r ctx q ex m x o pr pr' evs) {k : Nat} {pck : PC}
    (hk : s.calls k = some pck) (h1 : ∀ a b c d, pck ≠ .pubSel a b c d) (h2 : ∀ a b, pck ≠ .recvSel a b)
    (h3 : ∀ a, pck ≠ .recvDrop a) : s'.calls k = some pck := by
  by_cases hkp : k = p
  · subst hkp; rw [ms.pub] at hk; cases hk; exact (h1 _ _ _ _ rfl).elim
  · by_cases hkr : k = r
    · subst hkr
      rw [ms.recv] at hk; cases hk
      rcases ms.kind with ⟨_, rfl, _, _⟩ | ⟨rfl, _, _⟩
      · exact (h2 _ _ rfl).elim
      · exact (h3 _ rfl).elim
    · rw [ms.keep k hkp hkr]; exact hk

/-! ## Calls on a closed broker -/

theorem isOpen_false {l1 l2 : List Ev} {i : Nat} (h : isOpen l1 = false) (h2 : ¬ Opens l2) :
    isOpen (l1 ++ Ev.call i :: l2) = false := by
  rw [isOpen_append, h, List.foldl_cons]
  have : ∀ l : List Ev, ¬ Opens l →
      List.foldl (fun o e => match e with | .opened _ => true | .closed _ => false | _ => o) false l = false := by
    intro l
    induction l with
    | nil => intro _; rfl
    | cons e l ih =>
      intro hl
      rw [List.foldl_cons]
      cases e with
      | opened j => exact (hl ⟨j, List.mem_cons_self ..⟩).elim
      | _ => exact ih fun ⟨j, hj⟩ => hl ⟨j, List.mem_cons_of_mem _ hj⟩
  exact this l2 h2

/-- `Pub` or `Sub`. -/
def PubSub : Op → Prop
  | .pub _ _ _ => True
  | .sub _ _ => True
  | _ => False

structure IdleInv (s : St) : Prop where
  now : ∀ i op l1 l2, s.ops i = some op → PubSub op → s.log = l1 ++ Ev.call i :: l2 → isOpen l1 = false →
    ¬ Opens l2 → s.calls i = some (.start op) ∨ s.calls i = some (.done .notConnected) ∨
      Ev.ret i .notConnected ∈ l2
  past : ∀ i op l1 l2 r l3, s.ops i = some op → PubSub op →
    s.log = l1 ++ Ev.call i :: (l2 ++ Ev.ret i r :: l3) → isOpen l1 = false → ¬ Opens l2 → r = .notConnected

theorem Reach.toIdle {cap : Int} {allowed : St → Act → Prop} {s : St} (h : Reach cap allowed s) :
    IdleInv s := by
  refine h.inv (P := IdleInv) ⟨nofun, nofun⟩ ?_
  intro s s' a hr h _ _ ht
  have hi := hr.toInv
  have hl := (hr.toLog).1
  have hcl := hr.toCall
  have hn : s.ops s.next = none := hi.ops _ (Nat.le_refl _)
  -- a history that grows by events that are neither calls nor returns
  have grow : ∀ evs, s'.log = s.log ++ evs → s'.ops = s.ops → (∀ j, Ev.call j ∉ evs) →
      (∀ j r, Ev.ret j r ∉ evs) →
      (∀ i op l1 l2, s.ops i = some op → PubSub op → s.log = l1 ++ Ev.call i :: l2 → isOpen l1 = false →
        ¬ Opens l2 → (s.calls i = some (.start op) ∨ s.calls i = some (.done .notConnected)) →
        (s'.calls i = some (.start op) ∨ s'.calls i = some (.done .notConnected))) → IdleInv s' := by
    intro evs hlog hops hc hrr hcalls
    refine ⟨?_, ?_⟩
    · intro i op l1 l2 ho hps he h1 h2
      rw [hops] at ho
      rw [hlog] at he
      rcases split_append he with ⟨b', rfl, hb⟩ | ⟨a', _, hb⟩
      · have h2' : ¬ Opens b' := fun ⟨j, hj⟩ => h2 ⟨j, List.mem_append_left _ hj⟩
        rcases h.now i op l1 b' ho hps hb h1 h2' with h3 | h3 | h3
        · rcases hcalls i op l1 b' ho hps hb h1 h2' (.inl h3) with h4 | h4
          · exact .inl h4
          · exact .inr (.inl h4)
        · rcases hcalls i op l1 b' ho hps hb h1 h2' (.inr h3) with h4 | h4
          · exact .inl h4
          · exact .inr (.inl h4)
        · exact .inr (.inr (List.mem_append_left _ h3))
      · exact (hc i (by rw [hb]; simp)).elim
    · intro i op l1 l2 r l3 ho hps he h1 h2
      rw [hops] at ho
      rw [hlog] at he
      rcases split_append he with ⟨b', hb1, hb⟩ | ⟨a', _, hb⟩
      · rcases split_append hb1.symm with ⟨l3', _, hb3⟩ | ⟨a'', _, hb3⟩
        · exact h.past i op l1 l2 r l3' ho hps (by rw [hb, hb3]) h1 h2
        · exact (hrr i r (by rw [hb3]; simp)).elim
      · exact (hc i (by rw [hb]; simp)).elim
  refine tr_elim hi ht ?_ ?_ ?_ ?_ ?_
  · rintro op _ _ rfl
    refine ⟨?_, ?_⟩ <;> dsimp only
    · intro i o l1 l2 ho hps he h1 h2
      rcases split_append he with ⟨b', rfl, hb⟩ | ⟨a', _, hb⟩
      · obtain ⟨o', ho'⟩ := hcl.uncalled i (by rw [hb]; simp)
        have hin : i ≠ s.next := by rintro rfl; rw [hn] at ho'; cases ho'
        rw [upd_ne _ _ hin] at ho ⊢
        have h2' : ¬ Opens b' := fun ⟨j, hj⟩ => h2 ⟨j, List.mem_append_left _ hj⟩
        rcases h.now i o l1 b' ho hps hb h1 h2' with h3 | h3 | h3
        · exact .inl h3
        · exact .inr (.inl h3)
        · exact .inr (.inr (List.mem_append_left _ h3))
      · have hin : i = s.next := by
          have : Ev.call i ∈ [Ev.call s.next] := by rw [hb]; simp
          cases List.mem_singleton.mp this; rfl
        subst hin
        rw [upd_self] at ho ⊢
        cases ho
        exact .inl rfl
    · intro i o l1 l2 r l3 ho hps he h1 h2
      rcases split_append he with ⟨b', hb1, hb⟩ | ⟨a', _, hb⟩
      · obtain ⟨o', ho'⟩ := hcl.uncalled i (by rw [hb]; simp)
        have hin : i ≠ s.next := by rintro rfl; rw [hn] at ho'; cases ho'
        rw [upd_ne _ _ hin] at ho
        rcases split_append hb1.symm with ⟨l3', _, hb3⟩ | ⟨a'', _, hb3⟩
        · exact h.past i o l1 l2 r l3' ho hps (by rw [hb, hb3]) h1 h2
        · have : Ev.ret i r ∈ [Ev.call s.next] := by rw [hb3]; simp
          cases List.mem_singleton.mp this
      · have : Ev.ret i r ∈ [Ev.call s.next] := by rw [hb]; simp
        cases List.mem_singleton.mp this
  · rintro ctx rfl; exact ⟨h.now, h.past⟩
  · intro i alt pc pc' evs g _ ms
    refine grow evs ms.log ms.ops (mic_nocall ms.mic) (mic_noret ms.mic) ?_
    intro j op l1 l2 ho hps he h1 h2 hc
    have hconn : s.b.connected = false := by rw [hcl.conn, he]; exact isOpen_false h1 h2
    by_cases hji : j = i
    · subst hji
      right
      rw [ms.there]
      have hhere := ms.here
      have hmic := ms.mic
      generalize s'.b = b' at hmic
      rcases hc with hc | hc
      · rw [hhere] at hc
        cases op with
        | pub ctx t m =>
          cases hc
          cases hmic with
          | pubYes _ _ _ h3 => rw [hconn] at h3; cases h3
          | pubNo => rfl
        | sub t u =>
          cases hc
          cases hmic with
          | subYes _ _ h3 => rw [hconn] at h3; cases h3
          | subNo => rfl
        | _ => exact hps.elim
      · rw [hhere] at hc; cases hc; cases hmic
    · have hjn : j ≠ s.next := by rintro rfl; rw [hn] at ho; cases ho
      rw [ms.keep j hji hjn]; exact hc
  · intro p r ctx q ex m x o pr pr' evs ms
    refine grow evs ms.log ms.ops ms.noret.2 ms.noret.1 ?_
    intro j op l1 l2 ho hps he h1 h2 hc
    rcases hc with hc | hc
    · exact .inl (ms.after hc (by cases op <;> nofun) (by cases op <;> nofun) (by cases op <;> nofun))
    · exact .inr (ms.after hc nofun nofun nofun)
  · rintro i r hc rfl
    refine ⟨?_, ?_⟩ <;> dsimp only
    · intro j o l1 l2 ho hps he h1 h2
      rcases split_append he with ⟨b', rfl, hb⟩ | ⟨a', _, hb⟩
      · have h2' : ¬ Opens b' := fun ⟨j, hj⟩ => h2 ⟨j, List.mem_append_left _ hj⟩
        have h3 := h.now j o l1 b' ho hps hb h1 h2'
        by_cases hji : j = i
        · subst hji
          rcases h3 with h3 | h3 | h3
          · rw [hc] at h3; cases o <;> cases h3
          · rw [hc] at h3; cases h3
            exact .inr (.inr (List.mem_append_right _ (List.mem_singleton.mpr rfl)))
          · exact .inr (.inr (List.mem_append_left _ h3))
        · rw [upd_ne _ _ hji]
          rcases h3 with h3 | h3 | h3
          · exact .inl h3
          · exact .inr (.inl h3)
          · exact .inr (.inr (List.mem_append_left _ h3))
      · have : Ev.call j ∈ [Ev.ret i r] := by rw [hb]; simp
        cases List.mem_singleton.mp this
    · intro j o l1 l2 r' l3 ho hps he h1 h2
      rcases split_append he with ⟨b', hb1, hb⟩ | ⟨a', _, hb⟩
      · rcases split_append hb1.symm with ⟨l3', _, hb3⟩ | ⟨a'', hb2, hb3⟩
        · exact h.past j o l1 l2 r' l3' ho hps (by rw [hb, hb3]) h1 h2
        · have : Ev.ret j r' ∈ [Ev.ret i r] := by rw [hb3]; simp
          cases List.mem_singleton.mp this
          subst hb2
          have h2' : ¬ Opens b' := fun ⟨j, hj⟩ => h2 ⟨j, List.mem_append_left _ hj⟩
          rcases h.now _ o l1 b' ho hps hb h1 h2' with h3 | h3 | h3
          · rw [hc] at h3; cases o <;> cases h3
          · rw [hc] at h3; cases h3; rfl
          · have := (hl.rets _ _ (show Ev.ret i .notConnected ∈ s.log by rw [hb]; simp [h3])).1
            rw [hc] at this; cases this
      · have : Ev.call j ∈ [Ev.ret i r] := by rw [hb]; simp
        cases List.mem_singleton.mp this

/-! ## Subscriptions -/

/-- The subscription a call is about. -/
def about : Op → Option Nat
  | .receive _ x => some x
  | .unsubscribe x => some x
  | _ => none

/-- `Unsubscribe` has switched the subscription off. -/
def Off (x : Nat) : PC → Prop
  | .unsubGo y => y = x
  | .done _ => True
  | _ => False

structure SubInv (s : St) : Prop where
  isSome : ∀ i op x, s.ops i = some op → about op = some x → (s.b.sub x).isSome = true
  closed : ∀ x, IsSub s.ops x → s.b.closed x = true → (s.b.sub x).isSome = true
  off : ∀ u x, s.ops u = some (.unsubscribe x) →
    ((∃ pc, s.calls u = some pc ∧ Off x pc) ∨ ∃ r, Ev.ret u r ∈ s.log) →
    ∀ o, s.b.sub x = some o → o.active = false

theorem Reach.toSub {cap : Int} {allowed : St → Act → Prop} {s : St} (h : Reach cap allowed s) :
    SubInv s := by
  refine h.inv (P := SubInv) ⟨nofun, nofun, nofun⟩ ?_
  intro s s' a hr h _ _ ht
  have hi := hr.toInv
  have hl := (hr.toLog).1
  have hcl := hr.toCall
  have hun := hr.toUnused
  have hn : s.ops s.next = none := hi.ops _ (Nat.le_refl _)
  refine tr_elim hi ht ?_ ?_ ?_ ?_ ?_
  · rintro op _ hop rfl
    have ne_of : ∀ {j o}, s.ops j = some o → j ≠ s.next := by
      rintro j o ho rfl; rw [hn] at ho; cases ho
    refine ⟨?_, ?_, ?_⟩ <;> dsimp only
    · intro i o x ho hx
      by_cases hin : i = s.next
      · subst hin
        rw [upd_self] at ho
        cases ho
        cases op <;> cases hx <;> exact hop
      · rw [upd_ne _ _ hin] at ho; exact h.isSome i o x ho hx
    · intro x ⟨t, u, hx⟩ hc
      by_cases hxn : x = s.next
      · subst hxn
        exfalso
        rcases hi.mem.closed _ hc with ⟨_, e⟩ | ⟨_, _, e⟩ <;> rw [hn] at e <;> cases e
      · rw [upd_ne _ _ hxn] at hx; exact h.closed x ⟨t, u, hx⟩ hc
    · intro u x ho hu o hs
      by_cases hun : u = s.next
      · subst hun
        rw [upd_self] at ho
        cases ho
        exfalso
        rcases hu with ⟨pc, h1, h2⟩ | ⟨r, h1⟩
        · rw [upd_self] at h1; cases h1; exact h2
        · rcases List.mem_append.mp h1 with h1 | h1
          · have := hl.ids _ h1 _ rfl; omega
          · cases List.mem_singleton.mp h1
      · rw [upd_ne _ _ hun] at ho
        refine h.off u x ho ?_ o hs
        rcases hu with ⟨pc, h1, h2⟩ | ⟨r, h1⟩
        · rw [upd_ne _ _ hun] at h1; exact .inl ⟨pc, h1, h2⟩
        · rcases List.mem_append.mp h1 with h1 | h1
          · exact .inr ⟨r, h1⟩
          · cases List.mem_singleton.mp h1
  · rintro ctx rfl; exact ⟨h.isSome, h.closed, h.off⟩
  · intro i alt pc pc' evs g _ ms
    refine ⟨?_, ?_, ?_⟩
    · intro j o x ho hx
      rw [ms.ops] at ho
      exact mic_sub_some ms.mic (h.isSome j o x ho hx)
    · intro x hx hc
      rw [ms.ops] at hx
      apply mic_sub_some ms.mic
      rcases mic_closed hi.mem (hi.fits i pc ms.here) ms.mic x hc with h1 | ⟨h1, _⟩ | ⟨_, h2, _⟩
      · exact h.closed x hx h1
      · have := hi.fits i pc ms.here
        subst h1
        exact h.isSome i _ x this.1 rfl
      · obtain ⟨c, hc'⟩ := hi.mem.exit x h2
        obtain ⟨t, u, hx⟩ := hx
        rw [hc'] at hx; cases hx
    · intro u x ho hu o hs
      rw [ms.ops] at ho
      have hsx := h.isSome u _ x ho rfl
      -- the subscription existed before
      rcases mic_sub ms.mic hs with ⟨o', ho', hoo⟩ | ⟨t, v, rfl, rfl, _⟩
      · -- it was off already, or this step switches it off
        have hoff : o'.active = false → o.active = false := by
          rcases hoo with rfl | ⟨_, rfl⟩
          · exact id
          · intro _; rfl
        by_cases hui : u = i
        · subst hui
          have hret : ∀ r, Ev.ret u r ∉ s'.log := by
            intro r hr
            rw [ms.log] at hr
            rcases List.mem_append.mp hr with hr | hr
            · have := (hl.rets _ _ hr).1
              rw [ms.here] at this; cases this
            · exact mic_noret ms.mic _ _ hr
          have hpc' : Off x pc' := by
            rcases hu with ⟨pcu, h1, h2⟩ | ⟨r, h1⟩
            · rw [ms.there] at h1; cases h1; exact h2
            · exact (hret r h1).elim
          have hf := hi.fits u pc ms.here
          have hhere := ms.here
          have hmic := ms.mic
          generalize hb' : s'.b = b' at hmic
          cases hmic with
          | unsubNo y o'' h1 h2 =>
            have : y = x := by have := hf.1; rw [ho] at this; cases this; rfl
            subst this
            rw [ho'] at h1; cases h1
            exact hoff h2
          | unsubSet y o'' h1 =>
            have : y = x := by have := hf.1; rw [ho] at this; cases this; rfl
            subst this
            rw [hb'] at hs
            dsimp only at hs
            rw [upd_self] at hs
            cases hs
            rfl
          | unsubGo y =>
            have : y = x := by have := hf.1; rw [ho] at this; cases this; rfl
            subst this
            exact hoff (h.off u y ho (.inl ⟨_, hhere, rfl⟩) o' ho')
          | openYes | openSet => have := hf.1; rw [ho] at this; cases this
          | closing => rw [show s.ops u = _ from hf] at ho; cases ho
          | pubNo => rw [show s.ops u = _ from hf] at ho; cases ho
          | pubExit | pubTimeout | pubSend => obtain ⟨_, hf, _⟩ := hf; rw [hf] at ho; cases ho
          | pubClose => obtain ⟨_, _, _, hf, _⟩ := hf; rw [hf] at ho; cases ho
          | subNo | subMake => rw [show s.ops u = _ from hf] at ho; cases ho
          | recvNo | recvCtx | recvExit | recvUnsub => have := hf.1; rw [ho] at this; cases this
          | dropNone | dropOne => obtain ⟨⟨_, hf⟩, _⟩ := hf; rw [hf] at ho; cases ho
          | handledNil | handledErr => obtain ⟨_, _, hf⟩ := hf; rw [hf] at ho; cases ho
          | notifyMsg | notifyExit => have := hf.1; rw [ho] at this; cases this
          | runClose => rw [show s.ops u = _ from hf] at ho; cases ho
          | _ => exact hpc'.elim
        · refine hoff (h.off u x ho ?_ o' ho')
          rcases hu with ⟨pcu, h1, h2⟩ | ⟨r, h1⟩
          · rcases ms.other u pcu hui h1 with h3 | ⟨h3, _⟩
            · exact .inl ⟨pcu, h3, h2⟩
            · subst h3; rw [hn] at ho; cases ho
          · rw [ms.log] at h1
            rcases List.mem_append.mp h1 with h1 | h1
            · exact .inr ⟨r, h1⟩
            · exact (mic_noret ms.mic _ _ h1).elim
      · exfalso
        have := (hun x (.inr (.inl ⟨_, ms.here, trivial⟩))).sub
        rw [this] at hsx; cases hsx
  · intro p r ctx q ex m x o pr pr' evs ms
    refine ⟨?_, ?_, ?_⟩
    · intro j o x ho hx; rw [ms.ops] at ho; rw [ms.b]; exact h.isSome j o x ho hx
    · intro x hx hc; rw [ms.ops] at hx; rw [ms.b] at hc ⊢; exact h.closed x hx hc
    · intro u y ho hu o' hs
      rw [ms.ops] at ho
      rw [ms.b] at hs
      refine h.off u y ho ?_ o' hs
      rcases hu with ⟨pcu, h1, h2⟩ | ⟨k, h1⟩
      · have hup : u ≠ p := by
          rintro rfl
          obtain ⟨t, hf, _⟩ := hi.fits u _ ms.pub
          rw [hf] at ho; cases ho
        have hur : u ≠ r := by
          rintro rfl
          have hf := hi.fits u _ ms.recv
          rcases ms.kind with ⟨_, rfl, _, _⟩ | ⟨rfl, _, _⟩
          · have := hf.1; rw [ho] at this; cases this
          · obtain ⟨⟨_, hf⟩, _⟩ := hf; rw [hf] at ho; cases ho
        rw [ms.keep u hup hur] at h1
        exact .inl ⟨pcu, h1, h2⟩
      · rw [ms.log] at h1
        rcases List.mem_append.mp h1 with h1 | h1
        · exact .inr ⟨k, h1⟩
        · exact (ms.noret.1 _ _ h1).elim
  · rintro i r hc rfl
    refine ⟨h.isSome, h.closed, ?_⟩
    intro u x ho hu o hs
    dsimp only at hu
    refine h.off u x ho ?_ o hs
    rcases hu with ⟨pcu, h1, h2⟩ | ⟨k, h1⟩
    · by_cases hui : u = i
      · subst hui; rw [upd_self] at h1; cases h1
      · rw [upd_ne _ _ hui] at h1; exact .inl ⟨pcu, h1, h2⟩
    · rcases List.mem_append.mp h1 with h1 | h1
      · exact .inr ⟨k, h1⟩
      · cases List.mem_singleton.mp h1; exact .inl ⟨_, hc, trivial⟩

/-- `Receive` after `Unsubscribe` has returned. -/
theorem Reach.late {cap : Int} {allowed : St → Act → Prop} {s : St} (h : Reach cap allowed s) :
    ∀ u r x ctx res, s.ops u = some (.unsubscribe x) → s.ops r = some (.receive ctx x) →
      Before (.ret u res) (.call r) s.log →
      s.calls r = some (.recvChk ctx x) ∨ s.calls r = some (.done .inactive) ∨ Ev.ret r .inactive ∈ s.log := by
  refine h.inv (P := fun s => ∀ u r x ctx res, s.ops u = some (.unsubscribe x) →
      s.ops r = some (.receive ctx x) → Before (.ret u res) (.call r) s.log →
      s.calls r = some (.recvChk ctx x) ∨ s.calls r = some (.done .inactive) ∨
        Ev.ret r .inactive ∈ s.log) nofun ?_
  intro s s' a hr h _ _ ht
  have hi := hr.toInv
  have hl := (hr.toLog).1
  have hcl := hr.toCall
  have hsub := hr.toSub
  have hn : s.ops s.next = none := hi.ops _ (Nat.le_refl _)
  refine tr_elim hi ht ?_ ?_ ?_ ?_ ?_
  · rintro op _ hop rfl u r x ctx res hu hr' hb
    dsimp only at hu hr' hb ⊢
    have hmem : ∀ {v}, Ev.ret v res ∈ s.log → v ≠ s.next := by
      rintro v hv rfl
      have := hl.ids _ hv _ rfl; omega
    rcases before_split hb with hb | ⟨hb1, hb2⟩ | ⟨hb1, hb2⟩
    · obtain ⟨a, b, d, e⟩ := hb
      have h1 : Ev.ret u res ∈ s.log := by rw [e]; simp
      have h2 : Ev.call r ∈ s.log := by rw [e]; simp
      have hrn : r ≠ s.next := by
        rintro rfl
        obtain ⟨o, ho⟩ := hcl.uncalled _ h2
        rw [hn] at ho; cases ho
      rw [upd_ne _ _ (hmem h1)] at hu
      rw [upd_ne _ _ hrn] at hr' ⊢
      rcases h u r x ctx res hu hr' ⟨a, b, d, e⟩ with h3 | h3 | h3
      · exact .inl h3
      · exact .inr (.inl h3)
      · exact .inr (.inr (List.mem_append_left _ h3))
    · cases List.mem_singleton.mp hb2
      rw [upd_self] at hr' ⊢
      cases hr'
      exact .inl rfl
    · cases List.mem_singleton.mp hb1
  · rintro ctx rfl; exact h
  · intro i alt pc pc' evs g _ ms u r x ctx res hu hr' hb
    rw [ms.ops] at hu hr'
    rw [ms.log] at hb
    have hb : Before (.ret u res) (.call r) s.log := by
      rcases before_split hb with hb | ⟨_, hb2⟩ | ⟨_, hb2⟩
      · exact hb
      · exact (mic_nocall ms.mic _ hb2).elim
      · exact (mic_nocall ms.mic _ hb2).elim
    have h1 : Ev.ret u res ∈ s.log := by obtain ⟨a, b, d, e⟩ := hb; rw [e]; simp
    have h0 := h u r x ctx res hu hr' hb
    by_cases hri : r = i
    · subst hri
      have hhere := ms.here
      rcases h0 with h3 | h3 | h3
      · rw [hhere] at h3; cases h3
        have hmic := ms.mic
        have hth := ms.there
        generalize s'.b = b' at hmic
        cases hmic with
        | recvYes _ _ o h4 h5 =>
          have := hsub.off u x hu (.inr ⟨res, h1⟩) o h4
          rw [this] at h5; cases h5
        | recvNo => exact .inr (.inl hth)
      · rw [hhere] at h3; cases h3
        have hmic := ms.mic
        cases hmic
      · rw [ms.log]; exact .inr (.inr (List.mem_append_left _ h3))
    · have hrn : r ≠ s.next := by rintro rfl; rw [hn] at hr'; cases hr'
      rw [ms.keep r hri hrn, ms.log]
      rcases h0 with h3 | h3 | h3
      · exact .inl h3
      · exact .inr (.inl h3)
      · exact .inr (.inr (List.mem_append_left _ h3))
  · intro p r0 ctx0 q ex m x0 o pr pr' evs ms u r x ctx res hu hr' hb
    rw [ms.ops] at hu hr'
    rw [ms.log] at hb ⊢
    have hb : Before (.ret u res) (.call r) s.log := by
      rcases before_split hb with hb | ⟨_, hb2⟩ | ⟨_, hb2⟩
      · exact hb
      · exact (ms.noret.2 _ hb2).elim
      · exact (ms.noret.2 _ hb2).elim
    rcases h u r x ctx res hu hr' hb with h3 | h3 | h3
    · exact .inl (ms.after h3 nofun nofun nofun)
    · exact .inr (.inl (ms.after h3 nofun nofun nofun))
    · exact .inr (.inr (List.mem_append_left _ h3))
  · rintro i k hc rfl u r x ctx res hu hr' hb
    dsimp only at hu hr' hb ⊢
    have hb : Before (.ret u res) (.call r) s.log := by
      rcases before_split hb with hb | ⟨_, hb2⟩ | ⟨_, hb2⟩
      · exact hb
      · cases List.mem_singleton.mp hb2
      · cases List.mem_singleton.mp hb2
    have h0 := h u r x ctx res hu hr' hb
    by_cases hri : r = i
    · subst hri
      rcases h0 with h3 | h3 | h3
      · rw [hc] at h3; cases h3
      · rw [hc] at h3; cases h3
        exact .inr (.inr (List.mem_append_right _ (List.mem_singleton.mpr rfl)))
      · exact .inr (.inr (List.mem_append_left _ h3))
    · rw [upd_ne _ _ hri]
      rcases h0 with h3 | h3 | h3
      · exact .inl h3
      · exact .inr (.inl h3)
      · exact .inr (.inr (List.mem_append_left _ h3))

/-! ## Unsubscribing one at a time -/

structure SeqInv (s : St) : Prop where
  one : ∀ i j x, (s.calls i).isSome = true → (s.calls j).isSome = true → s.ops i = some (.unsubscribe x) →
    s.ops j = some (.unsubscribe x) → i = j
  closed : ∀ x o, s.b.closed x = true → s.b.sub x = some o → o.active = true →
    ∃ i, s.calls i = some (.unsubSet x)
  pc : ∀ i x, s.calls i = some (.unsubClose x) → s.b.closed x = false
  crash : s.b.crashed = false

theorem reach_seq {cap : Int} {s : St} (h : Reach cap OneAtATime s) : SeqInv s := by
  refine h.inv (P := SeqInv) ⟨nofun, nofun, nofun, rfl⟩ ?_
  intro s s' a hr h hal hnc ht
  have hi := hr.toInv
  have hl := (hr.toLog).1
  have hcl := hr.toCall
  have hun := hr.toUnused
  have hsub := hr.toSub
  have hn : s.ops s.next = none := hi.ops _ (Nat.le_refl _)
  have hcn : s.calls s.next = none := hi.calls _ (Nat.le_refl _)
  refine tr_elim hi ht ?_ ?_ ?_ ?_ ?_
  · rintro op rfl hop rfl
    refine ⟨?_, ?_, ?_, h.crash⟩ <;> dsimp only
    · intro i j x hci hcj hoi hoj
      by_cases hin : i = s.next
      · subst hin
        by_cases hjn : j = s.next
        · exact hjn.symm
        · exfalso
          rw [upd_self] at hoi
          cases hoi
          rw [upd_ne _ _ hjn] at hcj hoj
          exact hal x rfl j hcj hoj
      · by_cases hjn : j = s.next
        · subst hjn
          exfalso
          rw [upd_self] at hoj
          cases hoj
          rw [upd_ne _ _ hin] at hci hoi
          exact hal x rfl i hci hoi
        · rw [upd_ne _ _ hin] at hci hoi
          rw [upd_ne _ _ hjn] at hcj hoj
          exact h.one i j x hci hcj hoi hoj
    · intro x o hc hs hact
      obtain ⟨i, hi'⟩ := h.closed x o hc hs hact
      refine ⟨i, ?_⟩
      rw [upd_ne _ _ (hi.next hi')]; exact hi'
    · intro i x hc
      by_cases hin : i = s.next
      · subst hin; rw [upd_self] at hc; cases op <;> cases hc
      · rw [upd_ne _ _ hin] at hc; exact h.pc i x hc
  · rintro ctx rfl; exact ⟨h.one, h.closed, h.pc, h.crash⟩
  · intro i alt pc pc' evs g _ ms
    have hf := hi.fits i pc ms.here
    have hsome : ∀ j x, s.ops j = some (.unsubscribe x) → (s'.calls j).isSome = true →
        (s.calls j).isSome = true := by
      intro j x ho hj
      by_cases hji : j = i
      · subst hji; rw [ms.here]; rfl
      · have hjn : j ≠ s.next := by rintro rfl; rw [hn] at ho; cases ho
        rw [ms.keep j hji hjn] at hj; exact hj
    refine ⟨?_, ?_, ?_, ?_⟩
    · intro j k x hcj hck hoj hok
      rw [ms.ops] at hoj hok
      exact h.one j k x (hsome j x hoj hcj) (hsome k x hok hck) hoj hok
    · intro x o hc hs hact
      rcases mic_sub ms.mic hs with ⟨o', ho', hoo⟩ | ⟨t, u, rfl, rfl, _⟩
      · rcases hoo with rfl | ⟨_, rfl⟩
        · rcases mic_closed hi.mem hf ms.mic x hc with h1 | ⟨h1, _⟩ | ⟨_, h2, _⟩
          · obtain ⟨k, hk⟩ := h.closed x o h1 ho' hact
            by_cases hki : k = i
            · subst hki
              have hhere := ms.here
              have hmic := ms.mic
              rw [hk] at hhere; cases hhere
              generalize hb' : s'.b = b' at hmic
              cases hmic with
              | unsubSet y o'' h5 =>
                rw [hb'] at hs
                dsimp only at hs
                rw [upd_self] at hs
                cases hs
                cases hact
            · have hkn := hi.next hk
              exact ⟨k, by rw [ms.keep k hki hkn]; exact hk⟩
          · subst h1
            have hth := ms.there
            have hmic := ms.mic
            have hcr := mic_crash hi.mem ms.mic hnc
            generalize hb' : s'.b = b' at hmic
            cases hmic with
            | unsubCrash _ h3 => have := h.pc i x ms.here; rw [this] at h3; cases h3
            | unsubClose => exact ⟨i, hth⟩
          · obtain ⟨c, hc'⟩ := hi.mem.exit x h2
            have := (hi.mem.subs x o ho').1
            rw [hc'] at this; cases this
        · cases hact
      · exfalso
        have hnone := (hun x (.inr (.inl ⟨_, ms.here, trivial⟩))).sub
        rcases mic_closed hi.mem hf ms.mic x hc with h1 | ⟨h1, _⟩ | ⟨_, h2, _⟩
        · have := hsub.closed x ⟨t, u, hf⟩ h1
          rw [hnone] at this; cases this
        · cases h1
        · obtain ⟨c, hc'⟩ := hi.mem.exit x h2
          rw [show s.ops x = _ from hf] at hc'; cases hc'
    · intro j x hj
      by_cases hji : j = i
      · subst hji
        rw [ms.there] at hj
        cases hj
        have hhere := ms.here
        have hmic := ms.mic
        generalize hb' : s'.b = b' at hmic
        cases hmic with
        | unsubYes y o h3 h4 =>
          cases hc : s.b.closed x with
          | false => rfl
          | true =>
            exfalso
            obtain ⟨k, hk⟩ := h.closed x o hc h3 h4
            have h6 := (hi.fits k _ hk).1
            have : k = j := h.one k j x (by rw [hk]; rfl) (by rw [hhere]; rfl) h6 hf.1
            subst this
            rw [hhere] at hk; cases hk
        | unsubCrash _ h3 => have := h.pc j x hhere; rw [this] at h3; cases h3
      · rcases ms.other j _ hji hj with h1 | ⟨_, h1⟩
        · cases hc : s'.b.closed x with
          | false => rfl
          | true =>
            exfalso
            have hj1 := hi.fits j _ h1
            rcases mic_closed hi.mem hf ms.mic x hc with h2 | ⟨h2, _⟩ | ⟨_, h2, _⟩
            · rw [h.pc j x h1] at h2; cases h2
            · subst h2
              exact hji (h.one j i x (by rw [h1]; rfl) (by rw [ms.here]; rfl) hj1.1 hf.1)
            · obtain ⟨c, hc'⟩ := hi.mem.exit x h2
              obtain ⟨t, u, hx⟩ := hj1.2
              rw [hc'] at hx; cases hx
        · subst h1
          rcases mic_spawn ms.mic with ⟨_, h⟩ | ⟨_, h⟩ <;> cases h
    · cases hc : s'.b.crashed with
      | false => rfl
      | true =>
        obtain ⟨x, h1, _, h3⟩ := mic_crash hi.mem ms.mic hnc hc
        subst h1
        rw [h.pc i x ms.here] at h3; cases h3
  · intro p r ctx q ex m x o pr pr' evs ms
    refine ⟨?_, ?_, ?_, by rw [ms.b]; exact h.crash⟩
    · intro i j y hci hcj hoi hoj
      rw [ms.ops] at hoi hoj
      have key : ∀ k, s.ops k = some (.unsubscribe y) → (s'.calls k).isSome = true →
          (s.calls k).isSome = true := by
        intro k hk hs
        by_cases hkp : k = p
        · subst hkp; rw [ms.pub]; rfl
        · by_cases hkr : k = r
          · subst hkr; rw [ms.recv]; rfl
          · rw [ms.keep k hkp hkr] at hs; exact hs
      exact h.one i j y (key i hoi hci) (key j hoj hcj) hoi hoj
    · intro y o' hc hs hact
      rw [ms.b] at hc hs
      obtain ⟨i, hi'⟩ := h.closed y o' hc hs hact
      exact ⟨i, ms.after hi' nofun nofun nofun⟩
    · intro i y hc
      rw [ms.b]
      exact h.pc i y (ms.before hc nofun nofun)
  · rintro i r hc rfl
    have key : ∀ j, ((upd s.calls i none) j).isSome = true → (s.calls j).isSome = true := by
      intro j hj
      by_cases hji : j = i
      · subst hji; rw [upd_self] at hj; cases hj
      · rw [upd_ne _ _ hji] at hj; exact hj
    refine ⟨?_, ?_, ?_, h.crash⟩ <;> dsimp only
    · intro j k x hj hk hoj hok; exact h.one j k x (key j hj) (key k hk) hoj hok
    · intro x o hcl hs hact
      obtain ⟨k, hk⟩ := h.closed x o hcl hs hact
      have : k ≠ i := by rintro rfl; rw [hc] at hk; cases hk
      exact ⟨k, by rw [upd_ne _ _ this]; exact hk⟩
    · intro j x hj
      by_cases hji : j = i
      · subst hji; rw [upd_self] at hj; cases hj
      · rw [upd_ne _ _ hji] at hj; exact h.pc j x hj

end Netscrape.Broker
