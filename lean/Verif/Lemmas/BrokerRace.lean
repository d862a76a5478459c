import Verif.Lemmas.BrokerLeak
import Verif.Spec.BrokerRace

/-!
# Data races in the broker
-/

namespace Netscrape.Broker
open Netscrape.Conc (upd upd_self upd_ne)
open Netscrape.Spec Netscrape.Spec.Broker

/-- Is this a position in the goroutine of a session? -/
def InRun : PC → Prop
  | .run _ => True
  | .runCtl _ _ => True
  | .runSel _ _ _ => True
  | .runDel _ _ _ => True
  | .runClose => True
  | _ => False

/-- While the broker is open there is a goroutine of a session. -/
theorem Reach.hasRun {cap : Int} {allowed : St → Act → Prop} {s : St} (h : Reach cap allowed s) :
    s.b.connected = true → ∃ j pc, s.calls j = some pc ∧ InRun pc := by
  refine h.inv (P := fun s => s.b.connected = true → ∃ j pc, s.calls j = some pc ∧ InRun pc) nofun ?_
  intro s s' a hr h _ _ ht
  have hi := hr.toInv
  refine tr_cases hi ht ?_ ?_ ?_ ?_ ?_
  · rintro op rfl _ rfl hc
    obtain ⟨j, pc, h1, h2⟩ := h hc
    exact ⟨j, pc, by dsimp only; rw [upd_ne _ _ (hi.next h1)]; exact h1, h2⟩
  · rintro c rfl rfl; exact h
  · rintro i alt pc pc' evs g rfl ms hc
    have hmic := ms.mic
    cases hb : s.b.connected with
    | false =>
      obtain ⟨ctx, rfl⟩ := mic_connect hmic hb hc
      cases ht with
      | step _ _ pc1 _ b1 _ h1 h2 =>
        rw [ms.here] at h1; cases h1
        cases micro_mic h2
      | spawn _ _ pc1 _ g1 b1 _ h1 h2 =>
        rw [ms.here] at h1; cases h1
        cases micro_mic h2
        exact ⟨s.next, _, upd_self _ _ _, trivial⟩
    | true =>
      obtain ⟨j, pcj, h1, h2⟩ := h hb
      by_cases hji : j = i
      · subst hji
        rw [ms.here] at h1; cases h1
        refine ⟨j, pc', ms.there, ?_⟩
        generalize s'.b = b' at hmic hc
        cases hmic with
        | runClose =>
          exfalso
          rcases hi.mem.close j with ⟨h3, _⟩ | ⟨_, _, _, _, h3⟩
          · rw [hb] at h3; cases h3
          · rw [h3] at hc; cases hc
        | run | runCtl | runWas | runCtx | runExit | runMsg | runNoDel | runDel => trivial
        | _ => exact h2.elim
      · exact ⟨j, pcj, by rw [ms.keep j hji (hi.next h1)]; exact h1, h2⟩
  · rintro p r ctx q ex m x o pr pr' evs rfl ms hc
    rw [ms.b] at hc
    obtain ⟨j, pc, h1, h2⟩ := h hc
    refine ⟨j, pc, ?_, h2⟩
    rw [ms.keep j ?_ ?_]
    · exact h1
    · rintro rfl; rw [ms.pub] at h1; cases h1; exact h2
    · rintro rfl
      rw [ms.recv] at h1; cases h1
      rcases ms.kind with ⟨_, rfl, _⟩ | ⟨rfl, _⟩ <;> exact h2
  · rintro i v rfl hcl rfl hc
    obtain ⟨j, pc, h1, h2⟩ := h hc
    refine ⟨j, pc, ?_, h2⟩
    dsimp only
    rw [upd_ne _ _ (by rintro rfl; rw [hcl] at h1; cases h1; exact h2)]
    exact h1

/-- Past the check of `Pub`. -/
def LatePub : PC → Prop
  | .pubGet _ _ _ => True
  | .pubRead _ _ _ => True
  | .pubSel _ _ _ _ => True
  | .pubClose => True
  | _ => False

def AtOpen : PC → Prop
  | .openChk _ => True
  | .openSet _ => True
  | _ => False

theorem AtOpen.inSession {pc : PC} (h : AtOpen pc) : InSession pc := by
  cases pc <;> first | trivial | exact h

theorem InRun.inSession {pc : PC} (h : InRun pc) : InSession pc := by
  cases pc <;> first | trivial | exact h

theorem LatePub.inPub {pc : PC} (h : LatePub pc) : InPub pc := by
  cases pc <;> first | trivial | exact h

/-- While `Open` is in progress the broker is closed and nobody else uses it. -/
def QuietInv (s : St) : Prop := ∀ i pc, s.calls i = some pc → AtOpen pc →
  s.b.connected = false ∧ ∀ j pc', j ≠ i → s.calls j = some pc' → ¬ InSession pc' ∧ ¬ LatePub pc'

theorem reach_quiet {cap : Int} {s : St} (h : Reach cap QuietOpen s) : QuietInv s := by
  refine h.inv (P := QuietInv) nofun ?_
  intro s s' a hr h ha _ ht
  have hi := hr.toInv
  refine tr_cases hi ht ?_ ?_ ?_ ?_ ?_
  · rintro op rfl _ rfl i pc hc hp
    dsimp only at hc
    by_cases hin : i = s.next
    · subst hin
      rw [upd_self] at hc; cases hc
      obtain ⟨ctx, rfl⟩ : ∃ ctx, op = .open ctx := by
        cases op <;> first | exact ⟨_, rfl⟩ | exact hp.elim
      have hq := ha ctx rfl
      refine ⟨?_, ?_⟩
      · cases hb : s.b.connected with
        | false => rfl
        | true =>
          obtain ⟨j, pc, h1, h2⟩ := hr.hasRun hb
          exact ((hq j pc h1).1 h2.inSession).elim
      · intro j pc' hj hc'
        dsimp only at hc'
        rw [upd_ne _ _ hj] at hc'
        exact ⟨(hq j pc' hc').1, fun h => (hq j pc' hc').2 h.inPub⟩
    · rw [upd_ne _ _ hin] at hc
      obtain ⟨h1, h2⟩ := h i pc hc hp
      refine ⟨h1, ?_⟩
      intro j pc' hj hc'
      dsimp only at hc'
      by_cases hjn : j = s.next
      · subst hjn
        rw [upd_self] at hc'; cases hc'
        cases op with
        | «open» ctx => exact ((ha ctx rfl i pc hc).1 hp.inSession).elim
        | _ => exact ⟨id, id⟩
      · rw [upd_ne _ _ hjn] at hc'; exact h2 j pc' hj hc'
  · rintro c rfl rfl; exact h
  · rintro k alt pck pck' evs g rfl ms i pc hc hp
    have hmic := ms.mic
    by_cases hik : i = k
    · subst hik
      rw [ms.there] at hc; cases hc
      have hold : AtOpen pck ∧ g = none := by
        generalize s'.b = b' at hmic
        cases hmic with
        | openNo => exact ⟨trivial, rfl⟩
        | _ => exact hp.elim
      obtain ⟨h1, h2⟩ := h i pck ms.here hold.1
      constructor
      · cases hb : s'.b.connected with
        | false => rfl
        | true =>
          obtain ⟨ctx, rfl⟩ := mic_connect hmic h1 hb
          generalize s'.b = b' at hmic
          cases hmic; exact hp.elim
      · intro j pc' hj hc'
        rcases ms.other j _ hj hc' with h3 | ⟨_, h3⟩
        · exact h2 j pc' hj h3
        · rw [hold.2] at h3; cases h3
    · rcases ms.other i _ hik hc with h3 | ⟨_, rfl⟩
      · obtain ⟨h1, h2⟩ := h i pc h3 hp
        have hk := h2 k pck (fun e => hik e.symm) ms.here
        constructor
        · cases hb : s'.b.connected with
          | false => rfl
          | true =>
            obtain ⟨ctx, rfl⟩ := mic_connect hmic h1 hb
            exact (hk.1 trivial).elim
        · intro j pc' hj hc'
          by_cases hjk : j = k
          · subst hjk
            rw [ms.there] at hc'; cases hc'
            refine ⟨fun hh => hk.1 ((mic_session hmic).1 hh), ?_⟩
            generalize s'.b = b' at hmic
            cases hmic with
            | pubYes _ _ _ hb => rw [h1] at hb; cases hb
            | pubGet | pubRead | pubCtx => exact (hk.2 trivial).elim
            | _ => exact id
          · rcases ms.other j _ hjk hc' with h4 | ⟨_, rfl⟩
            · exact h2 j pc' hj h4
            · generalize s'.b = b' at hmic
              cases hmic with
              | openSet => exact (hk.1 trivial).elim
              | unsubGo => exact ⟨id, id⟩
      · rcases mic_spawn ms.mic with ⟨_, rfl⟩ | ⟨_, rfl⟩ <;> exact hp.elim
  · rintro p r ctx q ex m x o pr pr' evs rfl ms i pc hc hp
    rw [ms.b]
    have old := ms.before hc (by rintro _ rfl; exact hp) (by rintro _ rfl; exact hp)
    obtain ⟨h1, h2⟩ := h i pc old hp
    refine ⟨h1, ?_⟩
    intro j pc' hj hc'
    by_cases h3 : ∃ r, pc' = .done r
    · obtain ⟨_, rfl⟩ := h3; exact ⟨id, id⟩
    · by_cases h4 : ∃ r, pc' = .handling r
      · obtain ⟨_, rfl⟩ := h4; exact ⟨id, id⟩
      · exact h2 j pc' hj (ms.before hc' (fun r e => h3 ⟨r, e⟩) (fun r e => h4 ⟨r, e⟩))
  · rintro k v rfl hcl rfl i pc hc hp
    have old : ∀ {j pc}, upd s.calls k none j = some pc → s.calls j = some pc := by
      intro j pc hj
      by_cases hjk : j = k
      · subst hjk; rw [upd_self] at hj; cases hj
      · rw [upd_ne _ _ hjk] at hj; exact hj
    obtain ⟨h1, h2⟩ := h i pc (old hc) hp
    exact ⟨h1, fun j pc' hj hc' => h2 j pc' hj (old hc')⟩

/-- The call is `Receive` or `Unsubscribe` on subscription `x`. -/
def touches (x : Nat) : Op → Prop
  | .unsubscribe y => y = x
  | .receive _ y => y = x
  | _ => False

theorem reach_alone {cap : Int} {s : St} (h : Reach cap AloneUnsub s) : ∀ i j op x, i ≠ j →
    (s.calls i).isSome = true → (s.calls j).isSome = true → s.ops i = some (.unsubscribe x) →
    s.ops j = some op → ¬ touches x op := by
  refine h.inv (P := fun s => ∀ i j op x, i ≠ j → (s.calls i).isSome = true → (s.calls j).isSome = true →
    s.ops i = some (.unsubscribe x) → s.ops j = some op → ¬ touches x op)
    (by intro i j op x _ _ _ h; cases h) ?_
  intro s s' a hr h ha _ ht
  have hi := hr.toInv
  have hn : s.ops s.next = none := hi.ops _ (Nat.le_refl _)
  refine tr_cases hi ht ?_ ?_ ?_ ?_ ?_
  · rintro op rfl _ rfl i j op' x hij hci hcj hoi hoj
    dsimp only at hci hcj hoi hoj
    by_cases hin : i = s.next
    · subst hin
      rw [upd_self] at hoi
      rw [upd_ne _ _ (Ne.symm hij)] at hcj hoj
      cases hoi
      obtain ⟨h1, h2⟩ := (ha x).1 rfl j hcj
      intro ht
      cases op' with
      | unsubscribe y => cases ht; exact h1 hoj
      | receive c y => cases ht; exact h2 c hoj
      | _ => exact ht
    · rw [upd_ne _ _ hin] at hci hoi
      by_cases hjn : j = s.next
      · subst hjn
        rw [upd_self] at hoj; cases hoj
        intro ht
        cases op with
        | unsubscribe y => cases ht; exact ((ha x).1 rfl i hci).1 hoi
        | receive c y => cases ht; exact (ha x).2 ⟨c, rfl⟩ i hci hoi
        | _ => exact ht
      · rw [upd_ne _ _ hjn] at hcj hoj
        exact h i j op' x hij hci hcj hoi hoj
  · rintro c rfl rfl; exact h
  · rintro k alt pck pck' evs g rfl ms i j op x hij hci hcj hoi hoj
    rw [ms.ops] at hoi hoj
    have old : ∀ {i op}, s.ops i = some op → (s'.calls i).isSome = true → (s.calls i).isSome = true := by
      intro i op ho hc
      by_cases hik : i = k
      · subst hik; rw [ms.here]; rfl
      · rw [ms.keep i hik (by rintro rfl; rw [hn] at ho; cases ho)] at hc; exact hc
    exact h i j op x hij (old hoi hci) (old hoj hcj) hoi hoj
  · rintro p r ctx q ex m y o pr pr' evs rfl ms i j op x hij hci hcj hoi hoj
    rw [ms.ops] at hoi hoj
    have old : ∀ {i}, (s'.calls i).isSome = true → (s.calls i).isSome = true := by
      intro i hc
      by_cases hp : i = p
      · subst hp; rw [ms.pub]; rfl
      · by_cases hrr : i = r
        · subst hrr; rw [ms.recv]; rfl
        · rw [ms.keep i hp hrr] at hc; exact hc
    exact h i j op x hij (old hci) (old hcj) hoi hoj
  · rintro k v rfl hcl rfl i j op x hij hci hcj hoi hoj
    have old : ∀ {i}, (upd s.calls k none i).isSome = true → (s.calls i).isSome = true := by
      intro i hc
      by_cases hik : i = k
      · subst hik; rw [hcl]; rfl
      · rw [upd_ne _ _ hik] at hc; exact hc
    exact h i j op x hij (old hci) (old hcj) hoi hoj

theorem _root_.Netscrape.Spec.Broker.Accounted.refl (b : Mem) (pc : PC) : Accounted b b pc :=
  ⟨fun h => (h rfl).elim, fun h => (h rfl).elim, fun h => (h rfl).elim, fun h => (h rfl).elim,
    fun h => (h rfl).elim, fun x o o' h1 h2 h3 => by rw [h1] at h2; cases h2; exact (h3 rfl).elim⟩

theorem mic_accounted {ops : Nat → Option Op} {b b' : Mem} {i : Nat} {pc pc' : PC} {a : Alt} {evs : List Ev}
    {g : Option PC} (hm : MemInv ops b) (hi : ∀ t u, pc = .subMake t u → b.sub i = none)
    (h : Mic b i pc a b' pc' evs g) : Accounted b b' pc := by
  have hq := fun t => queue_eqs b i t
  have same : ∀ {b' : Mem}, b'.sub = b.sub → ∀ (pc : PC) (x : Nat) (o o' : Sub), b.sub x = some o →
      b'.sub x = some o' → o'.active ≠ o.active → ⟨.active x, true, .read⟩ ∈ accesses pc := by
    intro b' e pc x o o' h1 h2 h3
    rw [e, h1] at h2; cases h2; exact (h3 rfl).elim
  cases h with
  | openSet ctx =>
    exact ⟨fun _ => by simp [accesses], fun _ => by simp [accesses], fun _ => by simp [accesses],
      fun h => (h rfl).elim, fun h => (h rfl).elim, same rfl _⟩
  | closing | pubClose | runClose =>
    rcases hm.close i with ⟨_, e⟩ | ⟨_, _, _, _, e⟩ <;> rw [e]
    · exact .refl _ _
    · exact ⟨fun _ => by simp [accesses, closeAccesses], fun h => (h rfl).elim, fun h => (h rfl).elim,
        fun _ => by simp [accesses, closeAccesses], fun _ => by simp [accesses, closeAccesses], same rfl _⟩
  | pubGet ctx t m =>
    obtain ⟨h1, _, h3, h4, h5, _, _, _, h9, _, _⟩ := hq t
    exact ⟨fun h => (h h1).elim, fun h => (h h4).elim, fun h => (h h5).elim, fun h => (h h3).elim,
      fun _ => by simp [accesses], same h9 _⟩
  | subMake t u subs' inner _ =>
    obtain ⟨h1, _, _, h4, _, _, _, _, _, _, _⟩ := hq t
    refine ⟨fun h => (h h1).elim, fun h => (h h4).elim, fun h => (h rfl).elim, fun _ => by simp [accesses],
      fun _ => by simp [accesses], ?_⟩
    intro x o o' ho h2 h3
    dsimp only at h2
    by_cases hx : x = i
    · subst hx; rw [hi t u rfl] at ho; cases ho
    · rw [upd_ne _ _ hx, ho] at h2; cases h2; exact (h3 rfl).elim
  | unsubSet x o ho =>
    refine ⟨fun h => (h rfl).elim, fun h => (h rfl).elim, fun h => (h rfl).elim, fun h => (h rfl).elim,
      fun h => (h rfl).elim, ?_⟩
    intro y p p' h1 h2 h3
    dsimp only at h2
    by_cases hy : y = x
    · subst hy; simp [accesses]
    · rw [upd_ne _ _ hy, h1] at h2; cases h2; exact (h3 rfl).elim
  | runDel ctx t u inner =>
    exact ⟨fun h => (h rfl).elim, fun h => (h rfl).elim, fun h => (h rfl).elim, fun _ => by simp [accesses],
      fun h => (h rfl).elim, same rfl _⟩
  | _ =>
    exact ⟨fun h => (h rfl).elim, fun h => (h rfl).elim, fun h => (h rfl).elim, fun h => (h rfl).elim,
      fun h => (h rfl).elim, same rfl _⟩

/-- Every step of a goroutine writes only the fields listed for its position. -/
theorem Reach.accounted {cap : Int} {s s' : St} {i : Nat} {alt : Alt} {pc : PC} (h : Reach cap Any s)
    (hc : s.calls i = some pc) (hs : Broker.step s (.step i alt) = some s') : Accounted s.b s'.b pc := by
  have hi := h.toInv
  obtain ⟨_, ht⟩ := step_tr hs
  refine tr_cases hi ht ?_ ?_ ?_ ?_ ?_
  · rintro op e; cases e
  · rintro c e; cases e
  · rintro _ _ _ _ _ _ e ms
    cases e
    have := ms.here
    rw [hc] at this; cases this
    refine mic_accounted hi.mem ?_ ms.mic
    rintro t u rfl
    exact (h.toUnused i (.inr (.inl ⟨_, hc, trivial⟩))).sub
  · rintro _ _ _ _ _ _ _ _ _ _ _ e; cases e
  · rintro j v e; cases e

/-! ## Which accesses there are -/

theorem acc_locked {pc : PC} {a : Access} (h : a ∈ accesses pc)
    (hl : a.loc = .connected ∨ a.loc = .topics ∨ a.loc = .subs) :
    a.held = .write ∨ (a.held = .read ∧ a.write = false) := by
  cases pc <;> simp only [accesses, closeAccesses, List.mem_cons, List.not_mem_nil, or_false] at h
  all_goals first
    | exact h.elim
    | (rcases h with rfl | rfl | rfl | rfl | rfl <;> simp_all)
    | (rcases h with rfl | rfl | rfl | rfl <;> simp_all)
    | (rcases h with rfl | rfl | rfl <;> simp_all)
    | (rcases h with rfl | rfl <;> simp_all)
    | (subst h; simp_all)

theorem acc_session {pc : PC} {a : Access} (h : a ∈ accesses pc) (hl : a.loc = .exit ∨ a.loc = .ctl) :
    (a.write = true → AtOpen pc) ∧ (a.held = .write ∨ LatePub pc ∨ InRun pc) := by
  cases pc <;> simp only [accesses, closeAccesses, List.mem_cons, List.not_mem_nil, or_false] at h
  all_goals first
    | exact h.elim
    | (rcases h with rfl | rfl | rfl | rfl | rfl <;> simp_all [AtOpen, LatePub, InRun])
    | (rcases h with rfl | rfl | rfl | rfl <;> simp_all [AtOpen, LatePub, InRun])
    | (rcases h with rfl | rfl | rfl <;> simp_all [AtOpen, LatePub, InRun])
    | (rcases h with rfl | rfl <;> simp_all [AtOpen, LatePub, InRun])
    | (subst h; simp_all [AtOpen, LatePub, InRun])

theorem acc_active {pc : PC} {a : Access} {x : Nat} (h : a ∈ accesses pc) (hl : a.loc = .active x) :
    (a.write = true → pc = .unsubSet x) ∧ (pc = .unsubSet x ∨ pc = .unsubChk x ∨ ∃ c, pc = .recvChk c x) := by
  cases pc <;> simp only [accesses, closeAccesses, List.mem_cons, List.not_mem_nil, or_false] at h
  all_goals first
    | exact h.elim
    | (rcases h with rfl | rfl | rfl | rfl | rfl <;> simp_all)
    | (rcases h with rfl | rfl | rfl | rfl <;> simp_all)
    | (rcases h with rfl | rfl | rfl <;> simp_all)
    | (rcases h with rfl | rfl <;> simp_all)
    | (subst h; simp_all)

theorem no_race_locked {s : St} {l : Loc} (hl : l = .connected ∨ l = .topics ∨ l = .subs) : ¬ RaceOn s l := by
  rintro ⟨i, j, pc, pc', a, a', _, _, _, h1, h2, h3, h4, h5, h6⟩
  have g1 := acc_locked h1 (by rw [h3]; exact hl)
  have g2 := acc_locked h2 (by rw [h4]; exact hl)
  apply h6
  rcases g1 with g1 | ⟨g1, g1'⟩ <;> rcases g2 with g2 | ⟨g2, g2'⟩ <;> rw [g1, g2]
  · trivial
  · trivial
  · trivial
  · rw [g1', g2'] at h5; rcases h5 with h5 | h5 <;> cases h5

theorem _root_.Netscrape.Spec.Broker.Excludes.symm {a b : Held} (h : Excludes a b) : Excludes b a := by
  cases a <;> cases b <;> first | trivial | exact h

theorem no_race_session {s : St} (h : QuietInv s) {l : Loc} (hl : l = .exit ∨ l = .ctl) : ¬ RaceOn s l := by
  have key : ∀ i j pc pc' a a', i ≠ j → s.calls i = some pc → s.calls j = some pc' → a ∈ accesses pc →
      a' ∈ accesses pc' → a.loc = l → a'.loc = l → a.write = true → Excludes a.held a'.held := by
    intro i j pc pc' a a' hij hi hj h1 h2 h3 h4 hw
    have g1 := acc_session h1 (by rw [h3]; exact hl)
    have g2 := acc_session h2 (by rw [h4]; exact hl)
    have ho := g1.1 hw
    obtain ⟨_, hq⟩ := h i pc hi ho
    obtain ⟨q1, q2⟩ := hq j pc' (Ne.symm hij) hj
    have hh : a.held = .write := by
      rcases g1.2 with g | g | g
      · exact g
      · exfalso; cases pc <;> first | exact ho | exact g
      · exfalso; cases pc <;> first | exact ho | exact g
    have hh' : a'.held = .write := by
      rcases g2.2 with g | g | g
      · exact g
      · exact (q2 g).elim
      · exact (q1 g.inSession).elim
    rw [hh, hh']; trivial
  rintro ⟨i, j, pc, pc', a, a', hij, hi, hj, h1, h2, h3, h4, h5, h6⟩
  rcases h5 with h5 | h5
  · exact h6 (key i j pc pc' a a' hij hi hj h1 h2 h3 h4 h5)
  · exact h6 (Excludes.symm (key j i pc' pc a' a (Ne.symm hij) hj hi h2 h1 h4 h3 h5))

theorem no_race_active {s : St} (hi : Inv s) (h : ∀ i j op x, i ≠ j →
    (s.calls i).isSome = true → (s.calls j).isSome = true → s.ops i = some (.unsubscribe x) →
    s.ops j = some op → ¬ touches x op) (x : Nat) : ¬ RaceOn s (.active x) := by
  have key : ∀ i j pc pc' a a', i ≠ j → s.calls i = some pc → s.calls j = some pc' → a ∈ accesses pc →
      a' ∈ accesses pc' → a.loc = .active x → a'.loc = .active x → a.write = true → False := by
    intro i j pc pc' a a' hij hci hcj h1 h2 h3 h4 hw
    have g1 := (acc_active h1 h3).1 hw
    subst g1
    have f1 := (hi.fits _ _ hci).1
    obtain ⟨op, ho, ht⟩ : ∃ op, s.ops j = some op ∧ touches x op := by
      have f2 := hi.fits _ _ hcj
      rcases (acc_active h2 h4).2 with rfl | rfl | ⟨c, rfl⟩
      · exact ⟨_, f2.1, rfl⟩
      · exact ⟨_, f2.1, rfl⟩
      · exact ⟨_, f2.1, rfl⟩
    exact h i j op x hij (by rw [hci]; rfl) (by rw [hcj]; rfl) f1 ho ht
  rintro ⟨i, j, pc, pc', a, a', hij, hci, hcj, h1, h2, h3, h4, h5, _⟩
  rcases h5 with h5 | h5
  · exact key i j pc pc' a a' hij hci hcj h1 h2 h3 h4 h5
  · exact key j i pc' pc a' a (Ne.symm hij) hcj hci h2 h1 h4 h3 h5

end Netscrape.Broker
