import Verif.Lemmas.BrokerLock

/-!
# Every step of the statement-level broker is none or one of the coarse broker
-/

namespace Netscrape.BrokerLock
open Netscrape.Conc (upd upd_self upd_ne Mu)
open Netscrape.Broker (Mem Msg Op Ret PC Ev Alt Queue Sub Loc)

/-! ## Positions -/

/-- Where the coarse broker is when this one is at a position. -/
def abs : Pos → PC
  | .out pc => pc
  | .wait pc => pc
  | .chk pc => pc
  | .rEnd pc => pc
  | .open1 ctx => .openSet ctx
  | .open2 ctx => .openSet ctx
  | .open3 _ _ => .done .nil
  | .open4 _ _ => .done .nil
  | .close1 pc => pc
  | .close2 pc => pc
  | .close3 => .done .nil
  | .close4 _ => .done .nil
  | .close5 _ => .done .nil
  | .close6 _ => .done .nil
  | .close7 => .done .nil
  | .pub1 ctx t m => .pubGet ctx t m
  | .pub2 ctx t m => .pubGet ctx t m
  | .pub3 ctx t m _ => .pubGet ctx t m
  | .sub1 t u => .subMake t u
  | .sub2 t u => .subMake t u
  | .sub3 t u _ => .subMake t u
  | .sub4 t u _ => .subMake t u
  | .sub5 _ _ => .done .sub
  | .sub6 _ _ => .done .sub
  | .sub7 _ _ => .done .sub
  | .del1 ctx t u => .runDel ctx t u
  | .del2 ctx t u => .runDel ctx t u
  | .wEnd pc => pc

theorem abs_enter (pc : PC) : abs (enter pc) = pc := by cases pc <;> rfl

structure CallsRel (fc : Nat → Option Pos) (cc : Nat → Option PC) : Prop where
  some : ∀ j p, fc j = some p → cc j = some (abs p)
  claim : ∀ i p ctx n, fc i = .some p → claimed p = .some (ctx, n) → fc n = none ∧ cc n = .some (.run ctx)
  none : ∀ j, fc j = none → (∀ i p ctx, fc i = .some p → claimed p ≠ .some (ctx, j)) → cc j = none

theorem CallsRel.upd {fc : Nat → Option Pos} {cc : Nat → Option PC} (h : CallsRel fc cc) {i : Nat} {p p' : Pos}
    (hi : fc i = .some p) (hc : claimed p' = claimed p) :
    CallsRel (upd fc i (.some p')) (upd cc i (.some (abs p'))) := by
  refine ⟨?_, ?_, ?_⟩
  · intro j q hj
    by_cases hji : j = i
    · subst hji; rw [upd_self] at hj ⊢; cases hj; rfl
    · rw [upd_ne _ _ hji] at hj ⊢; exact h.some j q hj
  · intro a q ctx n ha hq
    have key : fc n = Option.none ∧ cc n = .some (.run ctx) := by
      by_cases hai : a = i
      · subst hai; rw [upd_self] at ha; cases ha
        exact h.claim a p ctx n hi (by rw [← hc]; exact hq)
      · rw [upd_ne _ _ hai] at ha; exact h.claim a q ctx n ha hq
    have hne : n ≠ i := by rintro rfl; rw [key.1] at hi; cases hi
    rw [upd_ne _ _ hne, upd_ne _ _ hne]; exact key
  · intro j hj hn
    by_cases hji : j = i
    · subst hji; rw [upd_self] at hj; cases hj
    · rw [upd_ne _ _ hji] at hj ⊢
      refine h.none j hj fun a q ctx ha hq => ?_
      by_cases hai : a = i
      · subst hai; rw [hi] at ha; cases ha
        exact hn a p' ctx (upd_self _ _ _) (by rw [hc]; exact hq)
      · exact hn a q ctx (by rw [upd_ne _ _ hai]; exact ha) hq

theorem CallsRel.same {fc : Nat → Option Pos} {cc : Nat → Option PC} (h : CallsRel fc cc) {i : Nat} {p p' : Pos}
    (hi : fc i = .some p) (hc : claimed p' = claimed p) (ha : abs p' = abs p) :
    CallsRel (Conc.upd fc i (.some p')) cc := by
  have := h.upd hi hc
  rw [upd_same cc i _ (by rw [h.some i p hi, ha])] at this
  exact this

theorem CallsRel.fresh {fc : Nat → Option Pos} {cc : Nat → Option PC} (h : CallsRel fc cc) {n : Nat} {pc : PC}
    (hi : fc n = Option.none) (hn : ∀ i p ctx, fc i = .some p → claimed p ≠ .some (ctx, n)) :
    CallsRel (Conc.upd fc n (.some (.out pc))) (Conc.upd cc n (.some pc)) := by
  refine ⟨?_, ?_, ?_⟩
  · intro j q hj
    by_cases hji : j = n
    · subst hji; rw [upd_self] at hj ⊢; cases hj; rfl
    · rw [upd_ne _ _ hji] at hj ⊢; exact h.some j q hj
  · intro a q ctx m ha hq
    by_cases hai : a = n
    · subst hai; rw [upd_self] at ha; cases ha; cases hq
    · rw [upd_ne _ _ hai] at ha
      have key := h.claim a q ctx m ha hq
      have hne : m ≠ n := by rintro rfl; exact hn a q ctx ha hq
      rw [upd_ne _ _ hne, upd_ne _ _ hne]; exact key
  · intro j hj hn'
    by_cases hji : j = n
    · subst hji; rw [upd_self] at hj; cases hj
    · rw [upd_ne _ _ hji] at hj ⊢
      refine h.none j hj fun a q ctx ha hq => ?_
      have hai : a ≠ n := by rintro rfl; rw [hi] at ha; cases ha
      exact hn' a q ctx (by rw [upd_ne _ _ hai]; exact ha) hq

theorem CallsRel.ret {fc : Nat → Option Pos} {cc : Nat → Option PC} (h : CallsRel fc cc) {i : Nat} {p : Pos}
    (hi : fc i = .some p) (hp : claimed p = Option.none) : CallsRel (Conc.upd fc i Option.none) (Conc.upd cc i Option.none) := by
  refine ⟨?_, ?_, ?_⟩
  · intro j q hj
    by_cases hji : j = i
    · subst hji; rw [upd_self] at hj; cases hj
    · rw [upd_ne _ _ hji] at hj ⊢; exact h.some j q hj
  · intro a q ctx m ha hq
    by_cases hai : a = i
    · subst hai; rw [upd_self] at ha; cases ha
    · rw [upd_ne _ _ hai] at ha
      have key := h.claim a q ctx m ha hq
      have hne : m ≠ i := by rintro rfl; rw [key.1] at hi; cases hi
      rw [upd_ne _ _ hne, upd_ne _ _ hne]; exact key
  · intro j hj hn'
    by_cases hji : j = i
    · subst hji; rw [upd_self]
    · rw [upd_ne _ _ hji] at hj ⊢
      refine h.none j hj fun a q ctx ha hq => ?_
      have hai : a ≠ i := by rintro rfl; rw [hi] at ha; cases ha; rw [hp] at hq; cases hq
      exact hn' a q ctx (by rw [upd_ne _ _ hai]; exact ha) hq

theorem CallsRel.opening {fc : Nat → Option Pos} {cc : Nat → Option PC} (h : CallsRel fc cc) {i n ctx : Nat}
    (hi : fc i = .some (.open2 ctx)) (hn : fc n = Option.none)
    (hm : ∀ i p ctx, fc i = .some p → claimed p ≠ .some (ctx, n)) :
    CallsRel (Conc.upd fc i (.some (.open3 ctx n))) (Conc.upd (Conc.upd cc i (.some (.done .nil))) n (.some (.run ctx))) := by
  have hin : i ≠ n := by rintro rfl; rw [hn] at hi; cases hi
  refine ⟨?_, ?_, ?_⟩
  · intro j q hj
    by_cases hji : j = i
    · subst hji; rw [upd_self] at hj; cases hj; rw [upd_ne _ _ hin, upd_self]; rfl
    · rw [upd_ne _ _ hji] at hj
      have hjn : j ≠ n := by rintro rfl; rw [hn] at hj; cases hj
      rw [upd_ne _ _ hjn, upd_ne _ _ hji]; exact h.some j q hj
  · intro a q c m ha hq
    by_cases hai : a = i
    · subst hai; rw [upd_self] at ha; cases ha; cases hq
      exact ⟨by rw [upd_ne _ _ hin.symm]; exact hn, upd_self _ _ _⟩
    · rw [upd_ne _ _ hai] at ha
      have key := h.claim a q c m ha hq
      have hne : m ≠ i := by rintro rfl; rw [key.1] at hi; cases hi
      have hmn : m ≠ n := by rintro rfl; exact hm a q c ha hq
      rw [upd_ne _ _ hne, upd_ne _ _ hmn, upd_ne _ _ hne]; exact key
  · intro j hj hn'
    have hji : j ≠ i := by rintro rfl; rw [upd_self] at hj; cases hj
    have hjn : j ≠ n := by rintro rfl; exact hn' i _ ctx (upd_self _ _ _) rfl
    rw [upd_ne _ _ hji] at hj
    rw [upd_ne _ _ hjn, upd_ne _ _ hji]
    refine h.none j hj fun a q c ha hq => ?_
    have hai : a ≠ i := by rintro rfl; rw [hi] at ha; cases ha; cases hq
    exact hn' a q c (by rw [upd_ne _ _ hai]; exact ha) hq

theorem CallsRel.opened {fc : Nat → Option Pos} {cc : Nat → Option PC} (h : CallsRel fc cc) {i n ctx : Nat}
    (hi : fc i = .some (.open4 ctx n)) (hone : ∀ j q, fc j = .some q → claimed q ≠ Option.none → j = i) :
    CallsRel (Conc.upd (Conc.upd fc n (.some (.out (.run ctx)))) i (.some (.wEnd (.done .nil)))) cc := by
  have key := h.claim i _ ctx n hi rfl
  have hin : i ≠ n := by rintro rfl; rw [key.1] at hi; cases hi
  refine ⟨?_, ?_, ?_⟩
  · intro j q hj
    by_cases hji : j = i
    · subst hji; rw [upd_self] at hj; cases hj; exact (h.some j _ hi :)
    · rw [upd_ne _ _ hji] at hj
      by_cases hjn : j = n
      · subst hjn; rw [upd_self] at hj; cases hj; exact key.2
      · rw [upd_ne _ _ hjn] at hj; exact h.some j q hj
  · intro a q c m ha hq
    exfalso
    by_cases hai : a = i
    · subst hai; rw [upd_self] at ha; cases ha; cases hq
    · rw [upd_ne _ _ hai] at ha
      by_cases han : a = n
      · subst han; rw [upd_self] at ha; cases ha; cases hq
      · rw [upd_ne _ _ han] at ha
        exact hai (hone a q ha (by rw [hq]; exact nofun))
  · intro j hj hn'
    have hji : j ≠ i := by rintro rfl; rw [upd_self] at hj; cases hj
    rw [upd_ne _ _ hji] at hj
    have hjn : j ≠ n := by rintro rfl; rw [upd_self] at hj; cases hj
    rw [upd_ne _ _ hjn] at hj
    refine h.none j hj fun a q c ha hq => ?_
    have hai := hone a q ha (by rw [hq]; exact nofun)
    subst hai
    rw [hi] at ha; cases ha; cases hq
    exact hjn rfl

/-! ## Memory -/

/-- `b` with the fields under the mutex as in `c`. -/
def put (b c : Mem) : Mem :=
  { b with connected := c.connected, subs := c.subs, topics := c.topics, ctl := c.ctl, ctlWas := c.ctlWas }

/-- The fields under the mutex are the same. -/
structure Eqg (f c : Mem) : Prop where
  connected : f.connected = c.connected
  subs : f.subs = c.subs
  topics : f.topics = c.topics
  ctl : f.ctl = c.ctl

/-- `delete(m.topics, topic)` for all topics in a map. -/
def clear (subs : GoMap String (GoMap String Nat)) (topics : GoMap String Queue) : GoMap String Queue :=
  subs.entries.foldl (fun t x => t.del x.1) topics

/-- How the fields under the mutex differ when `i`, which holds it, is at a position. -/
def Mid (i : Nat) (f c : Mem) : Pos → Prop
  | .open2 _ => f.connected = true ∧ f.subs = c.subs ∧ f.topics = c.topics ∧ f.ctl = c.ctl
  | .open3 _ _ => f.connected = true ∧ c.connected = true ∧ f.subs = c.subs ∧ f.topics = c.topics ∧
      f.ctl = c.ctlWas ∧ c.ctl = some i
  | .close2 _ => Eqg f c ∧ f.connected = true
  | .close3 => c.connected = false ∧ c.subs = GoMap.empty ∧ c.topics = clear f.subs f.topics ∧ f.ctl = c.ctl
  | .close4 t => c.connected = false ∧ c.subs = GoMap.empty ∧ c.topics = clear f.subs f.topics ∧ f.ctl = c.ctl ∧
      (f.subs.get? t).isSome = true
  | .close5 t => c.connected = false ∧ c.subs = GoMap.empty ∧ c.topics = clear f.subs f.topics ∧ f.ctl = c.ctl ∧
      (f.subs.get? t).isSome = true
  | .close6 t => c.connected = false ∧ c.subs = GoMap.empty ∧ c.topics = clear f.subs (f.topics.del t) ∧
      f.ctl = c.ctl
  | .close7 => c.connected = false ∧ f.subs = c.subs ∧ f.topics = c.topics ∧ f.ctl = c.ctl
  | .pub2 _ t _ => Eqg f c ∧ f.topics.get? t = none
  | .pub3 _ t _ q => Eqg f c ∧ f.topics.get? t = none ∧ q = ⟨i, c.exit⟩
  | .sub2 t _ => Eqg f c ∧ f.topics.get? t = none
  | .sub3 t _ q => Eqg f c ∧ f.topics.get? t = none ∧ q = ⟨i, c.exit⟩
  | .sub4 t _ q => f.connected = c.connected ∧ f.subs = c.subs ∧ f.ctl = c.ctl ∧
      f.topics = (c.queue i t).1.topics ∧ q = (c.queue i t).2
  | .sub5 t u => f.connected = c.connected ∧ f.topics = c.topics ∧ f.ctl = c.ctl ∧
      c.subs = f.subs.set t ((if (((f.subs.get? t).getD GoMap.empty).get? u).isNone then GoMap.empty
        else (f.subs.get? t).getD GoMap.empty).set u i)
  | .sub6 t u => f.connected = c.connected ∧ f.topics = c.topics ∧ f.ctl = c.ctl ∧
      c.subs = f.subs.set t (GoMap.empty.set u i)
  | .sub7 t u => f.connected = c.connected ∧ f.topics = c.topics ∧ f.ctl = c.ctl ∧
      ∃ inner, f.subs.get? t = some inner ∧ c.subs = f.subs.set t (inner.set u i)
  | .del2 _ t _ => Eqg f c ∧ (f.subs.get? t).isSome = true
  | _ => Eqg f c

/-- Nothing `Mid` talks about has changed. -/
structure Quiet (f f' : Mem) : Prop extends Eqg f f' where
  exit : f.exit = f'.exit

theorem Eqg.refl (f : Mem) : Eqg f f := ⟨rfl, rfl, rfl, rfl⟩

theorem queue_topics {c c' : Mem} (h1 : c.topics = c'.topics) (h2 : c.exit = c'.exit) (i : Nat) (t : String) :
    (c.queue i t).1.topics = (c'.queue i t).1.topics ∧ (c.queue i t).2 = (c'.queue i t).2 := by
  unfold Mem.queue
  rw [h1, h2]
  cases c'.topics.get? t <;> simp [h1]

theorem Mid.quiet {i : Nat} {f f' c c' : Mem} {p : Pos} (h : Mid i f c p) (hf : Quiet f f') (hc : Quiet c c')
    (hw : c.ctlWas = c'.ctlWas) : Mid i f' c' p := by
  obtain ⟨⟨f1, f2, f3, f4⟩, f5⟩ := hf
  obtain ⟨⟨c1, c2, c3, c4⟩, c5⟩ := hc
  have he : Eqg f c → Eqg f' c' := fun ⟨h1, h2, h3, h4⟩ => ⟨by rw [← f1, h1, c1], by rw [← f2, h2, c2],
    by rw [← f3, h3, c3], by rw [← f4, h4, c4]⟩
  cases p with
  | close2 => exact ⟨he h.1, f1 ▸ h.2⟩
  | pub2 | sub2 => exact ⟨he h.1, f3 ▸ h.2⟩
  | pub3 | sub3 => exact ⟨he h.1, f3 ▸ h.2.1, c5 ▸ h.2.2⟩
  | del2 => exact ⟨he h.1, f2 ▸ h.2⟩
  | sub4 t u q =>
    obtain ⟨h1, h2, h3, h4, h5⟩ := h
    have := queue_topics c3 c5 i t
    exact ⟨by rw [← f1, h1, c1], by rw [← f2, h2, c2], by rw [← f4, h3, c4], by rw [← f3, h4, this.1],
      by rw [h5, this.2]⟩
  | open2 | open3 | close3 | close4 | close5 | close6 | close7 | sub5 | sub6 | sub7 =>
    dsimp only [Mid] at h ⊢
    simp only [← f1, ← f2, ← f3, ← f4, ← c1, ← c2, ← c3, ← c4, ← hw]
    exact h
  | _ => exact he h

theorem put_isClosed (b c : Mem) (e : Option Nat) : (put b c).isClosed e = b.isClosed e := by cases e <;> rfl

theorem micro_put {b : Mem} (c : Mem) {i : Nat} {pc pc' : PC} {alt : Alt} {b' : Mem} {evs : List Ev} {g : Option PC}
    (hs : sect pc = none) (ha : alt ≠ .stale) (h : Broker.micro b i pc alt = some (b', pc', evs, g)) :
    Quiet b b' ∧ ∃ alt', (b.ctl = c.ctl ∨ b.ctl = c.ctlWas) →
      Broker.micro (put b c) i pc alt' = some (put b' c, pc', evs, g) := by
  have q : Quiet b b := ⟨.refl b, rfl⟩
  have key : (∀ ctx e, pc ≠ .runCtl ctx e) →
      Quiet b b' ∧ Broker.micro (put b c) i pc alt = some (put b' c, pc', evs, g) := by
    intro hne
    cases pc <;> simp only [sect, reduceCtorEq] at hs <;> cases alt <;>
      simp only [Broker.micro, reduceCtorEq, put_isClosed] at h ⊢ <;>
      first
      | exact (hne _ _ rfl).elim
      | (repeat' split at h
         all_goals first
           | (cases h; done)
           | (cases h; exact ⟨⟨⟨rfl, rfl, rfl, rfl⟩, rfl⟩, by simp_all [put]⟩))
  by_cases hr : ∃ ctx e, pc = .runCtl ctx e
  · obtain ⟨ctx, e, rfl⟩ := hr
    cases alt <;> simp only [Broker.micro, reduceCtorEq] at h
    · cases h
      refine ⟨q, ?_⟩
      by_cases he : b.ctl = c.ctl
      · exact ⟨.go, fun _ => by simp [Broker.micro, put, he]⟩
      · exact ⟨.stale, fun h => by simp [Broker.micro, put, h.resolve_left he]⟩
    · exact (ha rfl).elim
  · have := key fun ctx e hh => hr ⟨ctx, e, hh⟩
    exact ⟨this.1, alt, fun _ => this.2⟩

end Netscrape.BrokerLock
