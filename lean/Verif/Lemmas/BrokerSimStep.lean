import Verif.Lemmas.BrokerSim
import Verif.Lemmas.MapVals

/-!
# Every step of the statement-level broker is none or one of the coarse broker, continued
-/

namespace Netscrape.BrokerLock
open Netscrape.Conc (upd upd_self upd_ne Mu)
open Netscrape.Broker (Mem Msg Op Ret PC Ev Alt Queue Sub Loc)

/-! ## Clearing topics -/

theorem foldl_del {V W : Type} (l : List (String × V)) (m : GoMap String W) :
    (l.foldl (fun t x => t.del x.1) m).entries = m.entries.filter fun e => e.1 ∉ l.map Prod.fst := by
  induction l generalizing m with
  | nil => exact (List.filter_eq_self.mpr fun e _ => by simp).symm
  | cons x l ih =>
    rw [List.foldl_cons, ih]
    show (m.entries.filter _).filter _ = _
    rw [List.filter_filter]
    refine List.filter_congr fun e _ => ?_
    rw [← Bool.decide_and, decide_eq_decide, List.map_cons, List.mem_cons, not_or, and_comm]

theorem keys_set (s : GoMap String (GoMap String Nat)) (t : String) (v : GoMap String Nat) (k : String) :
    k ∈ (s.set t v).keys ↔ k = t ∨ k ∈ s.keys := by
  unfold GoMap.keys GoMap.set GoMap.del
  simp only [List.map_cons, List.mem_cons, List.mem_map, List.mem_filter]
  constructor
  · rintro (h | ⟨e, ⟨h1, _⟩, h2⟩)
    · exact .inl h
    · exact .inr ⟨e, h1, h2⟩
  · rintro (h | ⟨e, h1, h2⟩)
    · exact .inl h
    · by_cases hk : k = t
      · exact .inl hk
      · exact .inr ⟨e, ⟨h1, by simpa [h2] using hk⟩, h2⟩

theorem keys_del (s : GoMap String (GoMap String Nat)) (t : String) (k : String) :
    k ∈ (s.del t).keys ↔ k ≠ t ∧ k ∈ s.keys := by
  unfold GoMap.keys GoMap.del
  simp only [List.mem_map, List.mem_filter]
  constructor
  · rintro ⟨e, ⟨h1, h2⟩, h3⟩
    exact ⟨by rw [← h3]; simpa using h2, e, h1, h3⟩
  · rintro ⟨h1, e, h2, h3⟩
    exact ⟨e, ⟨h2, by rw [h3]; simpa using h1⟩, h3⟩

theorem mem_keys {s : GoMap String (GoMap String Nat)} {t : String} (h : (s.get? t).isSome = true) : t ∈ s.keys := by
  refine Classical.byContradiction fun hn => ?_
  rw [(GoMap.get?_eq_none s t).mpr hn] at h; cases h

theorem clear_set {s : GoMap String (GoMap String Nat)} {t : String} (h : (s.get? t).isSome = true)
    (v : GoMap String Nat) (ts : GoMap String Queue) : clear (s.set t v) ts = clear s ts := by
  refine GoMap.ext_entries ?_
  unfold clear
  rw [foldl_del, foldl_del]
  refine List.filter_congr fun e _ => ?_
  have h1 := keys_set s t v e.1
  have h2 := mem_keys h
  unfold GoMap.keys at h1 h2
  rw [decide_eq_decide, h1]
  constructor
  · exact fun h hh => h (.inr hh)
  · rintro h' (e' | h3)
    · rw [e'] at h'; exact h' h2
    · exact h' h3

theorem clear_del {s : GoMap String (GoMap String Nat)} {t : String} (h : (s.get? t).isSome = true)
    (ts : GoMap String Queue) : clear (s.del t) (ts.del t) = clear s ts := by
  refine GoMap.ext_entries ?_
  unfold clear
  rw [foldl_del, foldl_del]
  show (ts.entries.filter _).filter _ = _
  rw [List.filter_filter]
  refine List.filter_congr fun e _ => ?_
  have h1 := keys_del s t e.1
  have h2 := mem_keys h
  unfold GoMap.keys at h1 h2
  rw [← Bool.decide_and, decide_eq_decide, h1]
  constructor
  · rintro ⟨ha, hb⟩ hc; exact ha ⟨hb, hc⟩
  · intro hc
    refine ⟨fun hh => hc hh.2, ?_⟩
    intro e; rw [e] at hc; exact hc h2

theorem set_set {V : Type} (m : GoMap String V) (k : String) (v w : V) : (m.set k v).set k w = m.set k w := by
  refine GoMap.ext_entries ?_
  unfold GoMap.set GoMap.del
  simp [List.filter_filter]

/-! ## Positions make sense -/

/-- The argument of a position is one it can have. -/
def Wf : Pos → Prop
  | .wait pc => sect pc = some false
  | .chk pc => sect pc = some true
  | .close1 pc => pc = .closing ∨ pc = .pubClose ∨ pc = .runClose
  | .close2 pc => pc = .closing ∨ pc = .pubClose ∨ pc = .runClose
  | _ => True

theorem wf_enter {pc : PC} (h : sect pc = some false) : Wf (enter pc) := by
  cases pc <;> simp_all [sect, enter, Wf]

theorem wf_lock {mu mu' : Mu} {p p' : Pos} (hw : Wf p) (h : lock mu p = some (mu', p')) : Wf p' := by
  cases p <;> simp only [lock, reduceCtorEq] at h
  case out pc =>
    split at h
    · cases h
    · next hs => split at h <;> cases h; exact hs
    · next hs => split at h <;> cases h; exact hs
  case wait pc =>
    split at h
    · cases h; exact wf_enter hw
    · cases h
  all_goals (cases h; trivial)

theorem wf_stmt {b b' : Mem} {i n : Nat} {key : String} {p p' : Pos} {evs : List Ev} (hw : Wf p)
    (h : stmt b i n key p = some (b', p', evs)) : Wf p' := by
  cases p <;> simp only [stmt, reduceCtorEq] at h
  case close1 pc =>
    cases h
    split
    · exact hw
    · trivial
  all_goals first
    | (cases h; first | trivial | (split <;> trivial))
    | (repeat' split at h
       all_goals cases h <;> trivial)

def WfInv (s : St) : Prop := ∀ i p, s.calls i = some p → Wf p

theorem wf_upd {calls : Nat → Option Pos} (h : ∀ i p, calls i = some p → Wf p) {j : Nat} {q : Option Pos}
    (hq : ∀ p, q = some p → Wf p) : ∀ i p, upd calls j q i = some p → Wf p := by
  intro i p hi
  by_cases hij : i = j
  · subst hij; rw [upd_self] at hi; exact hq p hi
  · rw [upd_ne _ _ hij] at hi; exact h i p hi

theorem WfInv.tr {s s' : St} {a : Act} (h : WfInv s) (ht : Tr s a s') : WfInv s' := by
  cases ht with
  | call => exact wf_upd h (by rintro _ ⟨⟩; trivial)
  | cancel => exact h
  | step => exact wf_upd h (by rintro _ ⟨⟩; trivial)
  | spawn => exact wf_upd (wf_upd h (by rintro _ ⟨⟩; trivial)) (by rintro _ ⟨⟩; trivial)
  | lock i p mu' p' hc hl => exact wf_upd h (by rintro _ ⟨⟩; exact wf_lock (h i p hc) hl)
  | stmt i key p b' p' evs hc hm =>
    refine wf_upd ?_ (by rintro _ ⟨⟩; exact wf_stmt (h i p hc) hm)
    cases p <;> first | exact h | exact wf_upd h (by rintro _ ⟨⟩; trivial)
  | meet => exact wf_upd (wf_upd h (by rintro _ ⟨⟩; trivial)) (by rintro _ ⟨⟩; trivial)
  | ret => exact wf_upd h nofun

/-! ## The relation -/

structure Sim (f : St) (c : Broker.St) : Prop where
  b : c.b = put f.b c.b
  calls : CallsRel f.calls c.calls
  ops : c.ops = f.ops
  next : c.next = f.next
  log : c.log = f.log
  mid : ∀ i p, f.calls i = some p → cls p = .writing → Mid i f.b c.b p
  eqg : (∀ i, clsAt f.calls i ≠ .writing) → Eqg f.b c.b

theorem Sim.init (cap : Int) : Sim (.init cap) (.init cap) :=
  ⟨rfl, ⟨nofun, nofun, fun _ _ _ => rfl⟩, rfl, rfl, rfl, nofun, fun _ => .refl _⟩

theorem Mid.ctl {i : Nat} {f c : Mem} {p : Pos} (h : Mid i f c p) : f.ctl = c.ctl ∨ f.ctl = c.ctlWas := by
  cases p <;> dsimp only [Mid] at h
  case open3 => exact .inr h.2.2.2.2.1
  case open2 => exact .inl h.2.2.2
  case close3 | close4 | close5 | close6 | close7 => simp_all
  case close2 | pub2 | pub3 | sub2 | sub3 | del2 => exact .inl h.1.ctl
  case sub4 | sub5 | sub6 | sub7 => simp_all
  all_goals exact .inl h.ctl

theorem Sim.ctl {f : St} {c : Broker.St} (h : Sim f c) : f.b.ctl = c.b.ctl ∨ f.b.ctl = c.b.ctlWas := by
  by_cases hw : ∃ i, clsAt f.calls i = .writing
  · obtain ⟨i, hi⟩ := hw
    unfold clsAt at hi
    split at hi
    · cases hi
    · next p hp => exact (h.mid i p hp hi).ctl
  · exact .inl (h.eqg fun i hi => hw ⟨i, hi⟩).ctl

theorem coarse_step {c : Broker.St} {i : Nat} {pc pc' : PC} {alt : Alt} {b' : Mem} {evs : List Ev}
    (hcr : c.b.crashed = false) (hc : c.calls i = some pc) (hm : Broker.micro c.b i pc alt = some (b', pc', evs, none)) :
    Broker.step c (.step i alt) =
      some { c with b := b', calls := upd c.calls i (some pc'), log := c.log ++ evs } := by
  simp [Broker.step, hcr, hc, hm]

theorem coarse_spawn {c : Broker.St} {i : Nat} {pc pc' g : PC} {alt : Alt} {b' : Mem} {evs : List Ev}
    (hcr : c.b.crashed = false) (hc : c.calls i = some pc)
    (hm : Broker.micro c.b i pc alt = some (b', pc', evs, some g)) :
    Broker.step c (.step i alt) =
      some { c with b := b', calls := upd (upd c.calls i (some pc')) c.next (some g), next := c.next + 1,
                    log := c.log ++ evs } := by
  simp [Broker.step, hcr, hc, hm]

/-- The coarse step that goes with a step. -/
def Follows : Act → Broker.Act → Prop
  | .call op, .call op' => op' = op
  | .cancel ctx, .cancel ctx' => ctx' = ctx
  | .step i _, .step j _ => j = i
  | .stmt i _, .step j alt => j = i ∧ alt = .go
  | .meet p r, .meet p' r' => p' = p ∧ r' = r
  | .ret i, .ret j => j = i
  | _, _ => False

theorem LockInv.writer {s : St} (h : LockInv s) {i j : Nat} {p q : Pos} (hi : s.calls i = some p)
    (hp : cls p = .writing) (hj : s.calls j = some q) (hq : cls q = .writing) : j = i :=
  h.lock.one j i (.inr (by rw [clsAt_some hj, hq])) (.inr (by rw [clsAt_some hi, hp]))

theorem LockInv.held {s : St} (h : LockInv s) {i : Nat} (hi : clsAt s.calls i = .writing) : s.mu.wr = .held := by
  cases hw : s.mu.wr with
  | free => exact ((h.lock.free hw i).2 hi).elim
  | announced => exact (h.lock.announced hw i hi).elim
  | held => rfl

theorem LockInv.reader {s : St} (h : LockInv s) {i j : Nat} (hi : clsAt s.calls i = .reading) :
    clsAt s.calls j ≠ .writing := by
  intro hj
  have := (h.lock.held (h.held hj)).1
  obtain ⟨R, _, hlen, hR⟩ := h.lock.readers
  have hm := (hR i).mpr hi
  rw [this] at hlen
  rw [List.length_eq_zero_iff.mp hlen] at hm
  cases hm

/-- The memory part of the relation after a step outside of critical sections. -/
theorem Sim.quiet {f f' : St} {c c' : Broker.St} (h : Sim f c) (hq : Quiet f.b f'.b) (hb : c'.b = put f'.b c.b)
    (hcls : ∀ j, clsAt f'.calls j = clsAt f.calls j)
    (hk : ∀ j p, f'.calls j = some p → cls p = .writing → f.calls j = some p) (hcalls : CallsRel f'.calls c'.calls)
    (hops : c'.ops = f'.ops) (hnext : c'.next = f'.next) (hlog : c'.log = f'.log) : Sim f' c' := by
  have hqc : Quiet c.b c'.b := by
    rw [hb]
    refine ⟨⟨rfl, rfl, rfl, rfl⟩, ?_⟩
    show c.b.exit = f'.b.exit
    rw [h.b]; exact hq.exit
  have hw : c.b.ctlWas = c'.b.ctlWas := by rw [hb]; rfl
  refine ⟨?_, hcalls, hops, hnext, hlog, ?_, ?_⟩
  · rw [hb]; rfl
  · intro i p hi hp
    exact (h.mid i p (hk i p hi hp) hp).quiet hq hqc hw
  · intro hn
    obtain ⟨h1, h2, h3, h4⟩ := h.eqg fun i => by rw [← hcls]; exact hn i
    obtain ⟨f1, f2, f3, f4⟩ := hq.toEqg
    obtain ⟨c1, c2, c3, c4⟩ := hqc.toEqg
    exact ⟨by rw [← f1, h1, c1], by rw [← f2, h2, c2], by rw [← f3, h3, c3], by rw [← f4, h4, c4]⟩

theorem writing_upd {calls : Nat → Option Pos} {j : Nat} {pc : PC} {i : Nat} {p : Pos}
    (h : upd calls j (some (.out pc)) i = some p) (hp : cls p = .writing) : calls i = some p := by
  by_cases hij : i = j
  · subst hij; rw [upd_self] at h; cases h; cases hp
  · rw [upd_ne _ _ hij] at h; exact h

/-- The relation while `i` is in a critical section under `Lock`. -/
theorem Sim.writer {f' : St} {c' : Broker.St} {i : Nat} {p' : Pos} (hb : c'.b = put f'.b c'.b)
    (hcalls : CallsRel f'.calls c'.calls) (hops : c'.ops = f'.ops) (hnext : c'.next = f'.next) (hlog : c'.log = f'.log)
    (hinv : LockInv f') (hi : f'.calls i = some p') (hp : cls p' = .writing) (hmid : Mid i f'.b c'.b p') : Sim f' c' := by
  refine ⟨hb, hcalls, hops, hnext, hlog, ?_, ?_⟩
  · intro j q hj hq
    have := hinv.writer hi hp hj hq
    subst this
    rw [hi] at hj; cases hj; exact hmid
  · intro hn
    exact (hn i (by rw [clsAt_some hi, hp])).elim

theorem Sim.crashed {f : St} {c : Broker.St} (h : Sim f c) : c.b.crashed = f.b.crashed := by rw [h.b]; rfl
theorem Sim.exit {f : St} {c : Broker.St} (h : Sim f c) : c.b.exit = f.b.exit := by rw [h.b]; rfl
theorem Sim.closed {f : St} {c : Broker.St} (h : Sim f c) : c.b.closed = f.b.closed := by rw [h.b]; rfl

theorem empty_of {V : Type} {m : GoMap String V} (h : m.entries = []) : m = GoMap.empty := GoMap.ext_entries h

/-- What a statement under `Lock` amounts to, if the coarse broker does nothing: memory as the coarse one sees it is
the same. -/
theorem sim_stay {f f' : St} {c : Broker.St} {i : Nat} {p p' : Pos} (h : Sim f c) (hinv : LockInv f')
    (hc : f.calls i = some p) (hp' : cls p' = .writing) (hb : put f'.b c.b = put f.b c.b)
    (hs : f'.calls = upd f.calls i (some p')) (hcl : claimed p' = claimed p) (ha : abs p' = abs p)
    (hops : f'.ops = f.ops) (hnext : f'.next = f.next) (hlog : f'.log = f.log) (hm : Mid i f'.b c.b p') : Sim f' c := by
  refine Sim.writer (i := i) (p' := p') ?_ ?_ ?_ ?_ ?_ hinv ?_ hp' hm
  · rw [hb]; exact h.b
  · rw [hs]; exact h.calls.same hc hcl ha
  · rw [hops]; exact h.ops
  · rw [hnext]; exact h.next
  · rw [hlog]; exact h.log
  · rw [hs]; exact upd_self _ _ _

/-- What a statement under `Lock` amounts to, if the coarse broker does the whole section now. -/
theorem sim_commit {f f' : St} {c : Broker.St} {i : Nat} {p p' : Pos} {b' : Mem} {evs : List Ev} (h : Sim f c)
    (hinv : LockInv f') (hcr : f.b.crashed = false) (hc : f.calls i = some p) (hp' : cls p' = .writing)
    (hmic : Broker.micro c.b i (abs p) .go = some (b', abs p', evs, none)) (hb : b' = put f'.b b')
    (hs : f'.calls = upd f.calls i (some p')) (hcl : claimed p' = claimed p)
    (hops : f'.ops = f.ops) (hnext : f'.next = f.next) (hlog : f'.log = f.log ++ evs) (hm : Mid i f'.b b' p') :
    ∃ c', Broker.step c (.step i .go) = some c' ∧ Sim f' c' := by
  refine ⟨_, coarse_step (by rw [h.crashed]; exact hcr) (h.calls.some i p hc) hmic, ?_⟩
  refine Sim.writer (i := i) (p' := p') hb ?_ ?_ ?_ ?_ hinv ?_ hp' hm
  · dsimp only; rw [hs]; exact h.calls.upd hc hcl
  · dsimp only; rw [hops]; exact h.ops
  · dsimp only; rw [hnext]; exact h.next
  · dsimp only; rw [hlog, h.log]
  · rw [hs]; exact upd_self _ _ _

theorem sim_stmt {f : St} {c : Broker.St} {i : Nat} {key : String} {p p' : Pos} {b' : Mem} {evs : List Ev}
    (h : Sim f c) (hinv : LockInv f) (hwf : WfInv f) (hcr : f.b.crashed = false) (hc : f.calls i = some p)
    (hm : stmt f.b i f.next key p = some (b', p', evs)) (f' : St)
    (hf : f' = { f with b := b', calls := upd (starts f.calls p) i (some p'), next := f.next + claims p, log := f.log ++ evs })
    (hinv' : LockInv f') :
    Sim f' c ∨ ∃ c', Broker.step c (.step i .go) = some c' ∧ Sim f' c' := by
  have hw := hwf i p hc
  have hmid := h.mid i p hc
  have hex := h.exit
  have hcl := h.closed
  have hbb := h.b
  cases p <;> simp only [stmt, reduceCtorEq] at hm <;> (try replace hmid := hmid rfl) <;> (try dsimp only [Mid] at hmid)
  case chk pc =>
    cases hm
    right
    have hrd : clsAt f.calls i = .reading := (clsAt_some hc :)
    have he := h.eqg fun j => hinv.reader hrd
    have hmic : Broker.micro c.b i pc .go = some (c.b, check f.b.connected pc, [], none) := by
      rw [he.connected]
      cases pc <;> simp only [Wf, sect, reduceCtorEq, Option.some.injEq] at hw <;> rfl
    refine ⟨_, coarse_step (by rw [h.crashed]; exact hcr) (h.calls.some i _ hc) hmic, ?_⟩
    subst hf
    refine ⟨hbb, h.calls.upd hc rfl, h.ops, h.next, by dsimp only; rw [h.log], ?_, fun _ => he⟩
    intro j q hj hq
    have hj : upd f.calls i (some (.rEnd (check f.b.connected pc))) j = some q := hj
    by_cases hji : j = i
    · subst hji; rw [upd_self] at hj; cases hj; cases hq
    · rw [upd_ne _ _ hji] at hj
      exact (hinv.reader (j := j) hrd (by rw [clsAt_some hj, hq])).elim
  case open1 ctx =>
    cases hm; subst hf
    exact .inl (sim_stay h hinv' hc rfl rfl rfl rfl rfl rfl rfl (by simp) ⟨rfl, hmid.subs, hmid.topics, hmid.ctl⟩)
  case open2 ctx =>
    cases hm; subst hf
    right
    refine ⟨_, coarse_spawn (by rw [h.crashed]; exact hcr) (h.calls.some i _ hc) rfl, ?_⟩
    refine Sim.writer (i := i) ?_ ?_ h.ops (by simp [claims, h.next]) (by simp [h.log]) hinv' (upd_self _ _ _) rfl ?_
    · dsimp only; rw [hbb]; rfl
    · dsimp only [starts]
      rw [h.next]
      refine h.calls.opening hc (hinv.num.calls _ (Nat.le_refl _)) fun j q ctx' hj hq => ?_
      exact absurd (hinv.num.claim j q ctx' _ hj hq).1 (Nat.lt_irrefl _)
    · exact ⟨hmid.1, rfl, hmid.2.1, hmid.2.2.1, hmid.2.2.2, rfl⟩
  case open3 ctx n =>
    cases hm; subst hf
    exact .inl (sim_stay h hinv' hc rfl rfl rfl rfl rfl rfl rfl (by simp)
      ⟨by rw [hmid.2.1]; exact hmid.1, hmid.2.2.1, hmid.2.2.2.1, hmid.2.2.2.2.2.symm⟩)
  case open4 ctx n =>
    cases hm; subst hf
    left
    refine Sim.writer (i := i) hbb ?_ h.ops h.next (by simp [h.log]) hinv' (upd_self _ _ _) rfl hmid
    refine h.calls.opened hc fun j q hj hq => hinv.writer hc rfl hj ?_
    cases q <;> first | rfl | exact (hq rfl).elim
  case close1 pc =>
    cases hm; subst hf
    rcases Bool.eq_false_or_eq_true (f.b.connected) with hcn | hcn
    · skip
      left
      refine sim_stay h hinv' hc ?_ rfl rfl ?_ ?_ rfl rfl (by simp) ?_ <;> simp only [hcn, if_true]
      · rfl
      · rfl
      · rfl
      · exact ⟨hmid, hcn⟩
    · skip
      right
      have hcc : c.b.connected = false := by rw [← hmid.connected]; exact hcn
      refine sim_commit h hinv' hcr hc (b' := c.b) (evs := []) ?_ ?_ hbb rfl ?_ rfl rfl rfl ?_ <;>
        simp only [hcn, Bool.false_eq_true, if_false]
      · rfl
      · rcases hw with rfl | rfl | rfl <;> simp [abs, Broker.micro, Mem.close, hcc]
      · rfl
      · exact hmid
  case close2 pc =>
    obtain ⟨he, hcn⟩ := hmid
    have hcc : c.b.connected = true := by rw [← he.connected]; exact hcn
    right
    have hmic : Broker.micro c.b i (abs (.close2 pc)) .go = some ((c.b.close i).1, .done .nil, (c.b.close i).2, none) := by
      rcases hw with rfl | rfl | rfl <;> rfl
    split at hm
    · next hx =>
      cases hm; subst hf
      have hcx : c.b.close i = ({ c.b with crashed := true }, []) := by simp [Mem.close, hcc, hex, hx]
      rw [hcx] at hmic
      exact sim_commit (p' := .wEnd (.done .nil)) (evs := []) (b' := { c.b with crashed := true }) h hinv' hcr hc rfl hmic (by rw [hbb]; rfl) rfl rfl rfl rfl rfl ⟨he.connected, he.subs, he.topics, he.ctl⟩
    · next e hx =>
      split at hm
      · next hcle =>
        cases hm; subst hf
        have hcx : c.b.close i = ({ c.b with crashed := true }, []) := by simp [Mem.close, hcc, hex, hx, hcl, hcle]
        rw [hcx] at hmic
        exact sim_commit (p' := .wEnd (.done .nil)) (evs := []) (b' := { c.b with crashed := true }) h hinv' hcr hc rfl hmic (by rw [hbb]; rfl) rfl rfl rfl rfl rfl ⟨he.connected, he.subs, he.topics, he.ctl⟩
      · next hcle =>
        cases hm; subst hf
        have hcx : c.b.close i = ({ c.b with
            closed := upd c.b.closed e true, subs := GoMap.empty, topics := clear c.b.subs c.b.topics,
            connected := false }, [.closed i]) := by
          simp [Mem.close, hcc, hex, hx, hcl, hcle, clear]
        rw [hcx] at hmic
        refine sim_commit (p' := .close3) (evs := [.closed i]) (b' := { c.b with
          closed := upd c.b.closed e true, subs := GoMap.empty, topics := clear c.b.subs c.b.topics, connected := false })
          h hinv' hcr hc rfl hmic (by rw [hbb]; rfl) rfl rfl rfl rfl rfl ⟨rfl, rfl, ?_, he.ctl⟩
        show clear c.b.subs c.b.topics = clear f.b.subs f.b.topics
        rw [he.subs, he.topics]
  case close3 =>
    left
    obtain ⟨h1, h2, h3, h4⟩ := hmid
    split at hm
    · next hx =>
      cases hm; subst hf
      refine sim_stay h hinv' hc rfl rfl rfl rfl rfl rfl rfl (by simp) ⟨h1, ?_, ?_, h4⟩
      · rw [h2]; exact empty_of hx
      · rw [h3, empty_of hx]; rfl
    · split at hm
      · next hk =>
        cases hm; subst hf
        exact sim_stay h hinv' hc rfl rfl rfl rfl rfl rfl rfl (by simp) ⟨h1, h2, h3, h4, hk⟩
      · cases hm
  case close4 t =>
    left
    obtain ⟨h1, h2, h3, h4, h5⟩ := hmid
    split at hm
    · next hx => rw [hx] at h5; cases h5
    · next inner hx =>
      split at hm
      · cases hm; subst hf
        exact sim_stay h hinv' hc rfl rfl rfl rfl rfl rfl rfl (by simp) ⟨h1, h2, h3, h4, h5⟩
      · split at hm
        · cases hm; subst hf
          refine sim_stay h hinv' hc rfl rfl rfl rfl rfl rfl rfl (by simp) ⟨h1, h2, ?_, h4, ?_⟩
          · dsimp only; rw [clear_set h5]; exact h3
          · dsimp only; rw [GoMap.get?_set_self]; rfl
        · cases hm
  case close5 t =>
    left
    obtain ⟨h1, h2, h3, h4, h5⟩ := hmid
    cases hm; subst hf
    refine sim_stay h hinv' hc rfl rfl rfl rfl rfl rfl rfl (by simp) ⟨h1, h2, ?_, h4⟩
    dsimp only; rw [clear_del h5]; exact h3
  case close6 t =>
    left
    cases hm; subst hf
    exact sim_stay h hinv' hc rfl rfl rfl rfl rfl rfl rfl (by simp) hmid
  case close7 =>
    left
    obtain ⟨h1, h2, h3, h4⟩ := hmid
    cases hm; subst hf
    exact sim_stay h hinv' hc rfl rfl rfl rfl rfl rfl rfl (by simp) ⟨h1.symm, h2, h3, h4⟩
  case pub1 ctx t m =>
    split at hm
    · next q hq =>
      cases hm; subst hf
      right
      have hqq : c.b.queue i t = (c.b, q) := by unfold Mem.queue; rw [← hmid.topics, hq]
      refine sim_commit h hinv' hcr hc rfl (b' := c.b) (evs := []) ?_ hbb rfl rfl rfl rfl rfl hmid
      simp [abs, Broker.micro, hqq]
    · next hq =>
      cases hm; subst hf
      exact .inl (sim_stay h hinv' hc rfl rfl rfl rfl rfl rfl rfl (by simp) ⟨hmid, hq⟩)
  case pub2 ctx t m =>
    cases hm; subst hf
    exact .inl (sim_stay h hinv' hc rfl rfl rfl rfl rfl rfl rfl (by simp) ⟨hmid.1, hmid.2, by rw [hex]⟩)
  case pub3 ctx t m q =>
    cases hm; subst hf
    right
    obtain ⟨he, h1, rfl⟩ := hmid
    have hqq : c.b.queue i t = ({ c.b with topics := c.b.topics.set t ⟨i, c.b.exit⟩ }, ⟨i, c.b.exit⟩) := by
      unfold Mem.queue; rw [← he.topics, h1]
    refine sim_commit h hinv' hcr hc rfl (b' := { c.b with topics := c.b.topics.set t ⟨i, c.b.exit⟩ }) (evs := []) ?_ ?_
      rfl rfl rfl rfl rfl ⟨he.connected, he.subs, ?_, he.ctl⟩
    · simp [abs, Broker.micro, hqq]
    · rw [hbb]; rfl
    · dsimp only; rw [he.topics]
  case sub1 t u =>
    left
    split at hm
    · next q hq =>
      cases hm; subst hf
      have hqq : c.b.queue i t = (c.b, q) := by unfold Mem.queue; rw [← hmid.topics, hq]
      refine sim_stay h hinv' hc rfl rfl rfl rfl rfl rfl rfl (by simp) ⟨hmid.connected, hmid.subs, hmid.ctl, ?_, ?_⟩
      · rw [hqq]; exact hmid.topics
      · rw [hqq]
    · next hq =>
      cases hm; subst hf
      exact sim_stay h hinv' hc rfl rfl rfl rfl rfl rfl rfl (by simp) ⟨hmid, hq⟩
  case sub2 t u =>
    cases hm; subst hf
    exact .inl (sim_stay h hinv' hc rfl rfl rfl rfl rfl rfl rfl (by simp) ⟨hmid.1, hmid.2, by rw [hex]⟩)
  case sub3 t u q =>
    cases hm; subst hf
    left
    obtain ⟨he, h1, rfl⟩ := hmid
    have hqq : c.b.queue i t = ({ c.b with topics := c.b.topics.set t ⟨i, c.b.exit⟩ }, ⟨i, c.b.exit⟩) := by
      unfold Mem.queue; rw [← he.topics, h1]
    refine sim_stay h hinv' hc rfl rfl rfl rfl rfl rfl rfl (by simp) ⟨he.connected, he.subs, he.ctl, ?_, ?_⟩
    · rw [hqq]; dsimp only; rw [he.topics]
    · rw [hqq]
  case sub4 t u q =>
    cases hm; subst hf
    right
    obtain ⟨h1, h2, h3, h4, h5⟩ := hmid
    have hqs : (c.b.queue i t).1 = { c.b with topics := (c.b.queue i t).1.topics } := by
      unfold Mem.queue; split <;> rfl
    refine sim_commit h hinv' hcr hc rfl (p' := .sub5 t u) (b' := { c.b with
      topics := f.b.topics, sub := upd c.b.sub i (some ⟨u, t, true, q, c.b.ctl⟩),
      subs := c.b.subs.set t ((if (((c.b.subs.get? t).getD GoMap.empty).get? u).isNone then GoMap.empty
        else (c.b.subs.get? t).getD GoMap.empty).set u i) }) (evs := []) ?_ ?_
      rfl rfl rfl rfl rfl ⟨h1, rfl, h3, ?_⟩
    · simp only [abs, Broker.micro]
      rw [hqs, h4, h5]
    · rw [hbb]
      simp only [put, h3]
    · dsimp only; rw [h2]
  case sub5 t u =>
    left
    obtain ⟨h1, h2, h3, h4⟩ := hmid
    cases hm; subst hf
    rcases Bool.eq_false_or_eq_true ((((f.b.subs.get? t).getD GoMap.empty).get? u).isNone) with hx | hx
    · skip
      refine sim_stay h hinv' hc ?_ rfl rfl ?_ ?_ rfl rfl (by simp) ?_ <;> simp only [hx, if_true]
      · rfl
      · rfl
      · rfl
      · refine ⟨h1, h2, h3, ?_⟩
        rw [h4, if_pos hx]
    · skip
      refine sim_stay h hinv' hc ?_ rfl rfl ?_ ?_ rfl rfl (by simp) ?_ <;> simp only [hx, Bool.false_eq_true, if_false]
      · rfl
      · rfl
      · rfl
      · refine ⟨h1, h2, h3, ?_⟩
        cases hg : f.b.subs.get? t with
        | none => rw [hg] at hx; cases hx
        | some inner =>
          refine ⟨inner, rfl, ?_⟩
          rw [h4, hx, hg]; rfl
  case sub6 t u =>
    left
    obtain ⟨h1, h2, h3, h4⟩ := hmid
    cases hm; subst hf
    refine sim_stay h hinv' hc rfl rfl rfl rfl rfl rfl rfl (by simp) ⟨h1, h2, h3, GoMap.empty, ?_, ?_⟩
    · exact GoMap.get?_set_self _ _ _
    · dsimp only; rw [set_set]; exact h4
  case sub7 t u =>
    left
    obtain ⟨h1, h2, h3, inner, h4, h5⟩ := hmid
    rw [h4] at hm
    cases hm; subst hf
    exact sim_stay h hinv' hc rfl rfl rfl rfl rfl rfl rfl (by simp) ⟨h1, h5.symm, h2, h3⟩
  case del1 ctx t u =>
    cases hm; subst hf
    rcases Bool.eq_false_or_eq_true ((f.b.subs.get? t).isSome) with hx | hx
    · skip
      left
      refine sim_stay h hinv' hc ?_ rfl rfl ?_ ?_ rfl rfl (by simp) ?_ <;> simp only [hx, if_true]
      · rfl
      · rfl
      · rfl
      · exact ⟨hmid, hx⟩
    · skip
      right
      have hg : c.b.subs.get? t = none := by rw [← hmid.subs]; simpa using hx
      refine sim_commit h hinv' hcr hc (b' := c.b) (evs := []) ?_ ?_ hbb rfl ?_ rfl rfl rfl ?_ <;>
        simp only [hx, Bool.false_eq_true, if_false]
      · rfl
      · simp [abs, Broker.micro, hg]
      · rfl
      · exact hmid
  case del2 ctx t u =>
    cases hm; subst hf
    right
    obtain ⟨he, h1⟩ := hmid
    obtain ⟨inner, hg⟩ := Option.isSome_iff_exists.mp h1
    have hg' : c.b.subs.get? t = some inner := by rw [← he.subs]; exact hg
    refine sim_commit h hinv' hcr hc rfl (b' := { c.b with subs := c.b.subs.set t (inner.del u) }) (evs := []) ?_ ?_
      rfl rfl rfl rfl rfl ⟨he.connected, ?_, he.topics, he.ctl⟩
    · simp [abs, Broker.micro, hg']
    · rw [hbb]; rfl
    · dsimp only; rw [hg, he.subs]; rfl

end Netscrape.BrokerLock
