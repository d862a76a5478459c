import Verif.Lemmas.DigestLock
import Verif.Lemmas.DigestDrain

/-!
# What `Digest` does on the coarse broker, carried over; executions without end
-/

namespace Netscrape.DigestLock
open Netscrape.BrokerLock hiding Pos
open Netscrape.Broker (Ev Ret Alt Mem PC)
open Netscrape.Conc (upd upd_self upd_ne)
open Netscrape.Digest (Pos retOf)

theorem delivered_iff {f : DSt} {c : Digest.DSt} (h : DSim f c) (p : Nat) : Digest.Delivered p c ↔ Delivered p f := by
  unfold Digest.Delivered Delivered
  rw [h.s.log, h.recvs]

theorem ended_iff {f : St} {c : Broker.St} (h : Sim f c) (x : Nat) : Digest.Ended x c ↔ Ended x f := by
  unfold Digest.Ended Ended
  rw [h.log, h.ops]

theorem undisturbed_iff {f : St} {c : Broker.St} (h : Sim f c) (ctx x : Nat) :
    Digest.Undisturbed ctx x c ↔ Undisturbed ctx x f := by
  unfold Digest.Undisturbed Undisturbed
  have hd : c.b.done = f.b.done := by rw [h.b]; rfl
  have hc : ∀ e, c.b.isClosed e = f.b.isClosed e := by
    intro e
    rw [h.b]
    exact put_isClosed _ _ e
  rw [h.ops, sub_eq h, hd]
  simp only [hc]

/-- `d` came before `e`. -/
structure Early (ctx x : Nat) (d e : DSt) : Prop where
  ops : ∀ i op, d.s.ops i = some op → e.s.ops i = some op
  next : d.s.next ≤ e.s.next
  recvs : ∀ r ∈ e.recvs, r ∈ d.recvs ∨ d.s.next ≤ r
  quiet : Undisturbed ctx x e.s → Undisturbed ctx x d.s

theorem Early.refl (ctx x : Nat) (d : DSt) : Early ctx x d d := ⟨fun _ _ h => h, Nat.le_refl _, fun _ h => .inl h, id⟩

theorem Early.trans {ctx x : Nat} {d e g : DSt} (h : Early ctx x d e) (h' : Early ctx x e g) : Early ctx x d g := by
  refine ⟨fun i op ho => h'.ops i op (h.ops i op ho), Nat.le_trans h.next h'.next, fun r hr => ?_, h.quiet ∘ h'.quiet⟩
  rcases h'.recvs r hr with h1 | h1
  · exact h.recvs r h1
  · exact .inr (Nat.le_trans h.next h1)

theorem early_step {cap : Int} {ctx x : Nat} {d d' : DSt} {a : DAct} (hd : DReach cap ctx x d)
    (hs : dstep ctx x d a = some d') : Early ctx x d d' := by
  obtain ⟨c, hc, h⟩ := hd.sim
  rcases dsim_step h hd hc hs with ⟨h1, _⟩ | ⟨a', c', h1, h2, _⟩
  · refine ⟨?_, ?_, ?_, ?_⟩
    · rw [← h.s.ops, ← h1.s.ops]; exact fun _ _ h => h
    · rw [← h.s.next, ← h1.s.next]; exact Nat.le_refl _
    · rw [← h.recvs, ← h1.recvs]; exact fun _ h => .inl h
    · rw [← undisturbed_iff h.s, ← undisturbed_iff h1.s]; exact id
  · have he := Digest.early_step hc h1
    refine ⟨?_, ?_, ?_, ?_⟩
    · rw [← h.s.ops, ← h2.s.ops]; exact he.1
    · rw [← h.s.next, ← h2.s.next]; exact he.2.1
    · rw [← h.recvs, ← h2.recvs, ← h.s.next]; exact he.2.2
    · rw [← undisturbed_iff h.s, ← undisturbed_iff h2.s, Digest.undisturbed_iff, Digest.undisturbed_iff]
      have := (Digest.dexec_keeps (acts := [a']) (d' := c') hc (by simp only [Digest.dexec, h1])).2.2.1
      exact fun hn hr => hn (this hr)

theorem fair_reach {cap : Int} {ctx x : Nat} {f : Nat → DSt} {acts : Nat → DAct} (hd : DReach cap ctx x (f 0))
    (hf : ∀ n, dstep ctx x (f n) (acts n) = some (f (n + 1))) : ∀ n, DReach cap ctx x (f n)
  | 0 => hd
  | n + 1 => .step _ _ _ (fair_reach hd hf n) (hf n)

theorem fair_early {cap : Int} {ctx x : Nat} {f : Nat → DSt} {acts : Nat → DAct} (hd : DReach cap ctx x (f 0))
    (hf : ∀ n, dstep ctx x (f n) (acts n) = some (f (n + 1))) (n : Nat) : ∀ k, Early ctx x (f n) (f (n + k))
  | 0 => .refl _ _ _
  | k + 1 => (fair_early hd hf n k).trans (early_step (fair_reach hd hf (n + k)) (hf (n + k)))

/-- A message on the channel is delivered after enough steps. -/
theorem drains {cap : Int} {ctx x p : Nat} {d d' : DSt} {c : Digest.DSt} {o : Broker.Sub} {acts : List DAct}
    (hd : DReach cap ctx x d) (hc : Digest.DReach cap ctx x c) (h : DSim d c) (hx : d.s.b.sub x = some o)
    (hp : p ∈ Spec.Broker.sentOn o.queue.msg d.s.log) (he : dexec ctx x d acts = some d') (hq : Undisturbed ctx x d'.s)
    (hk : Digest.dist o.queue.msg p c < ownSteps ctx x d acts) : Delivered p d' ∨ ∃ v, d'.pos = .returned v := by
  obtain ⟨acts', c', h1, h2, h3⟩ := dexec_sim h hd hc he
  apply Classical.byContradiction
  intro hno
  have := Digest.dist_exec (p := p) (o := o) hc (by rw [sub_eq h.s]; exact hx) (by rw [h.s.log]; exact hp) h1
    (Digest.undisturbed_iff.mp ((undisturbed_iff h2.s _ _).mpr hq))
    (fun hd => hno (.inl ((delivered_iff h2 p).mp hd)))
    (fun v hv => hno (.inr ⟨v, by rw [← h2.pos]; exact hv⟩))
  rw [h3] at this
  omega

/-- In an undisturbed fair execution a message on the channel is delivered, or `Digest` returns. -/
theorem fair_drains {cap : Int} {ctx x p : Nat} {f : Nat → DSt} {acts : Nat → DAct} {o : Broker.Sub}
    (hd : DReach cap ctx x (f 0)) (hf : Fair ctx x f acts) (hq : ∀ n, Undisturbed ctx x (f n).s) {n : Nat}
    (hx : (f n).s.b.sub x = some o) (hp : p ∈ Spec.Broker.sentOn o.queue.msg (f n).s.log) :
    ∃ N, n ≤ N ∧ (Delivered p (f N) ∨ ∃ v, (f N).pos = .returned v) := by
  have hdn := fair_reach hd hf.step n
  obtain ⟨c, hc, h⟩ := hdn.sim
  rcases fair_own hf n (Digest.dist o.queue.msg p c + 1) with ⟨N, v, h1, h2⟩ | ⟨k, hk⟩
  · exact ⟨N, h1, .inr ⟨v, h2⟩⟩
  · exact ⟨n + k, Nat.le_add_right _ _, drains hdn hc h hx hp (window_exec hf.step k n) (hq _) (by omega)⟩

/-- A run in which `Digest` returns is the beginning of a fair execution. -/
theorem fair_run {cap : Int} {ctx x c : Nat} (hc : ctx ≠ c) : ∀ {l : List DAct} {d e : DSt},
    DReach cap ctx x d → dexec ctx x d l = some e → (∃ v, e.pos = .returned v) → e.s.b.crashed = false →
    Undisturbed ctx x e.s → ∃ f acts, f 0 = d ∧ Fair ctx x f acts ∧
      (∀ n, Undisturbed ctx x (f n).s ∧ (∀ i op, (f n).s.ops i = some op → e.s.ops i = some op) ∧
        ∀ r ∈ e.recvs, r ∈ (f n).recvs ∨ (f n).s.next ≤ r) ∧ ∃ n, f n = e := by
  intro l
  induction l with
  | nil =>
    rintro d e hd h ⟨v, hv⟩ hn hq
    cases h
    let f : Nat → DSt := fun n => Nat.rec d (fun _ d => { d with s := { d.s with b := { d.s.b with done := upd d.s.b.done c true } } }) n
    have hf : ∀ n, (f n).pos = .returned v ∧ (f n).s.b.crashed = false ∧ Undisturbed ctx x (f n).s ∧
        (f n).s.ops = d.s.ops ∧ (f n).recvs = d.recvs := by
      intro n
      induction n with
      | zero => exact ⟨hv, hn, hq, rfl, rfl⟩
      | succ n ih =>
        refine ⟨ih.1, ih.2.1, ⟨?_, ih.2.2.1.2.1, ih.2.2.1.2.2⟩, ih.2.2.2⟩
        show upd (f n).s.b.done c true ctx = false
        rw [upd_ne _ _ hc]
        exact ih.2.2.1.1
    refine ⟨f, fun _ => .sys (.cancel c), rfl, ⟨fun n => ?_, fun n => .inl ⟨v, (hf n).1⟩⟩, fun n =>
      ⟨(hf n).2.2.1, fun i op h => by rwa [(hf n).2.2.2.1] at h, fun r h => .inl (by rwa [(hf n).2.2.2.2])⟩, 0, rfl⟩
    have : step (f n).s (.cancel c) =
        some { (f n).s with b := { (f n).s.b with done := upd (f n).s.b.done c true } } := by
      unfold step
      rw [(hf n).2.1]; rfl
    simp only [dstep, this]
    rfl
  | cons a l ih =>
    intro d e hd h hv hn hq
    unfold dexec at h
    cases hs : dstep ctx x d a with
    | none => rw [hs] at h; cases h
    | some d1 =>
      rw [hs] at h
      obtain ⟨f, acts, h0, hf, hq1, N, hN⟩ := ih (.step _ _ _ hd hs) h hv hn hq
      refine ⟨fun | 0 => d | n + 1 => f n, fun | 0 => a | n + 1 => acts n, rfl, ⟨?_, ?_⟩, ?_, N + 1, hN⟩
      · intro n
        cases n with
        | zero => dsimp only; rw [h0]; exact hs
        | succ n => exact hf.step n
      · intro n
        cases n with
        | zero =>
          rcases hf.fair 0 with ⟨v, h1⟩ | ⟨m, _, h1⟩
          · rw [h0] at h1
            rcases dstep_cases hs with ⟨b, s', _, _, rfl⟩ | ⟨s', rfl, _, _, rfl⟩ | ⟨r, w, rfl, _, _, rfl⟩
            · exact .inl ⟨v, h1⟩
            · exact .inr ⟨0, Nat.le_refl _, trivial⟩
            · exact .inr ⟨0, Nat.le_refl _, trivial⟩
          · exact .inr ⟨m + 1, Nat.zero_le _, h1⟩
        | succ n =>
          rcases hf.fair n with h1 | ⟨m, h2, h1⟩
          · exact .inl h1
          · exact .inr ⟨m + 1, by omega, h1⟩
      · intro n
        cases n with
        | zero =>
          have he := early_step hd hs
          obtain ⟨q1, q2, q3⟩ := hq1 0
          rw [h0] at q1 q2 q3
          refine ⟨he.quiet q1, fun i op h => q2 i op (he.ops i op h), fun r h => ?_⟩
          rcases q3 r h with h | h
          · exact he.recvs r h
          · exact .inr (Nat.le_trans he.next h)
        | succ n => exact hq1 n

/-! ## A loop that never ends -/

/-- One of the cases of the `select` in `Receive` that returns nil is ready, and nothing else happens. -/
structure Idle (b : Mem) (ctx x : Nat) (alt : Alt) : Prop where
  up : b.crashed = false
  fresh : alt ≠ .stale
  active : ∃ o, b.sub x = some o ∧ o.active = true
  ready : ∀ i, Broker.micro b i (.recvSel ctx x) alt = some (b, .done .nil, [], none)

/-- What the loop does next. -/
def next (alt : Alt) (d : DSt) : DAct :=
  match d.pos with
  | .start => .receive
  | .returned _ => .resume
  | .waiting r =>
    match d.s.calls r with
    | some (.out (.recvChk _ _)) => .sys (.step r .go)
    | some (.out (.done _)) => .sys (.ret r)
    | some _ => .sys (.step r alt)
    | none => .resume

/-- The loop is where it can go on. -/
structure Spin (cap : Int) (ctx x : Nat) (alt : Alt) (d : DSt) : Prop where
  reach : DReach cap ctx x d
  idle : Idle d.s.b ctx x alt
  pos : d.pos = .start ∨ ∃ r, d.pos = .waiting r ∧ (d.s.calls r = some (.out (.recvChk ctx x)) ∨
    d.s.calls r = some (.out (.recvSel ctx x)) ∨ d.s.calls r = some (.out (.done .nil)) ∨
    (d.s.calls r = none ∧ retOf r d.s.log = some .nil))

theorem Spin.step {cap : Int} {ctx x : Nat} {alt : Alt} {d : DSt} (h : Spin cap ctx x alt d) :
    ∃ d', dstep ctx x d (next alt d) = some d' ∧ own d (next alt d) ∧ Spin cap ctx x alt d' := by
  obtain ⟨hr, hid, hpos⟩ := h
  obtain ⟨hn, hfr, ⟨o, hx, ha⟩, hready⟩ := hid
  have stepped : ∀ {r : Nat} {pc' : PC} {alt' : Alt} {pc : PC}, d.pos = .waiting r → d.s.calls r = some (.out pc) →
      next alt d = .sys (.step r alt') → sect pc = none → alt' ≠ .stale →
      Broker.micro d.s.b r pc alt' = some (d.s.b, pc', [], none) →
      (pc' = .recvSel ctx x ∨ pc' = .done .nil) →
      ∃ d', dstep ctx x d (next alt d) = some d' ∧ own d (next alt d) ∧ Spin cap ctx x alt d' := by
    intro r pc' alt' pc hp hc hnx hsn hst hm hpc
    have hs : dstep ctx x d (.sys (.step r alt')) =
        some { d with s := { d.s with calls := upd d.s.calls r (some (.out pc')), log := d.s.log ++ [] } } := by
      simp [dstep, BrokerLock.step, hn, hc, hm, hsn, hst]
    rw [hnx]
    refine ⟨_, hs, hp, .step _ _ _ hr hs, ⟨hn, hfr, ⟨o, hx, ha⟩, hready⟩, .inr ⟨r, hp, ?_⟩⟩
    dsimp only
    rw [upd_self]
    rcases hpc with rfl | rfl
    · exact .inr (.inl rfl)
    · exact .inr (.inr (.inl rfl))
  rcases hpos with hp | ⟨r, hp, hc | hc | hc | ⟨hc, hv⟩⟩
  · have hnx : next alt d = .receive := by simp only [next, hp]
    have hs : dstep ctx x d .receive =
        some ⟨{ d.s with calls := upd d.s.calls d.s.next (some (.out (.recvChk ctx x))),
                          ops := upd d.s.ops d.s.next (some (.receive ctx x)), next := d.s.next + 1,
                          log := d.s.log ++ [.call d.s.next] }, .waiting d.s.next, d.recvs ++ [d.s.next]⟩ := by
      simp only [dstep, hp, BrokerLock.step, hn, Mem.has, hx]; rfl
    rw [hnx]
    refine ⟨_, hs, trivial, .step _ _ _ hr hs, ⟨hn, hfr, ⟨o, hx, ha⟩, hready⟩, .inr ⟨_, rfl, .inl ?_⟩⟩
    exact upd_self _ _ _
  · exact stepped (alt' := .go) hp hc (by simp only [next, hp, hc]) rfl nofun
      (by simp only [Broker.micro, hx, ha]; rfl) (.inl rfl)
  · exact stepped hp hc (by simp only [next, hp, hc]) rfl hfr (hready r) (.inr rfl)
  · have hnx : next alt d = .sys (.ret r) := by simp only [next, hp, hc]
    have hs : dstep ctx x d (.sys (.ret r)) =
        some { d with s := { d.s with calls := upd d.s.calls r none, log := d.s.log ++ [.ret r .nil] } } := by
      simp only [dstep, BrokerLock.step, hn, hc]; rfl
    have hr' : DReach cap ctx x _ := .step _ _ _ hr hs
    rw [hnx]
    refine ⟨_, hs, hp, hr', ⟨hn, hfr, ⟨o, hx, ha⟩, hready⟩, .inr ⟨r, hp, .inr (.inr (.inr ⟨?_, ?_⟩))⟩⟩
    · exact upd_self _ _ _
    · obtain ⟨c, h1, h2⟩ := sim_any hr'.reach
      rw [← h2.log]
      exact Digest.retOf_eq h1 (by rw [h2.log]; exact List.mem_append_right _ (List.mem_singleton.mpr rfl))
  · have hnx : next alt d = .resume := by simp only [next, hp, hc]
    have hs : dstep ctx x d .resume = some { d with pos := .start } := by
      simp only [dstep, hp, hv]
    rw [hnx]
    exact ⟨_, hs, trivial, .step _ _ _ hr hs, ⟨hn, hfr, ⟨o, hx, ha⟩, hready⟩, .inl rfl⟩

/-- The run of the loop. -/
def loop (ctx x : Nat) (alt : Alt) (d : DSt) : Nat → DSt
  | 0 => d
  | n + 1 => (dstep ctx x (loop ctx x alt d n) (next alt (loop ctx x alt d n))).getD (loop ctx x alt d n)

theorem Spin.loop {cap : Int} {ctx x : Nat} {alt : Alt} {d : DSt} (h : Spin cap ctx x alt d) :
    ∀ n, Spin cap ctx x alt (DigestLock.loop ctx x alt d n)
  | 0 => h
  | n + 1 => by
    obtain ⟨d', h1, _, h2⟩ := (h.loop n).step
    show Spin cap ctx x alt ((dstep ctx x _ _).getD _)
    rw [h1]; exact h2

theorem Spin.run {cap : Int} {ctx x : Nat} {alt : Alt} {d : DSt} (h : Spin cap ctx x alt d) :
    ∃ (f : Nat → DSt) (acts : Nat → DAct), f 0 = d ∧
      ∀ n, dstep ctx x (f n) (acts n) = some (f (n + 1)) ∧ own (f n) (acts n) ∧ ∀ v, (f n).pos ≠ .returned v := by
  refine ⟨DigestLock.loop ctx x alt d, fun n => DigestLock.next alt (DigestLock.loop ctx x alt d n), rfl, fun n => ?_⟩
  have hn := h.loop n
  obtain ⟨d', h1, h2, _⟩ := hn.step
  refine ⟨?_, h2, ?_⟩
  · show _ = some ((dstep ctx x _ _).getD _)
    rw [h1]; rfl
  · intro v hv
    rcases hn.pos with hp | ⟨r, hp, _⟩ <;> rw [hp] at hv <;> cases hv

end Netscrape.DigestLock
