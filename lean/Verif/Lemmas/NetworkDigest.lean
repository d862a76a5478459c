import Verif.Lemmas.Network
import Verif.Lemmas.DigestStop

/-!
# What a `Digest` that is alone on its topic hands to its handler
-/

namespace Netscrape.Network
open Netscrape.Broker Netscrape.Digest
open Netscrape.Spec Netscrape.Spec.Broker Netscrape.Spec.Network

theorem onTopic_inj {ops : Nat → Option Op} {ch : Nat} {t t' : String} (h : OnTopic ops ch t)
    (h' : OnTopic ops ch t') : t = t' := by
  rcases h with ⟨_, _, h⟩ | ⟨_, h⟩ <;> rcases h' with ⟨_, _, h'⟩ | ⟨_, h'⟩ <;> rw [h] at h' <;> cases h' <;> rfl

/-- What one call of `Receive` took and handed over. -/
theorem recv_cases {cap : Int} {s : Broker.St} (h : Reach cap Any s) {r ctx x : Nat}
    (ho : s.ops r = some (.receive ctx x)) :
    (tookBy r s.log = [] ∧ handledBy r s.log = []) ∨
    (∃ p m, tookBy r s.log = [p] ∧ handledBy r s.log = [m]) ∨
    (∃ p, tookBy r s.log = [p] ∧ handledBy r s.log = [] ∧ ∀ v, Ev.ret r v ∈ s.log → v = .timeout) := by
  have hl := h.toLog.1
  have hdone : ∀ v, DoneLog s.log r v → (∀ v', Ev.ret r v' ∈ s.log → v' = v) →
      (tookBy r s.log = [] ∧ handledBy r s.log = []) ∨
      (∃ p m, tookBy r s.log = [p] ∧ handledBy r s.log = [m]) ∨
      (∃ p, tookBy r s.log = [p] ∧ handledBy r s.log = [] ∧ ∀ v, Ev.ret r v ∈ s.log → v = .timeout) := by
    intro v hv hu
    rcases hv.took with ⟨h1, h2, -⟩ | ⟨p, m, h1, h2, -⟩ | ⟨p, h1, h2, h3⟩
    · exact .inl ⟨h1, h2⟩
    · exact .inr (.inl ⟨p, m, h1, h2⟩)
    · exact .inr (.inr ⟨p, h1, h2, fun v' hv' => by rw [hu v' hv', h3]⟩)
  rcases h.pending r _ ho with hc | ⟨v, hv⟩
  · obtain ⟨pc, hpc⟩ := Option.isSome_iff_exists.mp hc
    have h1 := hl.calls r pc hpc
    have hno : ∀ v', Ev.ret r v' ∉ s.log := fun v' hv' => by
      rw [(hl.rets r v' hv').1] at hpc; cases hpc
    cases pc with
    | done v => exact hdone v h1 fun v' hv' => (hno v' hv').elim
    | handling m =>
      obtain ⟨-, p, h2, h3⟩ := h1
      exact .inr (.inl ⟨p, m, h2, h3⟩)
    | _ => exact .inl ⟨h1.2.1, h1.2.2⟩
  · exact hdone v (hl.rets r v hv).2 fun v' hv' => hl.rets1 r v' v hv' hv

/-- The messages handed over are those of the calls whose message was taken. -/
theorem pair_mem {cap : Int} {s : Broker.St} (h : Reach cap Any s) {r p : Nat} {m : Msg} {t : String}
    (hp : tookBy r s.log = [p]) (hm : handledBy r s.log = [m])
    (ht : ∀ ch q, Ev.took r ch q ∈ s.log → ∃ c m', s.ops q = some (.pub c t m')) :
    ∃ c, s.ops p = some (.pub c t m) := by
  have h1 : Ev.handle r m ∈ s.log := by
    have hm' : m ∈ handledBy r s.log := by rw [hm]; simp
    obtain ⟨e, he, h2⟩ := List.mem_filterMap.mp hm'
    cases e with
    | handle r' m' =>
      simp only at h2
      split at h2
      · cases h2; subst_vars; exact he
      · cases h2
    | _ => cases h2
  obtain ⟨q, ch, c, t', h2, h3⟩ := h.toLog.1.handle r m h1
  have hq : q ∈ tookBy r s.log := List.mem_filterMap.mpr ⟨_, h2, by simp⟩
  rw [hp, List.mem_singleton] at hq
  subst hq
  obtain ⟨c', m', h4⟩ := ht ch q h2
  rw [h3] at h4
  cases h4
  exact ⟨c, h3⟩

/-- Calls that have returned nil handed over all they took. -/
theorem allNil_pairs {cap : Int} {s : Broker.St} (h : Reach cap Any s) {t : String} {rs : List Nat}
    (ho : ∀ r ∈ rs, ∃ ctx x, s.ops r = some (.receive ctx x))
    (ht : ∀ r ∈ rs, ∀ ch q, Ev.took r ch q ∈ s.log → ∃ c m', s.ops q = some (.pub c t m'))
    (hn : AllNil s.log rs) :
    ∃ z : List (Nat × Msg), z.map Prod.fst = rs.flatMap (fun r => tookBy r s.log) ∧
      z.map Prod.snd = rs.flatMap (fun r => handledBy r s.log) ∧
      ∀ y ∈ z, ∃ c, s.ops y.1 = some (.pub c t y.2) := by
  induction rs with
  | nil => exact ⟨[], rfl, rfl, nofun⟩
  | cons r rs ih =>
    obtain ⟨z, h1, h2, h3⟩ := ih (fun r hr => ho r (List.mem_cons_of_mem _ hr))
      (fun r hr => ht r (List.mem_cons_of_mem _ hr)) (fun r hr => hn r (List.mem_cons_of_mem _ hr))
    obtain ⟨ctx, x, hor⟩ := ho r List.mem_cons_self
    simp only [List.flatMap_cons]
    rcases recv_cases h hor with ⟨h4, h5⟩ | ⟨p, m, h4, h5⟩ | ⟨p, h4, h5, h6⟩
    · rw [h4, h5]; exact ⟨z, h1, h2, h3⟩
    · rw [h4, h5]
      refine ⟨(p, m) :: z, by simp [h1], by simp [h2], ?_⟩
      intro y hy
      rcases List.mem_cons.mp hy with rfl | hy
      · exact pair_mem h h4 h5 (ht r List.mem_cons_self)
      · exact h3 y hy
    · cases h6 _ (hn r List.mem_cons_self)

/-- If nobody else receives on the topic, the messages handed over are the first ones on the channel. -/
theorem digest_pairs {cap : Int} {ctx x : Nat} {d : DSt} (h : DReach cap ctx x d) {t u : String}
    (hx : d.s.ops x = some (.sub t u))
    (honly : ∀ r c y w, d.s.ops r = some (.receive c y) → d.s.ops y = some (.sub t w) → r ∈ d.recvs)
    {o : Broker.Sub} (hox : d.s.b.sub x = some o) :
    OnTopic d.s.ops o.queue.msg t ∧ o.topic = t ∧ ∃ z : List (Nat × Msg),
      z.map Prod.fst <+: tookFrom o.queue.msg d.s.log ∧
      tookFrom o.queue.msg d.s.log <+: sentOn o.queue.msg d.s.log ∧
      (d.pos = .start → z.map Prod.fst = tookFrom o.queue.msg d.s.log) ∧
      z.map Prod.snd = handled d ∧ (∀ y ∈ z, ∃ c, d.s.ops y.1 = some (.pub c t y.2)) ∧
      ∀ r ∈ d.recvs, handledBy r d.s.log ≠ [] → ∀ p ∈ tookBy r d.s.log, p ∈ z.map Prod.fst := by
  have hr := h.reach
  have hin := h.inv
  have hl := hr.toLog.1
  obtain ⟨h1, h2⟩ := hr.toInv.mem.subs x o hox
  rw [hx] at h1
  have hto : t = o.topic := by injection h1 with h1; injection h1
  rw [← hto] at h2
  have hch : ∀ r ∈ d.recvs, ∀ c p, Ev.took r c p ∈ d.s.log → c = o.queue.msg := by
    intro r hm c p he
    obtain ⟨ctx', x', o', g1, g2, g3⟩ := hr.took r c p he
    rw [hin.ops r hm] at g1; cases g1
    rw [hox] at g2; cases g2
    exact g3.symm
  have htopic : ∀ r ∈ d.recvs, ∀ c q, Ev.took r c q ∈ d.s.log → ∃ c' m', d.s.ops q = some (.pub c' t m') := by
    intro r hm c q he
    obtain ⟨c1, x1, t1, u1, c2, m, g1, g2, g3, -⟩ := hl.took r c q he
    rw [hin.ops r hm] at g1; cases g1
    rw [hx] at g2; cases g2
    exact ⟨c2, m, g3⟩
  have htook : d.recvs.flatMap (fun r => tookBy r d.s.log) = tookFrom o.queue.msg d.s.log := by
    rw [← hin.took]
    unfold tookByAny tookFrom
    refine filterMap_ext ?_
    intro e he
    cases e with
    | took r c p =>
      simp only
      have : r ∈ d.recvs ↔ c = o.queue.msg := by
        constructor
        · exact fun hm => hch r hm c p he
        · rintro rfl
          obtain ⟨c1, x1, t1, u1, c2, m, g1, g2, g3, g4⟩ := hl.took r _ p he
          cases onTopic_inj g4 h2
          exact honly r c1 x1 u1 g1 g2
      simp only [this]
    | _ => rfl
  refine ⟨h2, hto.symm, ?_⟩
  have hpre := hr.order o.queue.msg _ (List.prefix_refl _)
  have hops : ∀ rs : List Nat, (∀ r ∈ rs, r ∈ d.recvs) → ∀ r ∈ rs, ∃ c y, d.s.ops r = some (.receive c y) :=
    fun rs hs r hm => ⟨ctx, x, hin.ops r (hs r hm)⟩
  have hall : AllNil d.s.log d.recvs → ∃ z : List (Nat × Msg),
      z.map Prod.fst <+: tookFrom o.queue.msg d.s.log ∧
      tookFrom o.queue.msg d.s.log <+: sentOn o.queue.msg d.s.log ∧
      (d.pos = .start → z.map Prod.fst = tookFrom o.queue.msg d.s.log) ∧
      z.map Prod.snd = handled d ∧ (∀ y ∈ z, ∃ c, d.s.ops y.1 = some (.pub c t y.2)) ∧
      ∀ r ∈ d.recvs, handledBy r d.s.log ≠ [] → ∀ p ∈ tookBy r d.s.log, p ∈ z.map Prod.fst := by
    intro hn
    obtain ⟨z, g1, g2, g3⟩ := allNil_pairs hr (hops _ fun _ h => h) htopic hn
    have g4 : ∀ r ∈ d.recvs, handledBy r d.s.log ≠ [] → ∀ p ∈ tookBy r d.s.log, p ∈ z.map Prod.fst :=
      fun r hm _ p hp => by rw [g1]; exact List.mem_flatMap.mpr ⟨r, hm, hp⟩
    rw [htook] at g1
    exact ⟨z, g1 ▸ List.prefix_refl _, hpre, fun _ => g1, g2, g3, g4⟩
  have hlast : ∀ cs r, d.recvs = cs ++ [r] → AllNil d.s.log cs → d.pos ≠ .start → ∃ z : List (Nat × Msg),
      z.map Prod.fst <+: tookFrom o.queue.msg d.s.log ∧
      tookFrom o.queue.msg d.s.log <+: sentOn o.queue.msg d.s.log ∧
      (d.pos = .start → z.map Prod.fst = tookFrom o.queue.msg d.s.log) ∧
      z.map Prod.snd = handled d ∧ (∀ y ∈ z, ∃ c, d.s.ops y.1 = some (.pub c t y.2)) ∧
      ∀ r ∈ d.recvs, handledBy r d.s.log ≠ [] → ∀ p ∈ tookBy r d.s.log, p ∈ z.map Prod.fst := by
    intro cs r hrs hn hp
    have hmem : ∀ r' ∈ cs, r' ∈ d.recvs := fun r' hm => by rw [hrs]; simp [hm]
    obtain ⟨z, g1, g2, g3⟩ := allNil_pairs hr (hops _ hmem) (fun r' hm => htopic r' (hmem r' hm)) hn
    have hrm : r ∈ d.recvs := by rw [hrs]; simp
    have k0 : tookFrom o.queue.msg d.s.log = z.map Prod.fst ++ tookBy r d.s.log := by
      rw [← htook, hrs, List.flatMap_append, List.flatMap_singleton, g1]
    have k3 : handled d = z.map Prod.snd ++ handledBy r d.s.log := by
      unfold handled
      rw [hrs, List.flatMap_append, List.flatMap_singleton, g2]
    have g4 : ∀ r' ∈ cs, ∀ p ∈ tookBy r' d.s.log, p ∈ z.map Prod.fst :=
      fun r' hm p hp => by rw [g1]; exact List.mem_flatMap.mpr ⟨r', hm, hp⟩
    have g5 : ∀ r' ∈ d.recvs, r' ∈ cs ∨ r' = r := fun r' hm => by
      rw [hrs] at hm
      exact (List.mem_append.mp hm).imp_right List.mem_singleton.mp
    have g6 : handledBy r d.s.log = [] → ∀ r' ∈ d.recvs, handledBy r' d.s.log ≠ [] →
        ∀ p ∈ tookBy r' d.s.log, p ∈ z.map Prod.fst := by
      intro h0 r' hm hh p hp
      rcases g5 r' hm with hm | rfl
      · exact g4 r' hm p hp
      · exact (hh h0).elim
    rcases recv_cases hr (hin.ops r hrm) with ⟨k1, k2⟩ | ⟨p, m, k1, k2⟩ | ⟨p, k1, k2, -⟩
    · exact ⟨z, by rw [k0]; exact List.prefix_append _ _, hpre, fun hs => (hp hs).elim,
        by rw [k3, k2, List.append_nil], g3, g6 k2⟩
    · refine ⟨z ++ [(p, m)], by rw [k0, k1]; simp, hpre, fun hs => (hp hs).elim, by rw [k3, k2]; simp, ?_, ?_⟩
      · intro y hy
        rcases List.mem_append.mp hy with hy | hy
        · exact g3 y hy
        · cases List.mem_singleton.mp hy
          exact pair_mem hr k1 k2 (htopic r hrm)
      · intro r' hm _ q hq
        rw [List.map_append]
        rcases g5 r' hm with hm | rfl
        · exact List.mem_append_left _ (g4 r' hm q hq)
        · rw [k1] at hq
          cases List.mem_singleton.mp hq
          simp
    · exact ⟨z, by rw [k0]; exact List.prefix_append _ _, hpre, fun hs => (hp hs).elim,
        by rw [k3, k2, List.append_nil], g3, g6 k2⟩
  have h3 := hin.pos
  match hp : d.pos with
  | .start => rw [hp] at h3 hall; exact hall h3
  | .waiting r =>
    rw [hp] at h3 hlast
    obtain ⟨cs, g1, g2⟩ := h3
    exact hlast cs r g1 g2 nofun
  | .returned v =>
    rw [hp] at h3 hlast
    obtain ⟨cs, r, g1, g2, -⟩ := h3
    exact hlast cs r g1 g2 nofun

end Netscrape.Network
