import Verif.Lemmas.DigestDrain
import Verif.Props.Network

/-!
# `Digest` gets to every message
-/

namespace Netscrape.Props
open Netscrape.Network Netscrape.Spec.Network Netscrape.Spec.Pipeline Netscrape.Spec.Store
open Netscrape.Broker (Msg Ev Op Act)
open Netscrape.Spec.Broker Netscrape.Digest

/-! ## C94 -/

/-- C94: let a message wait on the channel of `Digest`'s subscription, with `k` others before it. As long as the
context is not cancelled, nobody called `Unsubscribe`, and the session is not closed, after more than `6 k + 9` steps
of its own goroutine `Digest` has given the message to its handler, unless some other receiver took it or `Digest`
has returned. Until then `Digest` always can make a step, and not just by a timeout. So in every execution in which
it makes steps again and again the message is delivered, or `Digest` returns. -/
theorem c94_keeps_up {cap : Int} {ctx x : Nat} {d : DSt} (h : DReach cap ctx x d) {o : Broker.Sub}
    (hx : d.s.b.sub x = some o) {pre post : List Nat} {p : Nat}
    (hw : waiting o.queue.msg d.s.log = pre ++ p :: post) :
    (∀ acts d', dexec ctx x d acts = some d' → Undisturbed ctx x d'.s →
      6 * pre.length + 9 < ownSteps ctx x d acts → Delivered p d' ∨ ∃ v, d'.pos = .returned v) ∧
    (∀ acts d', dexec ctx x d acts = some d' → d'.s.b.crashed = false →
      Delivered p d' ∨ (∃ v, d'.pos = .returned v) ∨
      ∃ a d'', own d' a ∧ (∀ r, a ≠ .sys (.step r .timeout)) ∧ dstep ctx x d' a = some d'') ∧
    (∀ f acts, f 0 = d → Fair ctx x f acts → (∀ n, Undisturbed ctx x (f n).s) →
      ∃ n, Delivered p (f n) ∨ ∃ v, (f n).pos = .returned v) := by
  obtain ⟨hp, hle⟩ := ahead_le hw
  refine ⟨?_, ?_, ?_⟩
  · intro acts d' he hq hk
    apply Classical.byContradiction
    intro hno
    have := dist_exec h hx hp he (undisturbed_iff.mp hq) (fun hd => hno (.inl hd)) (fun v hv => hno (.inr ⟨v, hv⟩))
    have := dist_le o.queue.msg p d
    omega
  · intro acts d' he hn
    obtain ⟨hd', ⟨evs, hl⟩, _, hqe, _, _⟩ := dexec_keeps h he
    by_cases hnd : Delivered p d'
    · exact .inl hnd
    by_cases hv : ∃ v, d'.pos = .returned v
    · exact .inr (.inl hv)
    obtain ⟨o', hx'⟩ := Option.isSome_iff_exists.mp hd'.inv.sub
    exact .inr (.inr (can_drain hd' hn hx' (by
      rw [hqe o o' hx hx', hl, Broker.sentOn_append]; exact List.mem_append_left _ hp) hnd fun v h => hv ⟨v, h⟩))
  · rintro f acts rfl hf hq
    obtain ⟨n, _, h1⟩ := fair_drains h hf (fun n => undisturbed_iff.mp (hq n)) hx hp
    exact ⟨n, h1⟩

private def exBefore : DSt :=
  digesting 2 (opening ++ subscribe 2 "t" "u" ++ publish 3 "t" msgA ++ publish 4 "t" msgB)

private def exSteps : List DAct := digestOne 5 none ++ digestOne 6 none ++
  [.receive, .sys (.step 7 .go), .sys (.step 7 .timeout), .sys (.step 7 .go), .sys (.ret 7), .resume]

private def exAfter : DSt := drun 7 2 exBefore exSteps

private theorem exAfter_run : dexec 7 2 exBefore exSteps = some exAfter := by
  unfold exAfter drun
  have h : (dexec 7 2 exBefore exSteps).isSome = true := by decide +kernel
  obtain ⟨d, hd⟩ := Option.isSome_iff_exists.mp h
  rw [hd]; rfl

-- two messages wait; `Digest` handles both and then times out
example : DReach 2 7 2 exBefore ∧ exBefore.s.b.sub 2 = some ⟨"u", "t", true, ⟨2, some 0⟩, some 0⟩ ∧
    waiting 2 exBefore.s.log = [3] ++ 4 :: [] ∧
    ∃ f acts, f 0 = exBefore ∧ Fair 7 2 f acts ∧ (∀ n, Undisturbed 7 2 (f n).s) ∧
      ∃ n, takers 4 (f n).s.log = [6] ∧ handledBy 6 (f n).s.log = [msgB] := by
  have hd : DReach 2 7 2 exBefore := .init _ (Broker.reach_run rfl) (by decide)
  have hops : ∀ u x, exAfter.s.ops u ≠ some (.unsubscribe x) := by
    intro u x
    rcases u with _ | _ | _ | _ | _ | _ | _ | _ | u <;> exact fun h => nomatch h
  have hq : Undisturbed 7 2 exAfter.s := ⟨by decide +kernel, fun u => hops u 2, fun o ho => by
    cases ho; decide +kernel⟩
  obtain ⟨f, a, h0, hf, h1, n, hn⟩ := fair_run (c := 8) (by decide) hd exAfter_run ⟨.timeout, by decide +kernel⟩
    (by decide +kernel) (undisturbed_iff.mp hq)
  exact ⟨hd, rfl, by decide, f, a, h0, hf, fun n => undisturbed_iff.mpr (h1 n).1, n, by rw [hn]; decide +kernel,
    by rw [hn]; decide +kernel⟩

/-- C94: if whenever the broker is closed every topic has had a subscriber and no `Pub` or `Sub` is about to look up
its topic, the exit channel of a subscription is closed only by closing the broker after the subscription was
made. -/
theorem c94_undisturbed {cap : Int} {s : Broker.St} (h : Broker.Reach cap TidyClose s) {ctx x : Nat} (hd : s.b.done ctx = false)
    (hu : ∀ u, s.ops u ≠ some (.unsubscribe x)) (hc : ¬ ClosedAfter x s.log) : Undisturbed ctx x s := by
  refine ⟨hd, hu, fun o ho => ?_⟩
  rcases (Broker.reach_fresh h).subs x o ho with ⟨e, c, h1, h2, _⟩ | h1
  · rw [h1]; exact h2
  · exact (hc h1).elim

/-- C94, with what the pipeline does (C93): let everything published on a topic be ingested with its type and the
JSON marshaler (`src` says which call ingested what), and let `Digest`, alone on the topic, make steps again and
again, undisturbed. Then for every value whose `Ingest` was accepted there comes a time when a store, new at first
and filled by the handler, holds exactly the network described by a beginning of the values that reached the topic,
and that value is among them; unless `Digest` returns, or the values reach the topic in an order in which they
cannot be stored. -/
theorem c94_stored {cap : Int} {ctx x : Nat} {f : Nat → DSt} {acts : Nat → DAct} (h : DReach cap ctx x (f 0))
    (hf : Fair ctx x f acts) (hq : ∀ n, Undisturbed ctx x (f n).s) {t u : String}
    (hx : (f 0).s.ops x = some (.sub t u)) {src : Nat → Item}
    (hall : ∀ n p c m, (f n).s.ops p = some (.pub c t m) →
      Ingested (src p).1 (src p).2 c t m ∧ ValidValue (src p).1 (src p).2)
    (honly : ∀ n r c y w, (f n).s.ops r = some (.receive c y) → (f n).s.ops y = some (.sub t w) → r ∈ (f n).recvs)
    {n p c : Nat} {m : Msg} (hp : (f n).s.ops p = some (.pub c t m)) (hret : Ev.ret p .nil ∈ (f n).s.log)
    (hcx : ¬ ClosedAfter x (f n).s.log) (hcp : ¬ ClosedAfter p (f n).s.log) (hdc : (f n).s.b.done c = false) :
    ∃ N, n ≤ N ∧ ((∃ v, (f N).pos = .returned v) ∨
      ∃ ch ps, OnTopic (f N).s.ops ch t ∧ ps <+: sentOn ch (f N).s.log ∧ p ∈ ps ∧
        ∀ {d : Bool} {s₀ : Graph.St}, Start d s₀ →
          Orderly d ((sentOn ch (f N).s.log).map src) →
          nodes ((sentOn ch (f N).s.log).map src) ≤ 2 ^ 63 →
          ∀ l : List (Choice × Msg), l.map Prod.snd = handled (f N) →
            (∀ r ∈ results s₀ l, r = .ok ()) ∧ Holds d (ps.map src) (Network.run s₀ l)) := by
  have later : ∀ j k i op, (f j).s.ops i = some op → (f (j + k)).s.ops i = some op := by
    intro j k
    induction k with
    | zero => exact fun _ _ h => h
    | succ k ih =>
      exact fun i op h' => (dstep_grow (fair_keeps h hf.step 0 (j + k)).1 (hf.step (j + k))).1 i op (ih i op h')
  have hops : ∀ k i op, (f 0).s.ops i = some op → (f k).s.ops i = some op := by
    intro k i op h'
    have := later 0 k i op h'
    rwa [Nat.zero_add] at this
  have hdn := (fair_keeps h hf.step 0 n).1
  obtain ⟨o, hox⟩ := Option.isSome_iff_exists.mp hdn.inv.sub
  have hs := accepted_sent hdn.reach hox (hops n _ _ hx) hcx hp hret hcp hdc
  obtain ⟨N, hN, hdel⟩ := fair_drains h hf (fun n => undisturbed_iff.mp (hq n)) hox hs
  refine ⟨N, hN, hdel.symm.imp_right fun hdel => ?_⟩
  have hdN := (fair_keeps h hf.step 0 N).1
  have hxN := hops N _ _ hx
  obtain ⟨ch, ps, h1, h2, h3, _, h4⟩ := c93_digests hdN hxN (hall N) (honly N)
  refine ⟨ch, ps, h1, h2, ?_, h3⟩
  obtain ⟨r, hr, hh⟩ := hdel
  obtain ⟨e, he, h5⟩ := List.mem_filterMap.mp hr
  cases e with
  | took r' c' q =>
    simp only at h5
    split at h5
    · cases h5
      subst_vars
      obtain ⟨c1, x1, t1, u1, c2, m2, g1, g2, g3, _⟩ := hdN.reach.toLog.1.took _ _ _ he
      have hpN : (f N).s.ops q = some (.pub c t m) := by
        have := later n (N - n) _ _ hp
        rwa [show n + (N - n) = N from by omega] at this
      rw [hpN] at g3; cases g3
      have hrm := honly N r c1 x1 u1 g1 g2
      exact h4 r hrm (hh.resolve_right fun hn => hn hrm) q (List.mem_filterMap.mpr ⟨_, he, by simp⟩)
    · cases h5
  | _ => cases h5

/-! The example of C93: two entities and a link between them wait on the topic. -/

private def netSteps : List DAct := digestOne 6 none ++ digestOne 7 none ++ digestOne 8 none ++
  [.receive, .sys (.step 9 .go), .sys (.step 9 .timeout), .sys (.step 9 .go), .sys (.ret 9), .resume]

private def netAfter : DSt := drun 7 2 netBefore netSteps

private theorem netAfter_run : dexec 7 2 netBefore netSteps = some netAfter := by
  unfold netAfter drun
  have h : (dexec 7 2 netBefore netSteps).isSome = true := by decide +kernel
  obtain ⟨d, hd⟩ := Option.isSome_iff_exists.mp h
  rw [hd]; rfl

-- the link is accepted, everything is digested
example : ∃ f acts, DReach 5 7 2 (f 0) ∧ Fair 7 2 f acts ∧ (∀ n, Undisturbed 7 2 (f n).s) ∧
    (f 0).s.ops 2 = some (.sub "t" "u") ∧
    (∀ n p c m, (f n).s.ops p = some (.pub c "t" m) → Ingested (netItem p).1 (netItem p).2 c "t" m ∧
      ValidValue (netItem p).1 (netItem p).2) ∧
    (∀ n r c y w, (f n).s.ops r = some (.receive c y) → (f n).s.ops y = some (.sub "t" w) → r ∈ (f n).recvs) ∧
    (f 0).s.ops 5 = some (.pub 0 "t" (netMsg 5)) ∧ Ev.ret 5 .nil ∈ (f 0).s.log ∧
    ¬ ClosedAfter 2 (f 0).s.log ∧ ¬ ClosedAfter 5 (f 0).s.log ∧ (f 0).s.b.done 0 = false := by
  have hd : DReach 5 7 2 netBefore := .init _ (Broker.reach_run (by decide +kernel)) (by decide +kernel)
  have hops : ∀ u x, netAfter.s.ops u ≠ some (.unsubscribe x) := by
    intro u x
    rcases u with _ | _ | _ | _ | _ | _ | _ | _ | _ | _ | u <;> exact fun h => nomatch h
  have hq : Undisturbed 7 2 netAfter.s := ⟨by decide +kernel, fun u => hops u 2, fun o ho => by
    cases ho; decide +kernel⟩
  obtain ⟨f, a, h0, hf, h1, -⟩ := fair_run (c := 8) (by decide) hd netAfter_run ⟨.timeout, by decide +kernel⟩
    (by decide +kernel) (undisturbed_iff.mp hq)
  have hcl : ∀ j, Ev.closed j ∉ netBefore.s.log := by
    intro j hj
    have h : (netBefore.s.log.all fun | .closed _ => false | _ => true) = true := by decide +kernel
    cases List.all_eq_true.mp h _ hj
  have hca : ∀ i, ¬ ClosedAfter i netBefore.s.log := by
    rintro i ⟨j, a, b, c, h⟩
    exact hcl j (by rw [h]; simp)
  refine ⟨f, a, by rw [h0]; exact hd, hf, fun n => undisturbed_iff.mpr (h1 n).1, by rw [h0]; decide +kernel, ?_, ?_,
    by rw [h0]; decide +kernel, by rw [h0]; decide +kernel, by rw [h0]; exact hca 2, by rw [h0]; exact hca 5,
    by rw [h0]; decide +kernel⟩
  · intro n p c m hp
    have hp := (h1 n).2.1 _ _ hp
    rcases p with _ | _ | _ | _ | _ | _ | _ | _ | _ | _ | p
    · cases hp
    · cases hp
    · cases hp
    · cases hp; exact ⟨netItem_ingested (by decide +kernel), netItem_valid _⟩
    · cases hp; exact ⟨netItem_ingested (by decide +kernel), netItem_valid _⟩
    · cases hp; exact ⟨netItem_ingested (by decide +kernel), netItem_valid _⟩
    · cases hp
    · cases hp
    · cases hp
    · cases hp
    · cases hp
  · intro n r c y w hr hy
    have hlt : r < (f n).s.next := by
      have hdn := (fair_keeps (by rw [h0]; exact hd) hf.step 0 n).1
      rw [← Nat.not_le]
      intro hle
      rw [hdn.reach.toInv.ops r hle] at hr; cases hr
    have hre := (h1 n).2.1 _ _ hr
    have hm : r ∈ netAfter.recvs := by
      rcases r with _ | _ | _ | _ | _ | _ | _ | _ | _ | _ | r
      · cases hre
      · cases hre
      · cases hre
      · cases hre
      · cases hre
      · cases hre
      · decide +kernel
      · decide +kernel
      · decide +kernel
      · decide +kernel
      · cases hre
    exact ((h1 n).2.2.2 r hm).resolve_right (by omega)

end Netscrape.Props
