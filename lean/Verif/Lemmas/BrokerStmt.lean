import Verif.Lemmas.BrokerProgress
import Verif.Lemmas.BrokerRace
import Verif.Lemmas.BrokerReopen
import Verif.Lemmas.BrokerLeak

/-!
# Restrictions on callers, from the statement-level broker to the coarse one
-/

namespace Netscrape.BrokerLock
open Netscrape.Conc (upd upd_self upd_ne Mu)
open Netscrape.Broker (Mem Msg Op Ret PC Ev Alt Queue Sub Loc)

theorem Reach.mono {cap : Int} {p q : St → Act → Prop} (hpq : ∀ s a, p s a → q s a) {s : St}
    (h : Reach cap p s) : Reach cap q s := by
  induction h with
  | init => exact .init
  | step s s' a _ ha hs ih => exact .step s s' a ih (hpq _ _ ha) hs

/-- Who the goroutines of the coarse broker are. -/
theorem Sim.who {f : St} {c : Broker.St} (h : Sim f c) {j : Nat} {pc : PC} (hj : c.calls j = some pc) :
    (∃ p, f.calls j = some p ∧ pc = abs p) ∨
    ∃ i p ctx, f.calls i = some p ∧ claimed p = some (ctx, j) ∧ f.calls j = none ∧ pc = .run ctx := by
  cases hf : f.calls j with
  | some p =>
    left
    have := h.calls.some j p hf
    rw [hj] at this; cases this
    exact ⟨p, rfl, rfl⟩
  | none =>
    right
    by_cases hcl : ∃ k p ctx, f.calls k = some p ∧ claimed p = some (ctx, j)
    · obtain ⟨k, p, ctx, hk, hp⟩ := hcl
      have h3 := (h.calls.claim k p ctx j hk hp).2
      rw [hj] at h3; cases h3
      exact ⟨k, p, ctx, hk, hp, rfl, rfl⟩
    · rw [h.calls.none j hf fun k p ctx hk hp => hcl ⟨k, p, ctx, hk, hp⟩] at hj; cases hj

theorem session_abs {p : Pos} (h : Spec.Broker.InSession (abs p)) : Spec.BrokerLock.InSession p := by
  cases p <;> first | exact h | trivial | exact h.elim

theorem pub_abs {p : Pos} (h : Spec.Broker.InPub (abs p)) : Spec.BrokerLock.InPub p := by
  cases p <;> first | exact h | trivial | exact h.elim

theorem claimed_session {p : Pos} {x : Nat × Nat} (h : claimed p = some x) : Spec.BrokerLock.InSession p := by
  cases p <;> first | trivial | cases h

theorem follows_call {a : Act} {op : Op} (h : Follows a (.call op)) : a = .call op := by
  cases a <;> first | exact h.elim | exact congrArg Act.call (show op = _ from h).symm

theorem solo_follows {f : St} {c : Broker.St} {a : Act} {a' : Broker.Act} (hs : Sim f c)
    (hal : Spec.BrokerLock.SoloOpen f a) (hf : Follows a a') : Spec.Broker.SoloOpen c a' := by
  rintro ctx rfl j pc hj hp
  have ha := hal ctx (follows_call hf)
  rcases hs.who hj with ⟨p, h1, rfl⟩ | ⟨i, p, ctx', h1, h2, _⟩
  · exact ha j p h1 (session_abs hp)
  · exact ha i p h1 (claimed_session h2)

theorem quiet_follows {f : St} {c : Broker.St} {a : Act} {a' : Broker.Act} (hs : Sim f c)
    (hal : Spec.BrokerLock.QuietOpen f a) (hf : Follows a a') : Spec.Broker.QuietOpen c a' := by
  rintro ctx rfl j pc hj
  have ha := hal ctx (follows_call hf)
  rcases hs.who hj with ⟨p, h1, rfl⟩ | ⟨i, p, ctx', h1, h2, _⟩
  · exact ⟨fun hp => (ha j p h1).1 (session_abs hp), fun hp => (ha j p h1).2 (pub_abs hp)⟩
  · exact ((ha i p h1).1 (claimed_session h2)).elim

/-- A goroutine with a call is one in the statement-level broker, too. -/
theorem Sim.caller {f : St} {c : Broker.St} (h : Sim f c) (hi : Broker.Inv c) {i : Nat} {op : Op}
    (hc : (c.calls i).isSome = true) (ho : c.ops i = some op) : (f.calls i).isSome = true := by
  obtain ⟨pc, hpc⟩ := Option.isSome_iff_exists.mp hc
  rcases h.who hpc with ⟨p, h1, _⟩ | ⟨_, _, _, _, _, _, rfl⟩
  · rw [h1]; rfl
  · have h4 : c.ops i = none := hi.fits i _ hpc
    rw [h4] at ho; cases ho

theorem alone_follows {f : St} {c : Broker.St} {a : Act} {a' : Broker.Act} (hs : Sim f c) (hi : Broker.Inv c)
    (hal : Spec.BrokerLock.AloneUnsub f a) (hf : Follows a a') : Spec.Broker.AloneUnsub c a' := by
  intro x
  constructor
  · rintro rfl i hc
    have ha := (hal x).1 (follows_call hf) i
    exact ⟨fun ho => (ha (hs.caller hi hc ho)).1 (by rw [← hs.ops]; exact ho),
      fun ctx ho => (ha (hs.caller hi hc ho)).2 ctx (by rw [← hs.ops]; exact ho)⟩
  · rintro ⟨ctx, rfl⟩ i hc ho
    exact (hal x).2 ⟨ctx, follows_call hf⟩ i (hs.caller hi hc ho) (by rw [← hs.ops]; exact ho)

theorem tidy_follows {f : St} {c : Broker.St} {a : Act} {a' : Broker.Act} (hs : Sim f c) (hl : LockInv f) (hw : WfInv f)
    (hal : Spec.BrokerLock.TidyClose f a) (hen : (step f a).isSome = true) (hf : Follows a a') :
    Spec.Broker.TidyClose c a' := by
  rintro i pc rfl hc hp hcon
  -- the goroutine is in a critical section, at one of its first two statements
  have key : ∃ key q, a = .stmt i key ∧ (f.calls i = some (.close1 q) ∨ f.calls i = some (.close2 q)) := by
    cases a with
    | step j alt =>
      exfalso
      cases (show i = j from hf)
      simp only [step] at hen
      split at hen
      · cases hen
      · split at hen
        · next q hq =>
          have h1 := hs.calls.some i _ hq
          rw [hc] at h1; cases h1
          split at hen
          · next hsec =>
            have h2 := hsec.1
            cases q <;> first | exact hp.elim | cases h2
          · cases hen
        · cases hen
    | stmt j key =>
      cases (show i = j ∧ _ from hf).1
      simp only [step] at hen
      split at hen
      · cases hen
      · split at hen
        · cases hen
        · next p hq =>
          have h1 := hs.calls.some i _ hq
          rw [hc] at h1; cases h1
          have h2 := hw i p hq
          refine ⟨key, abs p, rfl, ?_⟩
          rw [hq]
          cases p <;> first
            | exact .inl rfl
            | exact .inr rfl
            | exact hp.elim
            | (exfalso; simp only [stmt] at hen; cases hen; done)
            | skip
          next q =>
            exfalso
            have h2 : sect q = some true := h2
            cases q <;> first | exact hp.elim | cases h2
    | _ => exact hf.elim
  obtain ⟨key, q, rfl, hq⟩ := key
  obtain ⟨p, hpi, hpw, he⟩ : ∃ p, f.calls i = some p ∧ cls p = .writing ∧ Eqg f.b c.b := by
    rcases hq with h1 | h1
    · exact ⟨_, h1, rfl, hs.mid i _ h1 rfl⟩
    · exact ⟨_, h1, rfl, (hs.mid i _ h1 rfl).1⟩
  obtain ⟨h1, h2, h3⟩ := hal i key q rfl hq (by rw [he.connected]; exact hcon)
  have outside : ∀ {j : Nat} {pcj : PC}, c.calls j = some pcj → pcj ≠ pc → sect pcj = some false →
      f.calls j = some (.out pcj) := by
    intro j pcj hj hne hsec
    rcases hs.who hj with ⟨p', h4, rfl⟩ | ⟨_, _, _, _, _, _, rfl⟩
    · have hji : j ≠ i := by rintro rfl; rw [hc] at hj; cases hj; exact hne rfl
      have hcl : clsAt f.calls j = .out := by
        have hheld := hl.held (i := i) (by rw [clsAt_some hpi, hpw])
        cases hk : clsAt f.calls j with
        | out => rfl
        | waiting => exact ((hl.lock.held hheld).2 j hk).elim
        | writing => exact (hji (hl.lock.one j i (.inr hk) (.inr (by rw [clsAt_some hpi, hpw])))).elim
        | reading =>
          exfalso
          obtain ⟨R, _, hlen, hR⟩ := hl.lock.readers
          have hb := (hR j).mpr hk
          rw [(hl.lock.held hheld).1] at hlen
          rw [List.length_eq_zero_iff.mp hlen] at hb
          cases hb
      rw [clsAt_some h4] at hcl
      cases p' <;> first | (cases hcl; done) | exact h4
    · cases hsec
  refine ⟨?_, ?_, ?_⟩
  · rw [← he.topics, ← he.subs]; exact h1
  · intro j ctx t m hj
    exact h2 j ctx t m (outside hj (by rintro rfl; exact hp) rfl)
  · intro j t u hj
    exact h3 j t u (outside hj (by rintro rfl; exact hp) rfl)

theorem sim_solo {cap : Int} {f : St} (h : Reach cap Spec.BrokerLock.SoloOpen f) :
    ∃ c, Broker.Reach cap Spec.Broker.SoloOpen c ∧ Sim f c :=
  refines (fun _ _ _ _ _ hs ha _ hf _ => solo_follows hs ha hf) h

theorem sim_tidy {cap : Int} {f : St} (h : Reach cap Spec.BrokerLock.TidyClose f) :
    ∃ c, Broker.Reach cap Spec.Broker.TidyClose c ∧ Sim f c :=
  refines (fun _ _ _ _ hr hs ha he hf _ => tidy_follows hs hr.inv hr.wf ha he hf) h

theorem sim_careful {cap : Int} {f : St}
    (h : Reach cap (fun s a => Spec.BrokerLock.QuietOpen s a ∧ Spec.BrokerLock.AloneUnsub s a) f) :
    ∃ c, Broker.Reach cap (fun s a => Spec.Broker.QuietOpen s a ∧ Spec.Broker.AloneUnsub s a) c ∧ Sim f c :=
  refines (fun _ _ _ _ _ hs ha _ hf hc => ⟨quiet_follows hs ha.1 hf, alone_follows hs hc.toInv ha.2 hf⟩) h

end Netscrape.BrokerLock
