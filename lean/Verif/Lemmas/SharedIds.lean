import Verif.Lemmas.HandleIds
import Verif.Lemmas.StoreShared

/-!
# Stores that share a graph keep the IDs of entities apart, if one of them does the adding and removing
-/

namespace Netscrape.Conc

variable {μ ν κ σ τ ρ : Type}

theorem Ver2.rename {f : μ → ν} {A B : ν → Prop} {π : σ → τ} {Inv : τ → Prop} {Rin Rall : τ → τ → Prop}
    {Q : ρ → Hold → Mode τ → Prop} : ∀ {p : Prog μ κ σ ρ} {o : Hold} {md : Mode τ},
    Ver2 (fun m => A (f m)) (fun m => B (f m)) π Inv Rin Rall Q p o md → Ver2 A B π Inv Rin Rall Q (p.rename f) o md := by
  intro p
  induction p with
  | ret r => intro o md h; exact h
  | lock m k ih =>
    rintro o md ((⟨h1, h2, g, h3, h4⟩ | ⟨h1, h2⟩) | ⟨h1, h2, g, h3, h4⟩)
    · exact .inl (.inl ⟨h1, h2, g, h3, fun g' h h' => ih (h4 g' h h')⟩)
    · exact .inl (.inr ⟨h1, ih h2⟩)
    · exact .inr ⟨h1, h2, g, h3, fun g' h h' => ih (h4 g' h h')⟩
  | acquire m k ih =>
    rintro o md ((⟨h1, h2, g, h3, h4⟩ | ⟨h1, h2⟩) | ⟨h1, h2, g, h3, h4⟩)
    · exact .inl (.inl ⟨h1, h2, g, h3, fun g' h h' => ih (h4 g' h h')⟩)
    · exact .inl (.inr ⟨h1, ih h2⟩)
    · exact .inr ⟨h1, h2, g, h3, fun g' h h' => ih (h4 g' h h')⟩
  | unlock m k ih =>
    rintro o md ((⟨h1, h2, g, h3, h4⟩ | ⟨h1, h2⟩) | ⟨h1, g₀, g, h3, h4, h5, h6⟩)
    · exact .inl (.inl ⟨h1, h2, g, h3, ih h4⟩)
    · exact .inl (.inr ⟨h1, ih h2⟩)
    · exact .inr ⟨h1, g₀, g, h3, h4, h5, ih h6⟩
  | rlock m k ih =>
    rintro o md ((⟨h1, h2, g, h3, h4⟩ | ⟨h1, h2⟩) | ⟨h1, ⟨g, h3, h4⟩ | ⟨n, g, h3, h4⟩⟩)
    · exact .inl (.inl ⟨h1, h2, g, h3, fun g' h h' => ih (h4 g' h h')⟩)
    · exact .inl (.inr ⟨h1, ih h2⟩)
    · exact .inr ⟨h1, .inl ⟨g, h3, fun g' h h' => ih (h4 g' h h')⟩⟩
    · exact .inr ⟨h1, .inr ⟨n, g, h3, ih h4⟩⟩
  | runlock m k ih =>
    rintro o md ((⟨h1, h2, g, h3, h4⟩ | ⟨h1, h2⟩) | ⟨h1, ⟨g, h3, h4⟩ | ⟨n, g, h3, h4⟩⟩)
    · exact .inl (.inl ⟨h1, h2, g, h3, ih h4⟩)
    · exact .inl (.inr ⟨h1, ih h2⟩)
    · exact .inr ⟨h1, .inl ⟨g, h3, ih h4⟩⟩
    · exact .inr ⟨h1, .inr ⟨n, g, h3, ih h4⟩⟩
  | read l k ih => intro o md h s hs; exact ih s (h s hs)
  | write l w k ih => intro o md h s hs; exact ⟨(h s hs).1, ih s (h s hs).2⟩

end Netscrape.Conc

namespace Netscrape.Store.Shared
open Netscrape.Conc Netscrape.Spec.Handle Netscrape.Spec.Shared
open Netscrape.Graph (St)

theorem of_graph (i : Nat) : (fun m => Mtx.of i m = .graph) = fun m => m = Store.Mtx.graph := by
  funext m
  cases m <;> simp [Mtx.of]

/-- One store adds and removes, and nobody adds nodes to the graph or removes nodes from it directly: no two entities
share an ID, and calls panic only for want of IDs. -/
theorem shared_ids {w : Nat} {d : Bool} {s : St} (h0 : Spec.Store.Start d s)
    {c : Cfg Mtx Graph.Loc St Op Handle.Out} (hr : Reach prog (fun x => NodesBy w x ∧ ¬ SelfLink x.2) s c) :
    ∃ G, SecInv2 (Mtx.store w) Mtx.graph St.g Apart Leaves Grows
      (fun x r g => Panics r → Takes x.2 ∧ Gonum.maxID ≤ g.b.ids.max) c G := by
  refine secInv2 (by simp) Leaves.refl Grows.refl Leaves.trans Grows.trans
    (fun _ _ _ _ h hg hp => ⟨(h hp).1, Int.le_trans (h hp).2 hg⟩)
    (prot := fun _ => False) (strict := False) (flat := False)
    (prot' := fun _ => False) (strict' := False) (flat' := False) ?_ ?_ ?_ (apart_start h0) hr
  · rintro ⟨i, op⟩ h
    by_cases e : w = i
    · subst e
      refine Disc.rename (f := Mtx.of w) (of_inj w) (m := Store.Mtx.store) ?_
      cases op with
      | inl o => exact Disc.tag ((one_prog o).disc.mono (fun _ h => h.elim) False.elim False.elim)
      | inr o => exact Disc.tag (((uses_graph o).disc (by decide)).mono (fun _ h => h.elim) False.elim id)
    · exact (disc_unused (f := Mtx.of i) (fun y => by cases y <;> simp [Mtx.of, Ne.symm e]) _).mono
        (fun _ h => h.elim) False.elim id
  · rintro ⟨i, op⟩ h
    refine Disc.rename (f := Mtx.of i) (of_inj i) (m := Store.Mtx.graph) ?_
    exact handle_disc_graph op
  · rintro ⟨i, op⟩ h g _
    refine Ver2.rename (f := Mtx.of i) ?_
    rw [of_graph i]
    cases op with
    | inl o =>
      refine Ver2.bind ?_ (sound_store o (fun hre => ?_) h.2 g)
      · rintro r _ _ ⟨rfl, g1, rfl, hr⟩
        exact ⟨rfl, g1, rfl, hr⟩
      · show Mtx.store i = Mtx.store w
        rw [h.1 hre]
    | inr o =>
      refine Ver2.bind ?_ (sound_graph o h.1 h.2 g)
      rintro r _ _ ⟨rfl, g1, hat, hr⟩
      exact ⟨rfl, g1, hat, hr⟩

end Netscrape.Store.Shared
