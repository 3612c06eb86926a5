import Verif.Spec.FMN
import Verif.Proofs.Copy

/-! C50: copying a model. -/

namespace Verif

open Predictor

variable {σ α : Type} {P : Predictor σ α} {I : σ → Prop}

/-- **C50 (what a copy answers).** A faithful copy gives the same answers as the original to every sequence of calls. -/
theorem C50_copy_answers (h : P.FaithfulCopy I) (s : σ) (hs : I s) :
    ∃ t, P.copy s = .ok t ∧ ∀ calls, P.outputs t calls = P.outputs s calls := by
  obtain ⟨t, h1, _, h2⟩ := h s hs
  exact ⟨t, h1, fun calls => (h2.outputs_eq calls).symm⟩

/-- **C50 (estimators).** Copies of `KT`, `KTBinary` and `SAD` models are faithful in every state. -/
theorem C50_estimators {α : Type} [DecidableEq α] :
    (KT.predictor (α := α)).FaithfulCopy (fun _ => True) ∧ KTBinary.predictor.FaithfulCopy (fun _ => True) ∧
      (SAD.predictor (α := α)).FaithfulCopy (fun _ => True) :=
  ⟨fun s _ => ⟨s, rfl, trivial, .refl _ s⟩, fun s _ => ⟨s, rfl, trivial, .refl _ s⟩, fun s _ => ⟨s, rfl, trivial, .refl _ s⟩⟩

/-- **C50 (Averager).** If the components' copies are faithful, so are the mixture's. -/
theorem C50_Averager (hP : P.FaithfulCopy I) :
    (Averager.predictor P).FaithfulCopy (fun s => ∀ p ∈ s.models, I p.1) := by
  intro s hs
  obtain ⟨ms, h1, h2, h3⟩ := copyModels_faithful hP s.models hs
  exact ⟨⟨ms, s.logProb⟩, by simp [Averager.predictor, Averager.copy, h1], h2, Averager.Eqv P, Averager.eqv_bisimulation,
    rfl, h3⟩

/-- **C50 (Factored).** If the factors' copies are faithful, so are the product's. -/
theorem C50_Factored (hP : P.FaithfulCopy I) :
    (Factored.predictor P).FaithfulCopy (fun s => ∀ m ∈ s.factors, I m) := by
  intro s hs
  obtain ⟨ms, h1, h2, h3⟩ := mapM_faithful hP s.factors hs
  exact ⟨⟨ms⟩, by simp [Factored.predictor, Factored.copy, h1], h2, _, Factored.bisimulation, h3⟩

/-- **C50 (CTW).** For binary contexts, if the base models' copies are faithful, so are the tree's.  (Independence of the two
trees, which share nodes, is C20.) -/
theorem C50_CTW (hP : P.FaithfulCopy I) (fresh : σ) (ctx : List α → List Bool) :
    (CTW.predictor P fresh ctx).FaithfulCopy (fun n => I n.base) := by
  intro n hn
  obtain ⟨b, h1, h2, h3⟩ := hP n.base hn
  refine ⟨.mk b n.baseLP n.childrenLP n.lp n.children, by simp [CTW.predictor, h1], h2, CTWNode.EqvAll P fresh,
    CTWNode.eqvAll_bisimulation ctx, ?_⟩
  rw [CTWNode.eqvAll_iff]
  exact ⟨⟨h3, rfl, rfl, rfl⟩, fun c => .refl _⟩

/-- **C50 (CTW_KT).** -/
theorem C50_CTW_KT (depth : ℕ) : (KNode.predictor depth).FaithfulCopy (fun _ => True) :=
  fun s _ => ⟨s, rfl, trivial, .refl _ s⟩

/-- **C50 (classes without a copy).** `PTW`, `PTWFixedLength`, `FMN` and `Dumb` models cannot be copied, so that mixtures and
factorizations containing them cannot be copied either. -/
theorem C50_no_copy {S : Type} (St : Store S σ) (fresh : σ) (h0 height m : ℕ) :
    (∀ s, (PTW.predictor P fresh h0).copy s = .error .notImplementedError) ∧
    (∀ s, (PTWFixedLength.predictor P fresh h0 height).copy s = .error .notImplementedError) ∧
    (∀ s, (FMN.predictor St P m).copy s = .error .notImplementedError) ∧
    (∀ s, (Dumb.predictor (α := α)).copy s = .error .notImplementedError) ∧
    (∀ s x rest, s.models = x :: rest →
      (Averager.predictor (PTW.predictor P fresh h0)).copy s = .error .notImplementedError) := by
  refine ⟨fun _ => rfl, fun _ => rfl, fun _ => rfl, fun _ => rfl, ?_⟩
  rintro ⟨ms, lp⟩ ⟨p, l⟩ rest h
  simp only at h
  subst h
  rfl

/-- A faithful copy is what `FMN` needs of the models it stores. -/
theorem C50_copyable (hP : P.FaithfulCopy I) : P.Copyable I := by
  intro s hs
  obtain ⟨t, h1, h2, h3⟩ := hP s hs
  refine ⟨t, h1, h2, fun xs => ?_⟩
  have key : ∀ (xs : List (Obs α)) (s t : σ), Indist P s t →
      SameResult (Indist P) (P.run s xs) (P.run t xs) := by
    intro xs
    induction xs with
    | nil => exact fun s t h => ⟨rfl, h⟩
    | cons o os ih =>
      intro s t h
      simp only [Predictor.run]
      rcases sameResult_ok ((indist_bisimulation P _ _ h).1 o.sym o.hist o.weight) with
        ⟨e, g1, g2⟩ | ⟨r, x', y', g1, g2, g3⟩
      · simp [g1, g2, SameResult]
      · rcases sameResult_ok (ih _ _ g3) with ⟨e, k1, k2⟩ | ⟨r', x'', y'', k1, k2, k3⟩
        · simp [g1, g2, k1, k2, SameResult]
        · simp only [g1, g2, k1, k2, ok_bind, pure_eq_ok, SameResult, true_and]
          exact k3
  unfold Predictor.seqProb
  rcases sameResult_ok (key xs s t h3) with ⟨e, g1, g2⟩ | ⟨r, x', y', g1, g2, g3⟩
  · rw [g1, g2]
  · rw [g1, g2]
    rfl

/-- Example: a mixture of context trees over `KTBinary`, in any state, has a copy that answers every sequence of calls alike. -/
example (s : Averager (CTWNode KTBinary Bool)) :
    ∃ t, (Averager.predictor (CTW.predictor KTBinary.predictor (KTBinary.init none) (CTW.mkcontext 3 false))).copy s = .ok t ∧
      ∀ calls, (Averager.predictor (CTW.predictor KTBinary.predictor (KTBinary.init none) (CTW.mkcontext 3 false))).outputs t
        calls = (Averager.predictor
          (CTW.predictor KTBinary.predictor (KTBinary.init none) (CTW.mkcontext 3 false))).outputs s calls :=
  C50_copy_answers (C50_Averager (C50_CTW (C50_estimators (α := Bool)).2.1 _ _)) s (fun _ _ => trivial)

end Verif
