import Verif.Spec.Copy
import Verif.Proofs.CTWPure

/-! Copies of composite models. -/

namespace Verif

open Predictor

variable {σ α : Type} {P : Predictor σ α} {I : σ → Prop}

theorem copyModels_faithful (hP : P.FaithfulCopy I) :
    ∀ ms : List (σ × ℝ), (∀ p ∈ ms, I p.1) → ∃ ms', Averager.copyModels P ms = .ok ms' ∧ (∀ p ∈ ms', I p.1) ∧
      List.Forall₂ (fun p q => Indist P p.1 q.1 ∧ p.2 = q.2) ms ms'
  | [], _ => ⟨[], rfl, by simp, .nil⟩
  | (m, lp) :: rest, h => by
    obtain ⟨m', h1, h2, h3⟩ := hP m (h (m, lp) (by simp))
    obtain ⟨rest', g1, g2, g3⟩ := copyModels_faithful hP rest fun p hp => h p (by simp [hp])
    refine ⟨(m', lp) :: rest', by simp [Averager.copyModels, h1, g1], ?_, .cons ⟨h3, rfl⟩ g3⟩
    intro p hp
    rcases List.mem_cons.mp hp with rfl | hp
    · exact h2
    · exact g2 p hp

theorem mapM_faithful (hP : P.FaithfulCopy I) :
    ∀ ms : List σ, (∀ m ∈ ms, I m) → ∃ ms', ms.mapM P.copy = .ok ms' ∧ (∀ m ∈ ms', I m) ∧
      List.Forall₂ (Indist P) ms ms'
  | [], _ => ⟨[], rfl, by simp, .nil⟩
  | m :: rest, h => by
    obtain ⟨m', h1, h2, h3⟩ := hP m (h m (by simp))
    obtain ⟨rest', g1, g2, g3⟩ := mapM_faithful hP rest fun p hp => h p (by simp [hp])
    refine ⟨m' :: rest', by simp [List.mapM_cons, h1, g1], ?_, .cons h3 g3⟩
    intro p hp
    rcases List.mem_cons.mp hp with rfl | hp
    · exact h2
    · exact g2 p hp

theorem forall₂_set {β γ : Type} {R : β → γ → Prop} {l : List β} {l' : List γ} (h : List.Forall₂ R l l') {x : β} {y : γ}
    (hxy : R x y) (i : ℕ) : List.Forall₂ R (l.set i x) (l'.set i y) := by
  induction h generalizing i with
  | nil => exact .nil
  | cons h1 h2 ih =>
    cases i with
    | zero => exact .cons hxy h2
    | succ i => exact .cons h1 (ih i)

theorem forall₂_get {β γ : Type} {R : β → γ → Prop} {l : List β} {l' : List γ} (h : List.Forall₂ R l l') (i : ℕ) :
    (∃ e, pyGet l i = .error e ∧ pyGet l' i = .error e) ∨ ∃ x y, pyGet l i = .ok x ∧ pyGet l' i = .ok y ∧ R x y := by
  induction h generalizing i with
  | nil => exact .inl ⟨_, rfl, rfl⟩
  | cons h1 h2 ih =>
    cases i with
    | zero => exact .inr ⟨_, _, rfl, rfl, h1⟩
    | succ i => simpa [pyGet] using ih i

theorem Factored.bisimulation :
    Bisimulation (Factored.predictor P) (fun s t => List.Forall₂ (Indist P) s.factors t.factors) := by
  intro s t h
  have hidx : ∀ hi : List α, s.index hi = t.index hi := fun hi => by simp only [Factored.index, h.length_eq]
  constructor
  · intro a hi w
    simp only [Factored.predictor, Factored.update, hidx hi]
    cases t.index hi with
    | error e => simp [SameResult]
    | ok i =>
      simp only [ok_bind]
      rcases forall₂_get h i with ⟨e, h1, h2⟩ | ⟨x, y, h1, h2, h3⟩
      · simp [h1, h2, SameResult]
      · rcases sameResult_ok ((indist_bisimulation P _ _ h3).1 a hi 1) with ⟨e, g1, g2⟩ | ⟨r, x', y', g1, g2, g3⟩
        · simp [h1, h2, g1, g2, SameResult]
        · simp only [h1, h2, g1, g2, ok_bind, pure_eq_ok, SameResult, true_and]
          exact forall₂_set h g3 i
  · intro a hi
    simp only [Factored.predictor, Factored.logPredict, hidx hi]
    cases t.index hi with
    | error e => simp [SameResult]
    | ok i =>
      simp only [ok_bind]
      rcases forall₂_get h i with ⟨e, h1, h2⟩ | ⟨x, y, h1, h2, h3⟩
      · simp [h1, h2, SameResult]
      · rcases sameResult_ok ((indist_bisimulation P _ _ h3).2 a hi) with ⟨e, g1, g2⟩ | ⟨r, x', y', g1, g2, g3⟩
        · simp [h1, h2, g1, g2, SameResult]
        · simp only [h1, h2, g1, g2, ok_bind, pure_eq_ok, SameResult, true_and]
          exact forall₂_set h g3 i

end Verif
