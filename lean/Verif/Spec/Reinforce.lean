import Verif.Spec.Predictor

/-!
# What it means that a model learns from an observation (C137)
-/

namespace Verif.Predictor

variable {σ α : Type}

/-- On states satisfying `I`: when the same symbol is observed twice in a row with the same history and weight, the second update
reports a probability that is at least that of the first. -/
def Reinforces (P : Predictor σ α) (I : σ → Prop) (A : List α) (W : ℝ → Prop) : Prop :=
  ∀ s a h w r s' q s'', I s → a ∈ A → W w → P.update s a h w = .ok (r, s') → P.update s' a h w = .ok (q, s'') → r ≤ q

/-- The states that updates with symbols of `A` and weights satisfying `W` reach from `s0`. -/
def Updated (P : Predictor σ α) (s0 : σ) (A : List α) (W : ℝ → Prop) (s : σ) : Prop :=
  ∃ xs r, (∀ o ∈ xs, o.sym ∈ A ∧ W o.weight) ∧ P.run s0 xs = .ok (r, s)

end Verif.Predictor
