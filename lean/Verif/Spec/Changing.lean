import Verif.Spec.Predictor

/-! # Sources that change -/

namespace Verif

variable {γ α : Type}

/-- The probability of the observations `xs` from time `t` on, if the source at work at time `i` has the label `θ i`, and the source with
the label `g` gives an observation the probability `q g`, which may depend on the history. -/
noncomputable def changingProb (q : γ → Obs α → ℝ) (θ : ℕ → γ) : ℕ → List (Obs α) → ℝ
  | _, [] => 1
  | t, o :: xs => q (θ t) o * changingProb q θ (t + 1) xs

/-- A new model loses at most the factor `price` against each of the sources, on every part of `xs`. -/
def Predictor.Competes {σ : Type} (P : Predictor σ α) (fresh : σ) (q : γ → Obs α → ℝ) (price : ℝ) (xs : List (Obs α)) : Prop :=
  ∀ g ys, ys <:+: xs → (ys.map (q g)).prod ≤ price * P.seqProb fresh ys

end Verif
