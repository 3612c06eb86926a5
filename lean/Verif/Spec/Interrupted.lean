import Verif.Model.Interrupted
import Verif.Spec.Predictor

/-!
# Sessions with interruptions
-/

namespace Verif.Predictor

variable {σ α : Type}

/-- The states that can be reached from `s` by updates with symbols of `A` and weights that satisfy `W`, each of which is complete or
is interrupted at some point. -/
inductive Session (P : Predictor σ α) (stg : Stages σ α) (A : List α) (W : ℝ → Prop) (s : σ) : σ → Prop
  | new : Session P stg A W s s
  | update {t t' : σ} {a : α} {h : List α} {w r : ℝ} : Session P stg A W s t → a ∈ A → W w → P.update t a h w = .ok (r, t') →
      Session P stg A W s t'
  | interrupted {t t' : σ} {a : α} {h : List α} {w : ℝ} : Session P stg A W s t → a ∈ A → W w → t' ∈ stg t a h w →
      Session P stg A W s t'

/-- The stages of an update begin with the state before it and end with the state after it. -/
def Ends (P : Predictor σ α) (stg : Stages σ α) : Prop :=
  ∀ s a h w, (stg s a h w).head? = some s ∧ ∀ r s', P.update s a h w = .ok (r, s') → (stg s a h w).getLast? = some s'

/-- On states that satisfy `I` updates return, complete or interrupted ones keep `I`, and the probabilities that they report sum to at
most one. -/
structure Bounded (P : Predictor σ α) (stg : Stages σ α) (I : σ → Prop) (A : List α) (W : ℝ → Prop) : Prop where
  total : ∀ s a h w, I s → a ∈ A → W w → ∃ r s', P.update s a h w = .ok (r, s') ∧ I s'
  le_one : ∀ s h w, I s → W w → (A.map fun a => probOf (P.update s a h w)).sum ≤ 1
  stages : ∀ s a h w t, I s → a ∈ A → W w → t ∈ stg s a h w → I t

end Verif.Predictor
