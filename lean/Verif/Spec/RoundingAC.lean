import Verif.Model.RoundingAC
import Verif.Spec.RoundingTower

/-! Messages whose probabilities are neither too small nor too near to one; towers with normalised probabilities. -/

namespace Verif

namespace Arith

variable {σ : Type}

/-- Along the message every update succeeds, and the probabilities keep a distance `m` from 0 and 1. -/
def Within (P : Predictor σ Bool) (m : ℝ) : σ → List Bool → Prop
  | _, [] => True
  | st, b :: bs => ∃ r st', P.update st b [] 1 = .ok (r, st') ∧ m ≤ Real.exp r ∧ Real.exp r ≤ 1 - m ∧ Within P m st' bs

end Arith

/-- Layers that can be used for any number of updates. -/
def Layer.Endless : Layer → Prop
  | .ctw d => 1 ≤ d
  | .ptw _ => True
  | .fixed _ _ => False

end Verif
