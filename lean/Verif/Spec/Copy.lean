import Verif.Spec.Predictor

/-!
# What a copy of a model is
-/

namespace Verif

namespace Predictor

variable {σ α : Type}

/-- `copy` succeeds on the models satisfying `I` and returns a model satisfying `I` that no sequence of calls can tell from the
original. -/
def FaithfulCopy (P : Predictor σ α) (I : σ → Prop) : Prop :=
  ∀ s, I s → ∃ t, P.copy s = .ok t ∧ I t ∧ Indist P s t

end Predictor

end Verif
