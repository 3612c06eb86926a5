import Verif.Spec.Predictor

/-!
# A source that does not learn
-/

namespace Verif

/-- The probability of a sequence that follows the history `h`, if the next symbol is `a` with probability `p a h'` after every history `h'`. -/
noncomputable def frozenProb {α : Type} (p : α → List α → ℝ) (h : List α) : List α → ℝ
  | [] => 1
  | a :: as => p a h * frozenProb p (h ++ [a]) as

end Verif
