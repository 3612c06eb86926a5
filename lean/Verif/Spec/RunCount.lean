import Mathlib.Data.List.Basic

/-!
# Runs of equal symbols
-/

namespace Verif

/-- The number of maximal runs of equal symbols: one more than the number of changes, and none without symbols. -/
def runs {α : Type} [DecidableEq α] : List α → ℕ
  | [] => 0
  | [_] => 1
  | x :: y :: ys => (if x = y then 0 else 1) + runs (y :: ys)

end Verif
