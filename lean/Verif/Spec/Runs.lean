import Mathlib.Data.List.Basic

/-! # Runs of equal labels -/

namespace Verif

/-- The rows from `a` to `b` (not included) are a maximal block of rows labelled `c`. -/
structure IsRun {L : Type} (labels : List L) (c : L) (a b : ℕ) : Prop where
  lt : a < b
  le : b ≤ labels.length
  inside : ∀ i, a ≤ i → i < b → labels[i]? = some c
  before : a = 0 ∨ labels[a - 1]? ≠ some c
  after : labels[b]? ≠ some c

end Verif
