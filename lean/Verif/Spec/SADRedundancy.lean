import Verif.Spec.Categorical
import Mathlib.Analysis.SpecialFunctions.Log.Basic
import Mathlib.Analysis.Real.Sqrt
import Mathlib.Data.Nat.Choose.Basic

/-! What an estimator of a sparse alphabet may lose against a source. -/

namespace Verif

variable {α : Type} [DecidableEq α]

/-- The symbols that occur in a sequence. -/
def used (xs : List (Obs α)) : Finset α := (xs.map Obs.sym).toFinset

/-- How often a symbol occurs. -/
def occ (xs : List (Obs α)) (a : α) : ℕ := (xs.map Obs.sym).count a

/-- The price of a distribution on the symbols that occur: which of the `n` symbols these are, the root of their frequencies, and logarithms of the length. -/
noncomputable def sparsePrice (n : ℕ) (xs : List (Obs α)) : ℝ :=
  Real.exp 1 * (used xs).card * n.choose (used xs).card * 4 ^ (used xs).card *
    ((∏ a ∈ used xs, Real.sqrt (occ xs a)) / Real.sqrt xs.length) * (1 + 2 * Real.log xs.length) ^ ((used xs).card - 1) *
    Real.sqrt (max 1 (Real.log ((xs.length : ℝ) / (used xs).card) / Real.log 2)) ^ (used xs).card

/-- The price of a distribution, nothing if the sequence is empty. -/
noncomputable def sparsePriceOf (n : ℕ) (xs : List (Obs α)) : ℝ := if xs = [] then 1 else sparsePrice n xs

/-- The prices of the distributions at the leaves of a tree source. -/
noncomputable def CatTree.sparsePrice {κ : Type} [Fintype κ] [DecidableEq κ] (n : ℕ) : {d : ℕ} → CatTree α κ d → List (List κ × Obs α) → ℝ
  | _, .leaf _, S => sparsePriceOf n (S.map Prod.snd)
  | _, .split f, S => ∏ c : κ, (f c).sparsePrice n (subCtx c S)

end Verif
