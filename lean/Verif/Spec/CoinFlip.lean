import Mathlib.Data.Real.Basic

/-!
# Coins that change

The change at a changepoint happens if that changepoint is later than the one before it.
-/

namespace Verif

/-- How many changes have happened by time `t`, if the last one was at time `prev` and the changepoints `l` remain: a
changepoint counts once it is reached, and the first one that is not later than its predecessor is never reached. -/
def switches (prev : ℤ) : List ℤ → ℤ → ℕ
  | [], _ => 0
  | c :: cs, t => if prev < c ∧ c ≤ t then 1 + switches c cs t else 0

/-- The flip at time `t` for the uniform number `u`: one exactly if `u` is at least the current probability; the
probabilities are taken in turn. -/
noncomputable def flipAt (probabilities : List ℝ) (changes : List ℤ) (t : ℕ) (u : ℝ) : ℕ :=
  if u ≥ probabilities.getD (switches (-1) changes t % probabilities.length) 0 then 1 else 0

end Verif
