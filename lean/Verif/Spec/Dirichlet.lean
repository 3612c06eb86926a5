import Mathlib.Probability.Distributions.Beta
import Mathlib.MeasureTheory.Measure.Prod
import Mathlib.MeasureTheory.Constructions.BorelSpace.Real

/-!
# The Dirichlet distribution

A distribution over the probability distributions on finitely many symbols, by breaking a stick: the share of the first symbol has a beta distribution, and
the others divide the rest among them in the same manner.
-/

open MeasureTheory ProbabilityTheory

namespace Verif

/-- Give `a` the share `θ` and let `q` divide the rest. -/
noncomputable def breakStick {α : Type} [DecidableEq α] (a : α) (θ : ℝ) (q : α → ℝ) : α → ℝ := fun b => if b = a then θ else (1 - θ) * q b

/-- The Dirichlet distribution with the given parameters. -/
noncomputable def dirichlet {α : Type} [DecidableEq α] : List (α × ℝ) → Measure (α → ℝ)
  | [] => Measure.dirac 0
  | [(a, _)] => Measure.dirac fun b => if b = a then 1 else 0
  | (a, c) :: p :: cs =>
    ((betaMeasure c ((p :: cs).map Prod.snd).sum).prod (dirichlet (p :: cs))).map fun x => breakStick a x.1 x.2

end Verif
