import Verif.Py
import Mathlib.Algebra.BigOperators.Group.List.Basic

/-!
# `logsumexp`, `logsumexp2` (model.py:3-14)
-/

namespace Verif

/-- `log_0_5` (model.py:3). -/
noncomputable def log05 : ℝ := Real.log (1 / 2)

/-- `max(vals)` for a list with first element `v` (model.py:7). -/
noncomputable def maxOf (v : ℝ) (vs : List ℝ) : ℝ := vs.foldl max v

/-- `logsumexp(*vals)` (model.py:6-8).  `max()` of nothing raises `ValueError`.  The argument of
`math.log` contains the term `exp(shift - shift) = 1`, but the guard is kept. -/
noncomputable def logsumexp : List ℝ → Py ℝ
  | [] => .error .valueError
  | v :: vs => do
    let shift := maxOf v vs
    let l ← pyLog (((v :: vs).map fun u => Real.exp (u - shift)).sum)
    pure (shift + l)

/-- `logsumexp2(v1, v2)` (model.py:10-14).  The argument of `math.log` is always above 1, so its
guard cannot fire and the function is total. -/
noncomputable def logsumexp2 (v1 v2 : ℝ) : ℝ :=
  if v1 < v2 then v2 + Real.log (1 + Real.exp (v1 - v2))
  else v1 + Real.log (1 + Real.exp (v2 - v1))

end Verif
