import Verif.Model.RoundingAC
import Verif.Model.Helpers
import Mathlib.Analysis.SpecialFunctions.Log.Base

/-!
# Integers computed from logarithms in double precision (model.py:603, 668; utilities.py:184-198)

Numbers have 53 binary digits, and `math.log` and `np.log2` are correctly rounded.  `math.log(x, 2)` is the quotient of two logarithms.
Simplification: the exponents of doubles are not bounded.
-/

namespace Verif.Double

/-- `math.log(n, 2)` for an integer (model.py:603, 668): the integer is first made a double. -/
noncomputable def logBase2 (n : ℕ) : ℝ := fl (fl (Real.log (fl n)) / fl (Real.log 2))

/-- `self.min_height = int(math.log(min_partition_length, 2))` (model.py:603). -/
noncomputable def minHeight (L : ℕ) : Py ℤ := if L = 0 then .error .valueError else .ok (pyInt (logBase2 L))

/-- `self.height = int(math.ceil(math.log(length, 2)))` (model.py:668). -/
noncomputable def heightOf (length : ℕ) : Py ℤ := if length = 0 then .error .valueError else .ok ⌈logBase2 length⌉

/-- `mscb(t)` of utilities.py (utilities.py:184-198). -/
noncomputable def mscb (t : ℕ) : ℤ := pyInt (fl (Real.logb 2 (fl ((t ^^^ (t + 1) : ℕ) : ℝ))))

end Verif.Double
