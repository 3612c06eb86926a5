import Verif.Model.Rounding

/-! What C131 asks of an arithmetic, besides its accuracy. -/

namespace Verif

/-- Addition does not depend on the order of two numbers, adding zero to a result changes nothing, and halves are exact.  Every binary floating point format that
rounds to nearest is regular. -/
structure Arith.Regular (R : Arith) : Prop where
  comm : ∀ x y, R.add x y = R.add y x
  zero_add : ∀ x y, R.add 0 (R.add x y) = R.add x y
  zero_half : R.add 0 (1 / 2) = 1 / 2
  half : R.div 1 2 = 1 / 2

end Verif
