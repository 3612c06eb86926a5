import Mathlib.Algebra.BigOperators.Group.List.Basic

/-! Bytes read in the other order of their bits (C44). -/

namespace Verif

/-- The byte whose bits are those of `m` in the other order: bit `i` of `m` has the value `2 ^ (7 - i)`. -/
def mirror (m : ℕ) : ℕ := ((List.range 8).map fun i => m / 2 ^ i % 2 * 2 ^ (7 - i)).sum

end Verif
