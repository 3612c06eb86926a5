import Mathlib.Data.Nat.Size
import Mathlib.Data.Nat.Bitwise

/-!
# Partition arithmetic (helpers.py:18-87)

Simplification: times and depths are natural numbers.
-/

namespace Verif

/-- `binary_boundary(t, d)` (helpers.py:18-42). -/
def binaryBoundary (t d : ℕ) : ℕ := t - (t &&& ((1 <<< d) - 1))

/-- `at_partition_start(t, d)` (helpers.py:44-70). -/
def atPartitionStart (t d : ℕ) : Bool := decide (t &&& ((1 <<< d) - 1) = 0)

/-- `mscb(t)` (helpers.py:72-87); `bit_length` is `Nat.size`. -/
def mscb (t : ℕ) : ℕ := (t ^^^ (t + 1)).size - 1

end Verif
