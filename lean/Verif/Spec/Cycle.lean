import Mathlib.Data.List.Basic
import Mathlib.Data.Int.Notation

/-! # Lists repeated as often as needed -/

namespace Verif

/-- The first `n` elements of `l l l ...`. -/
def cycle {α : Type} (n : ℕ) (l : List α) : List α := ((List.replicate n l).flatten).take n

example : cycle 5 [1, 2] = [1, 2, 1, 2, 1] := by decide

/-- What a block of data asked for with `steps` is meant to be: zero asks for the block as it is, a positive number for
that many rows. -/
def presented {α : Type} (steps : ℤ) (rows : List α) : List α := if steps = 0 then rows else cycle steps.toNat rows

end Verif
