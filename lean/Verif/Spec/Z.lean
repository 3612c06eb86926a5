import Mathlib.Data.List.Basic

/-! What a compressed file should look like. -/

namespace Verif

namespace Z

/-- The number that bytes stand for, least significant byte first. -/
def valueOfBytes : List ℕ → ℕ
  | [] => 0
  | b :: bs => b + 256 * valueOfBytes bs

/-- The first four bytes of a file give the length in the given byte order. -/
def HasLength (little : Bool) (file : List ℕ) (n : ℕ) : Prop :=
  4 ≤ file.length ∧ valueOfBytes (if little then file.take 4 else (file.take 4).reverse) = n

end Z

end Verif
