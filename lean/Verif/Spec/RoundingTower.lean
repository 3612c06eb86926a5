import Verif.Model.RoundingTower

/-! The constants in the bounds for models over models. -/

namespace Verif

namespace Layer

/-- How many times the error of a single operation an update of a tower can lose, for sequences of at most `2 ^ H` symbols. -/
def cost (H : ℕ) : List Layer → ℕ
  | [] => 1
  | .ctw d :: ls => cost H ls + 11 * d + 3
  | .ptw _ :: ls => 5 * cost H ls + 45 * H + 73
  | .fixed _ height :: ls => cost H ls + 9 * height + 12

/-- The depth of a `CTW` is not 0, for which the context is the whole history; the smallest nodes are no longer than `2 ^ H`, and `PTWFixedLength` is not used beyond its length. -/
def Fits (H T : ℕ) : Layer → Prop
  | .ctw d => 1 ≤ d
  | .ptw h0 => h0 ≤ H
  | .fixed h0 height => h0 ≤ height ∧ T ≤ 2 ^ height

end Layer

end Verif
