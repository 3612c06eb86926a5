import Verif.Model.RoundingAlphabets

/-! The constants in the bounds for models over models with a given base. -/

namespace Verif

namespace Layer

/-- How many times the error of a single operation an update of a tower can lose, for sequences of at most `2 ^ H` symbols, if an update of the
model at its bottom loses `c`. -/
def costOver (c H : ℕ) : List Layer → ℕ
  | [] => c
  | .ctw d :: ls => costOver c H ls + 11 * d + 3
  | .ptw _ :: ls => 5 * costOver c H ls + 45 * H + 73
  | .fixed _ height :: ls => costOver c H ls + 9 * height + 12

end Layer

end Verif
