import Verif.Spec.Order

/-!
# Symbols that nobody saw
-/

namespace Verif

/-- The symbols `u`, observed with the histories and weights `gs`. -/
def hidden {α : Type} : List (List α × ℝ) → List α → List (Obs α)
  | g :: gs, a :: u => ⟨a, g.1, g.2⟩ :: hidden gs u
  | _, _ => []

end Verif
