import Verif.Spec.Predictor

/-!
# What the weight of an update means
-/

namespace Verif

/-- Both lists of updates give every symbol the same total weight. -/
def SameTotals {α : Type} [DecidableEq α] (xs ys : List (Obs α)) : Prop := ∀ a, weightOf a xs = weightOf a ys

/-- Both lists of updates are about the same symbols. -/
def SameSymbols {α : Type} (xs ys : List (Obs α)) : Prop := ∀ a, a ∈ xs.map Obs.sym ↔ a ∈ ys.map Obs.sym

/-- Only the total weight of every symbol matters: whatever is called later, the answers after two lists of updates with the same totals are the
same. -/
def Predictor.WeightsAdd {σ α : Type} [DecidableEq α] (P : Predictor σ α) (s : σ) : Prop :=
  ∀ xs ys r r' t t', SameTotals xs ys → P.run s xs = .ok (r, t) → P.run s ys = .ok (r', t') → ∀ cs, P.outputs t cs = P.outputs t' cs

end Verif
