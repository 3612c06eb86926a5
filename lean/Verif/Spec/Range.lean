import Verif.Spec.Predictor

/-!
# Bounds on the probability of the next symbol
-/

namespace Verif

/-- Started in the state `s`, the model can be updated with any symbols of `A` with weights in `W`, in any number and with any histories; and the
probability that it reports for the next one after `n` of them is at least `lo n` and at most `hi n`. -/
def Predictor.Ranges {σ α : Type} (P : Predictor σ α) (s : σ) (A : List α) (W : ℝ → Prop) (lo hi : ℕ → ℝ) : Prop :=
  ∀ (xs : List (Obs α)) (o : Obs α), (∀ x ∈ xs ++ [o], x.sym ∈ A ∧ W x.weight) →
    ∃ r t q t', P.run s xs = .ok (r, t) ∧ P.update t o.sym o.hist o.weight = .ok (q, t') ∧ lo xs.length ≤ Real.exp q ∧ Real.exp q ≤ hi xs.length

end Verif
