import Verif.Spec.Predictor

/-!
# Models that answer alike, and models for which the order of what they saw does not matter
-/

namespace Verif

namespace Predictor

variable {σ τ α : Type}

/-- Any symbols of `A` with weights in `W` can be observed by the two models from the states `s` and `t` on, and every update returns the same to both. -/
def SameAnswers (P : Predictor σ α) (s : σ) (Q : Predictor τ α) (t : τ) (A : List α) (W : ℝ → Prop) : Prop :=
  ∀ (xs : List (Obs α)) (o : Obs α), (∀ x ∈ xs ++ [o], x.sym ∈ A ∧ W x.weight) →
    ∃ r q s' s'' t' t'', P.run s xs = .ok (r, s') ∧ P.update s' o.sym o.hist o.weight = .ok (q, s'') ∧
      Q.run t xs = .ok (r, t') ∧ Q.update t' o.sym o.hist o.weight = .ok (q, t'')

/-- The order of observations (of a symbol, with its history and weight) matters neither to their total probability nor to anything that follows. -/
def OrderFree (P : Predictor σ α) (s : σ) (A : List α) (W : ℝ → Prop) : Prop :=
  ∀ xs ys : List (Obs α), xs.Perm ys → (∀ x ∈ xs, x.sym ∈ A ∧ W x.weight) →
    ∃ r s' s'', P.run s xs = .ok (r, s') ∧ P.run s ys = .ok (r, s'') ∧ P.SameAnswers s' P s'' A W

end Predictor

end Verif
