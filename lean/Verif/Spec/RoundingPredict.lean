import Verif.Spec.Predictor

/-! What is asked of the values that a sequence of calls returns in two arithmetics. -/

namespace Verif

variable {σ σ' α : Type}

namespace Predictor

/-- The number of updates among the calls. -/
def updates : List (Call α) → ℕ
  | [] => 0
  | .update _ _ _ :: cs => updates cs + 1
  | .predict _ _ :: cs => updates cs

/-- The symbols are of the alphabet, and the weights of the updates are 1. -/
def Call.Plain (A : List α) : Call α → Prop
  | .update a _ w => a ∈ A ∧ w = 1
  | .predict a _ => a ∈ A

/-- All calls succeed with both models, and their results differ by at most `δ`. -/
def AllNear (δ : ℝ) (P' : Predictor σ' α) (s' : σ') (P : Predictor σ α) (s : σ) (cs : List (Call α)) : Prop :=
  (P'.outputs s' cs).length = cs.length ∧
    List.Forall₂ (fun o' o => ∃ r' r, o' = .ok r' ∧ o = .ok r ∧ |r' - r| ≤ δ) (P'.outputs s' cs) (P.outputs s cs)

/-- `log_predict` returns in every state what `update` would return, with any weight, or raises the same exception. -/
def Previews (P : Predictor σ α) : Prop :=
  ∀ s a h w, (P.logPredict s a h).map Prod.fst = (P.update s a h w).map Prod.fst

/-- The state after calls, none of which raised. -/
def after (P : Predictor σ α) (s : σ) (cs : List (Call α)) : Py σ := cs.foldlM (fun s c => (P.step s c).map Prod.snd) s

end Predictor

end Verif
