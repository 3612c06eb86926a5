import Verif.Spec.Failures
import Verif.Model.OutOfRange

/-!
# What C135 is about
-/

namespace Verif

/-- What −1 and −2 are taken for. -/
def takenFor (i : ℤ) : ℤ := if i = -1 then 1 else if i = -2 then 0 else i

/-- A call that is refused: it raises, and changes nothing. -/
def Refused {σ α : Type} (X : XPredictor σ α) (s : σ) (a : α) (e : PyErr) : Prop :=
  ∀ h w, X.update s a h w = (.error e, s) ∧ X.logPredict s a h = (.error e, s)

/-- The calls of `modelfast.CTW_KT` that use the symbols 0, …, `k` − 1, and weights that are not negative. -/
def FastCall.Proper {k : ℕ} (c : FastCall k) : Prop := c.sym < k ∧ c.Weighted

/-- The results of proper calls of `modelfast.CTW_KT` in exact arithmetic, according to `Verif.Model.Fast`. -/
noncomputable def FastCall.exact {k : ℕ} [NeZero k] (depth : ℕ) : List (FastCall k) → CTWNode (Fin k → ℝ) (Fin k) → Py (List ℝ)
  | [], _ => .ok []
  | .update i h w :: cs, n =>
    if hi : i < k then do
      let (r, n') ← (Fast.predictor k depth).update n ⟨i, hi⟩ h w
      let rs ← exact depth cs n'
      pure (r :: rs)
    else .error .valueError
  | .predict i h :: cs, n =>
    if hi : i < k then do
      let (r, n') ← (Fast.predictor k depth).logPredict n ⟨i, hi⟩ h
      let rs ← exact depth cs n'
      pure (r :: rs)
    else .error .valueError

end Verif
