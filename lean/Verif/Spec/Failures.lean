import Verif.Model.Failures
import Verif.Spec.Predictor

/-!
# What failed updates should leave behind

Stated only with the results of calls.
-/

namespace Verif

/-- Not an update with a negative weight. -/
def Predictor.Call.Fair {α : Type} : Predictor.Call α → Prop
  | .update _ _ w => 0 ≤ w
  | .predict _ _ => True

/-- A call of `update`. -/
def Predictor.Call.IsUpdate {α : Type} : Predictor.Call α → Prop
  | .update _ _ _ => True
  | .predict _ _ => False

namespace XPredictor

open Predictor

variable {σ α : Type}

/-- The description of the methods without the state after an exception is the same. -/
structure Models (X : XPredictor σ α) (P : Predictor σ α) : Prop where
  update : ∀ s a h w, P.update s a h w = (fun r => (r, (X.update s a h w).2)) <$> (X.update s a h w).1
  logPredict : ∀ s a h, P.logPredict s a h = (fun r => (r, (X.logPredict s a h).2)) <$> (X.logPredict s a h).1

/-- One call: what is returned or raised, and the new state. -/
def call (X : XPredictor σ α) (s : σ) : Call α → Py ℝ × σ
  | .update a h w => X.update s a h w
  | .predict a h => X.logPredict s a h

/-- What a caller sees of a sequence of calls who catches every exception and goes on. -/
def outcomes (X : XPredictor σ α) : σ → List (Call α) → List (Py ℝ)
  | _, [] => []
  | s, c :: cs => (X.call s c).1 :: outcomes X (X.call s c).2 cs

/-- The state after these calls. -/
def after (X : XPredictor σ α) : σ → List (Call α) → σ
  | s, [] => s
  | s, c :: cs => after X (X.call s c).2 cs

/-- Whatever was called before, an update that raises cannot be noticed in later calls. -/
def Transparent (X : XPredictor σ α) (s : σ) : Prop :=
  ∀ (cs : List (Call α)) (c : Call α) (e : PyErr) (cs' : List (Call α)), (∀ x ∈ cs ++ c :: cs', x.Fair) → c.IsUpdate →
    (X.call (X.after s cs) c).1 = .error e → X.outcomes (X.call (X.after s cs) c).2 cs' = X.outcomes (X.after s cs) cs'

/-- Whatever was called before, an update that raises cannot be noticed in later updates. -/
def FailSafe (X : XPredictor σ α) (s : σ) : Prop :=
  ∀ (cs : List (Call α)) (c : Call α) (e : PyErr) (cs' : List (Call α)), (∀ x ∈ cs ++ c :: cs', x.Fair) → c.IsUpdate →
    (∀ x ∈ cs', x.IsUpdate) →
    (X.call (X.after s cs) c).1 = .error e → X.outcomes (X.call (X.after s cs) c).2 cs' = X.outcomes (X.after s cs) cs'

/-- Whether an update with a weight that is not negative raises depends on the symbol and the history alone, for the states in `Inv`; if it raises
nothing is changed, otherwise the new state is in `Inv`. -/
structure Atomic (X : XPredictor σ α) (Inv : σ → Prop) (err : α → List α → Option PyErr) : Prop where
  fails : ∀ s a h w e, Inv s → 0 ≤ w → err a h = some e → X.update s a h w = (.error e, s)
  works : ∀ s a h w, Inv s → 0 ≤ w → err a h = none → ∃ r s', X.update s a h w = (.ok r, s') ∧ Inv s'
  predicts : ∀ s a h, Inv s → Inv (X.logPredict s a h).2

end XPredictor

end Verif
