import Verif.Model.Averager
import Verif.Model.KT

/-!
# Objects of two classes in one list (model.py:838-885)

`Factored((Dumb(), CTW_KT()))` (model.py:878) calls the methods of factors of different classes.  A method call looks up the method in the
class of the object, so the objects of two classes together are a sum type and their methods are chosen by the summand.
-/

namespace Verif

namespace Predictor

variable {σ τ α : Type}

/-- The methods of objects of one of two classes: `self.factors[index].update(...)` and `.log_predict(...)` (model.py:855, 859) and
`m.copy()` (model.py:864) dispatch on the class of the object. -/
def eitherOf (P : Predictor σ α) (Q : Predictor τ α) : Predictor (σ ⊕ τ) α where
  update
    | .inl s, a, h, w => do let (r, s') ← P.update s a h w; pure (r, .inl s')
    | .inr t, a, h, w => do let (r, t') ← Q.update t a h w; pure (r, .inr t')
  logPredict
    | .inl s, a, h => do let (r, s') ← P.logPredict s a h; pure (r, .inl s')
    | .inr t, a, h => do let (r, t') ← Q.logPredict t a h; pure (r, .inr t')
  copy
    | .inl s => do let s' ← P.copy s; pure (.inl s')
    | .inr t => do let t' ← Q.copy t; pure (.inr t')

end Predictor

/-- The methods of `Factored((Dumb(), m))` (model.py:838-885), where `m` has the methods `P`. -/
noncomputable def Observer.predictor {σ α : Type} (P : Predictor σ α) : Predictor (Factored (Unit ⊕ σ)) α :=
  Factored.predictor (Predictor.eitherOf Dumb.predictor P)

/-- The object `Factored((Dumb(), m))` (model.py:850-851, 878). -/
def Observer.init {σ : Type} (s : σ) : Factored (Unit ⊕ σ) := ⟨[.inl (), .inr s]⟩

end Verif
