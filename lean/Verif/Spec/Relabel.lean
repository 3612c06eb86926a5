import Verif.Model.Predictor

/-!
# Models that differ in the names of their symbols only

Specification for C138 and C139.  `f` translates the symbols of one model to the symbols of the other.
-/

namespace Verif

/-- The same exception, or related values. -/
inductive PyLift {β γ : Type} (R : β → γ → Prop) : Py β → Py γ → Prop
  | ok {u : β} {v : γ} : R u v → PyLift R (.ok u) (.ok v)
  | error (e : PyErr) : PyLift R (.error e) (.error e)

namespace Predictor

variable {σ τ α β : Type}

/-- `R` relates states that answer every call alike, the symbol and the history being translated, and go over to such states. -/
structure Corresponds (P : Predictor σ α) (Q : Predictor τ β) (f : α → β) (R : σ → τ → Prop) : Prop where
  update : ∀ s t, R s t → ∀ a h w, PyLift (fun x y => x.1 = y.1 ∧ R x.2 y.2) (P.update s a h w) (Q.update t (f a) (h.map f) w)
  logPredict : ∀ s t, R s t → ∀ a h, PyLift (fun x y => x.1 = y.1 ∧ R x.2 y.2) (P.logPredict s a h) (Q.logPredict t (f a) (h.map f))
  copy : ∀ s t, R s t → PyLift R (P.copy s) (Q.copy t)

/-- No calls of `update`, `log_predict` and `copy` tell the two models apart, the symbols being translated. -/
def Alike (P : Predictor σ α) (Q : Predictor τ β) (f : α → β) (s : σ) (t : τ) : Prop := ∃ R, Corresponds P Q f R ∧ R s t

end Predictor

/-- An observation in other symbols. -/
def Obs.translate {α β : Type} (f : α → β) (o : Obs α) : Obs β := ⟨f o.sym, o.hist.map f, o.weight⟩

end Verif
