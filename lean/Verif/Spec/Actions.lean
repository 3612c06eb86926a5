import Verif.Model.Predictor

/-!
# Sequences of actions and observations
-/

namespace Verif

variable {α : Type}

/-- The sequence in which each action is followed by its observation. -/
def alternate (ps : List (α × α)) : List α := ps.flatMap fun p => [p.1, p.2]

/-- The observations alone, each with everything before it, including the action just taken, as its history. -/
def observed (h : List α) : List (α × α) → List (Obs α)
  | [] => []
  | (a, o) :: ps => ⟨o, h ++ [a], 1⟩ :: observed (h ++ [a, o]) ps

/-- The actions that a policy chooses from what has happened, given the observations. -/
def play (π : List α → α) (h : List α) : List α → List (α × α)
  | [] => []
  | o :: os => (π h, o) :: play π (h ++ [π h, o]) os

/-- How often a rule, which says the observation from the action and the observation before it, is wrong. -/
def mistakes (f : Bool → Bool → Bool) (prev : Bool) : List (Bool × Bool) → ℕ
  | [] => 0
  | (a, o) :: ps => (if f a prev = o then 0 else 1) + mistakes f o ps

/-- Calls of `log_predict` for observations, without `update`: the sum of the values and the final state. -/
noncomputable def Predictor.predictAll {σ : Type} (P : Predictor σ α) (s : σ) : List (Obs α) → Py (ℝ × σ)
  | [] => pure (0, s)
  | o :: os => do
    let (r, s') ← P.logPredict s o.sym o.hist
    let (r', s'') ← Predictor.predictAll P s' os
    pure (r + r', s'')

end Verif
