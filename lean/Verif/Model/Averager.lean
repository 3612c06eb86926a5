import Verif.Model.Predictor

/-!
# `Averager` and `Factored` (model.py:190-228, 838-865)

Simplification: `Averager.models` is a dictionary keyed by component objects (hashed by identity); it is
modelled as the list of its items, so the components are distinct objects.  Components of different classes
are covered by taking a sum type for `σ`.
-/

namespace Verif

/-- The state of an `Averager`: components with log weights, and the cumulative log probability
(model.py:200-202). -/
structure Averager (σ : Type) where
  models : List (σ × ℝ)
  logProb : ℝ

namespace Averager

variable {σ α : Type}

/-- `Averager.__init__` (model.py:195-202); `1.0 / len(models)` raises on an empty list. -/
noncomputable def init (ms : List σ) : Py (Averager σ) := do
  let q ← pyDiv 1 ms.length
  let l ← pyLog q
  pure ⟨ms.map fun m => (m, l), 0⟩

/-- The loop of `update` (model.py:207-208). -/
noncomputable def updateModels (P : Predictor σ α) (a : α) (h : List α) (w : ℝ) :
    List (σ × ℝ) → Py (List (σ × ℝ))
  | [] => pure []
  | (m, lp) :: rest => do
    let (r, m') ← P.update m a h w
    let rest' ← updateModels P a h w rest
    pure ((m', lp + r) :: rest')

/-- `Averager.update` (model.py:204-211). -/
noncomputable def update (P : Predictor σ α) (s : Averager σ) (a : α) (h : List α) (w : ℝ) :
    Py (ℝ × Averager σ) := do
  let ms ← updateModels P a h w s.models
  let lp ← logsumexp (ms.map Prod.snd)
  pure (lp - s.logProb, ⟨ms, lp⟩)

/-- The arguments that `log_predict` passes to `logsumexp` (model.py:214-215), together with the
components after their `log_predict` calls. -/
noncomputable def predictModels (P : Predictor σ α) (a : α) (h : List α) :
    List (σ × ℝ) → Py (List ℝ × List (σ × ℝ))
  | [] => pure ([], [])
  | (m, lp) :: rest => do
    let (r, m') ← P.logPredict m a h
    let (vs, rest') ← predictModels P a h rest
    pure ((r + lp) :: vs, (m', lp) :: rest')

/-- `Averager.log_predict` (model.py:213-215). -/
noncomputable def logPredict (P : Predictor σ α) (s : Averager σ) (a : α) (h : List α) :
    Py (ℝ × Averager σ) := do
  let (vs, ms) ← predictModels P a h s.models
  let lp ← logsumexp vs
  pure (lp - s.logProb, ⟨ms, s.logProb⟩)

/-- The dictionary comprehension in `copy` (model.py:220). -/
def copyModels (P : Predictor σ α) : List (σ × ℝ) → Py (List (σ × ℝ))
  | [] => pure []
  | (m, lp) :: rest => do
    let m' ← P.copy m
    let rest' ← copyModels P rest
    pure ((m', lp) :: rest')

/-- `Averager.copy` (model.py:217-222). -/
def copy (P : Predictor σ α) (s : Averager σ) : Py (Averager σ) := do
  let ms ← copyModels P s.models
  pure ⟨ms, s.logProb⟩

/-- Python's `max` of a sequence with a key: keeps the earlier element unless a later one is strictly
larger. -/
noncomputable def maxByKey : σ × ℝ → List (σ × ℝ) → σ × ℝ
  | best, [] => best
  | best, x :: xs => maxByKey (if best.2 < x.2 then x else best) xs

/-- `Averager.map` (model.py:224-228); `max` of an empty dictionary raises `ValueError`. -/
noncomputable def map (s : Averager σ) : Py σ :=
  match s.models with
  | [] => .error .valueError
  | x :: xs => .ok (maxByKey x xs).1

/-- The methods of `Averager` over components with methods `P`. -/
noncomputable def predictor (P : Predictor σ α) : Predictor (Averager σ) α where
  update := update P
  logPredict := logPredict P
  copy := copy P

end Averager

/-- The state of a `Factored` model: its list of factors (model.py:848-851). -/
structure Factored (σ : Type) where
  factors : List σ

namespace Factored

variable {σ α : Type}

/-- `index = len(history) % len(self.factors)` (model.py:854, 858); raises when there are no factors. -/
def index (s : Factored σ) (h : List α) : Py ℕ :=
  if s.factors.length = 0 then .error .zeroDivisionError else .ok (h.length % s.factors.length)

/-- `Factored.log_predict` (model.py:853-855). -/
def logPredict (P : Predictor σ α) (s : Factored σ) (a : α) (h : List α) : Py (ℝ × Factored σ) := do
  let i ← s.index h
  let m ← pyGet s.factors i
  let (r, m') ← P.logPredict m a h
  pure (r, ⟨s.factors.set i m'⟩)

/-- `Factored.update` (model.py:857-859).  Line 859 calls the factor's `update` without the weight, which
therefore takes its default `1.0`; the parameter `_w` is unused exactly as in the code. -/
noncomputable def update (P : Predictor σ α) (s : Factored σ) (a : α) (h : List α) (_w : ℝ) :
    Py (ℝ × Factored σ) := do
  let i ← s.index h
  let m ← pyGet s.factors i
  let (r, m') ← P.update m a h 1
  pure (r, ⟨s.factors.set i m'⟩)

/-- `Factored.copy` (model.py:861-865). -/
def copy (P : Predictor σ α) (s : Factored σ) : Py (Factored σ) := do
  let fs ← s.factors.mapM P.copy
  pure ⟨fs⟩

/-- The methods of `Factored` over factors with methods `P`. -/
noncomputable def predictor (P : Predictor σ α) : Predictor (Factored σ) α where
  update := update P
  logPredict := logPredict P
  copy := copy P

end Factored

end Verif
