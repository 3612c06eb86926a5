import Verif.Model.Predictor
import Verif.Model.Helpers
import Verif.Dict

/-!
# `learners.PTW` (learners.py:103-392)

Simplifications.
* The parallel dictionaries `models` and `model_log_probs`, which always have the same keys, are one dictionary of
  pairs.
* Base models take no history and no weight in learners.py: their `update` is modelled with history `[]` and weight 1.
* The factory is the model `fresh` that it returns.
* Building the message of the `ValueError` (learners.py:315) uses the `__name__` of the factory, which functions and
  classes have.
* `helpers.log_sum_exp` (helpers.py:89-104) is the same formula as `model.logsumexp`.
-/

namespace Verif

/-- `l[i] = v` for a non-negative `i`: raises `IndexError` past the end. -/
def pySet {α : Type} (l : List α) (i : ℕ) (v : α) : Py (List α) :=
  if i < l.length then .ok (l.set i v) else .error .indexError

/-- `del d[k]`: raises `KeyError` if missing. -/
def PyDict.delE {κ ν : Type} [DecidableEq κ] (d : PyDict κ ν) (k : κ) : Py (PyDict κ ν) :=
  if k ∈ d.keys then .ok (d.erase k) else .error .keyError

/-- The state of a `learners.PTW` (learners.py:192-202). -/
structure LPTW (σ : Type) where
  depth : ℕ
  numSteps : ℕ
  logProb : ℝ
  models : PyDict ℕ (σ × ℝ)
  completed : List ℝ

namespace LPTW

variable {σ α : Type}

/-- `__init__` (learners.py:180-204). -/
def init (fresh : σ) (depth : ℕ) (deepest : ℕ := 0) : Py (LPTW σ) :=
  if deepest ≠ 0 then .error .notImplementedError
  else .ok ⟨depth, 0, 0, [(0, (fresh, 0))], List.replicate (depth + 1) 0⟩

/-- The loop that updates the base models (learners.py:329-330). -/
noncomputable def updateModels (P : Predictor σ α) (a : α) : PyDict ℕ (σ × ℝ) → Py (PyDict ℕ (σ × ℝ))
  | [] => pure []
  | (k, (st, lp)) :: d => do
    let (r, st') ← P.update st a [] 1
    let d' ← updateModels P a d
    pure ((k, (st', lp + r)) :: d')

/-- The walk up the partition (learners.py:335-342): the final values of `part` and `complete`. -/
noncomputable def walk (d : PyDict ℕ (σ × ℝ)) (comp : List ℝ) (n cur : ℕ) : List ℕ → ℝ → ℝ → Py (ℝ × ℝ)
  | [], part, complete => pure (part, complete)
  | i :: is, part, complete => do
    let (_, lp) ← d.getE (binaryBoundary n i)
    let c ← pyGet comp (i - 1)
    let l ← logsumexp [lp, c + part]
    walk d comp n cur is (log05 + l) (if i = cur then log05 + l else complete)

/-- The loop that clears what is no longer needed (learners.py:350-355). -/
def cleanup (n : ℕ) : List ℕ → PyDict ℕ (σ × ℝ) → List ℝ → Py (PyDict ℕ (σ × ℝ) × List ℝ)
  | [], d, c => pure (d, c)
  | i :: is, d, c => do
    let c' ← pySet c i 0
    let d' ← if binaryBoundary n i ≠ binaryBoundary n (i + 1) then d.delE (binaryBoundary n i) else pure d
    cleanup n is d' c'

/-- `update` (learners.py:295-359). -/
noncomputable def update (P : Predictor σ α) (fresh : σ) (s : LPTW σ) (a : α) : Py (ℝ × LPTW σ) :=
  if 2 ^ s.depth ≤ s.numSteps then .error .valueError
  else do
    let n := s.numSteps
    let cur := mscb n
    let d1 ← updateModels P a (s.models.set n (fresh, 0))
    let (_, lp) ← d1.getE n
    let (part, complete) ← walk d1 s.completed n cur (List.range' 1 s.depth) lp lp
    let c1 ← pySet s.completed cur complete
    let (d2, c2) ← cleanup n (List.range cur) d1 c1
    pure (part - s.logProb, ⟨s.depth, n + 1, part, d2, c2⟩)

/-- The weighted prediction of the base model that started at `k`, or of a new one if there is none
(learners.py:387-388). -/
noncomputable def basePredict (P : Predictor σ α) (fresh : σ) (a : α) (d : PyDict ℕ (σ × ℝ)) (k : ℕ) :
    Py (ℝ × PyDict ℕ (σ × ℝ)) :=
  match d.get? k with
  | some (st, lp) => do
    let (q, st') ← P.logPredict st a []
    pure (q + lp, d.set k (st', lp))
  | none => do
    let (q, _) ← P.logPredict fresh a []
    pure (q + 0, d)

/-- The loop of `log_predict` (learners.py:385-390). -/
noncomputable def predictWalk (P : Predictor σ α) (fresh : σ) (a : α) (comp : List ℝ) (n : ℕ) :
    List ℕ → PyDict ℕ (σ × ℝ) → ℝ → Py (ℝ × PyDict ℕ (σ × ℝ))
  | [], d, pred => pure (pred, d)
  | i :: is, d, pred => do
    let (mp, d') ← basePredict P fresh a d (binaryBoundary n i)
    let c ← pyGet comp (i - 1)
    let l ← logsumexp [mp, pred + c]
    predictWalk P fresh a comp n is d' (log05 + l)

/-- `log_predict` (learners.py:362-392). -/
noncomputable def logPredict (P : Predictor σ α) (fresh : σ) (s : LPTW σ) (a : α) : Py (ℝ × LPTW σ) := do
  let (q, _) ← P.logPredict fresh a []
  let (pred, d) ← predictWalk P fresh a s.completed s.numSteps (List.range' 1 s.depth) s.models q
  pure (pred - s.logProb, { s with models := d })

/-- The methods of `learners.PTW`; history and weight are not parameters there. -/
noncomputable def predictor (P : Predictor σ α) (fresh : σ) : Predictor (LPTW σ) α where
  update s a _ _ := update P fresh s a
  logPredict s a _ := logPredict P fresh s a
  copy _ := .error .attributeError

end LPTW

end Verif
