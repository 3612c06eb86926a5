import Verif.Model.Learners
import Verif.Model.LearnersKT
import Verif.Model.Averager

/-!
# `learners.Averager`, `reset`, and the descriptions of `learners.PTW` (learners.py:52-57, 236-282, 394-426, 449-451)

Simplifications.
* The dictionary of `learners.Averager` is the list of its items, as for `model.Averager`; its loops are the same as those
  of model.py and the definitions are shared.
* A description such as `"PTW^2 PTW^0"` is the list of its numbers: the parts are separated by blanks and each part
  is made from its numbers by a fixed format.
-/

namespace Verif

namespace LAverager

variable {σ α : Type}

/-- `Averager.__init__` and `reset` on a list of models (learners.py:400-407). -/
noncomputable def init (ms : List σ) : Py (Averager σ) := do
  let q ← pyDiv 1 ms.length
  let l ← pyLog q
  pure ⟨ms.map fun m => (m, l), 0⟩

/-- `Averager.reset` (learners.py:404-407): new weights, the models stay as they are. -/
noncomputable def reset (s : Averager σ) : Py (Averager σ) := init (s.models.map Prod.fst)

/-- `Averager.update` (learners.py:409-414): returns `None`. -/
noncomputable def update (P : Predictor σ α) (s : Averager σ) (a : α) : Py (Averager σ) := do
  let ms ← Averager.updateModels P a [] 1 s.models
  let lp ← logsumexp (ms.map Prod.snd)
  pure ⟨ms, lp⟩

/-- A sequence of updates. -/
noncomputable def updates (P : Predictor σ α) : Averager σ → List α → Py (Averager σ)
  | s, [] => pure s
  | s, a :: as => do
    let s' ← update P s a
    updates P s' as

/-- `Averager.log_predict` (learners.py:416-418). -/
noncomputable def logPredict (P : Predictor σ α) (s : Averager σ) (a : α) : Py (ℝ × Averager σ) := do
  let (vs, ms) ← Averager.predictModels P a [] s.models
  let lp ← logsumexp vs
  pure (lp, ⟨ms, s.logProb⟩)

/-- `Averager.map` (learners.py:420-426). -/
noncomputable def map (s : Averager σ) : Py σ :=
  match s.models with
  | [] => .error .valueError
  | x :: xs => .ok (Averager.maxByKey x xs).1

/-- An `Averager` where a number is expected from `update`, as in `+= self.models[m].update(sym)` (learners.py:330, 413):
adding `None` raises TypeError. -/
noncomputable def predictor (P : Predictor σ α) : Predictor (Averager σ) α where
  update s a _ _ := do
    let _ ← update P s a
    .error .typeError
  logPredict s a _ := logPredict P s a
  copy _ := .error .attributeError

end LAverager

/-- `KT.reset` (learners.py:449-451, 52-57). -/
noncomputable def LKT.reset {α : Type} [DecidableEq α] (alphabet : List α) (s : LKT α) : Py (LKT α) := do
  let s1 := { s with logProb := 0 }
  let s2 := { s1 with numSteps := 0 }
  let d ← KT.comprehension (fun _ => pyDiv 1 (alphabet.length : ℝ)) alphabet []
  pure { s2 with counts := d }

namespace LPTW

variable {σ : Type}

/-- `reset` as inherited from `Model` (learners.py:52-57). -/
noncomputable def reset (s : LPTW σ) : LPTW σ := { s with logProb := 0, numSteps := 0 }

/-- The heights in `get_child_string` (learners.py:236-259). -/
noncomputable def childHeights (s : LPTW σ) : Py (List ℕ) :=
  if s.numSteps = 2 ^ s.depth then .ok [s.depth]
  else do
    let l ← (List.range s.depth).reverse.mapM fun i => do
      let c ← pyGet s.completed i
      pure (if c ≠ 0 then [i] else [])
    pure l.flatten

/-- The pairs of numbers in `get_model_string` (learners.py:261-282). -/
def modelIntervals (s : LPTW σ) : List (ℕ × ℤ) := s.models.keys.mergeSort.map fun k => (k, (s.numSteps : ℤ) - 1)

end LPTW

end Verif
