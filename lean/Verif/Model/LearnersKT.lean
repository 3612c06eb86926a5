import Verif.Model.KT

/-!
# `learners.KT` (learners.py:429-495)

Simplification: the pandas `Series` of counts is a dictionary; reading a missing label raises `KeyError`.
-/

namespace Verif

/-- The state of a `learners.KT` (learners.py:52-57, 445-451). -/
structure LKT (α : Type) where
  counts : PyDict α ℝ
  numSteps : ℕ
  logProb : ℝ

namespace LKT

variable {α : Type} [DecidableEq α]

/-- `__init__` and `reset` (learners.py:435-451). -/
noncomputable def init (alphabet : List α) : Py (LKT α) := do
  let d ← KT.comprehension (fun _ => pyDiv 1 (alphabet.length : ℝ)) alphabet []
  pure ⟨d, 0, 0⟩

/-- `log_predict` (learners.py:469-481); `loss` (learners.py:483-495) returns the same. -/
noncomputable def logPredict (s : LKT α) (a : α) : Py ℝ := do
  let c ← s.counts.getE a
  let x ← pyLog c
  let y ← pyLog ((s.numSteps : ℝ) + 1)
  pure (x - y)

/-- `update` (learners.py:453-467). -/
noncomputable def update (s : LKT α) (a : α) : Py (ℝ × LKT α) := do
  let d ← s.logPredict a
  let c ← s.counts.getE a
  pure (d, ⟨s.counts.set a (c + 1), s.numSteps + 1, s.logProb + d⟩)

/-- `learners.KT` takes neither history nor weight. -/
noncomputable def predictor : Predictor (LKT α) α where
  update s a _ _ := s.update a
  logPredict s a _ := do
    let r ← s.logPredict a
    pure (r, s)
  copy s := .ok s

end LKT

end Verif
