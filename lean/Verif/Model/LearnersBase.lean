import Verif.Model.LearnersMore
import Verif.Model.Ctw

/-!
# The base class of learners.py, `learners.SAD`, and `total_loss` of ctw.py (learners.py:11-57, 497-526, ctw.py:53-55)

Simplification: an object of `learners.SAD` is used through its methods only; attributes added to it from outside are not modelled.
-/

namespace Verif

/-- A class of learners.py: what `update`, `log_predict` and `reset` do to an object, and the attribute `log_prob`
(learners.py:11-57). -/
structure Learner (σ α : Type) where
  update : σ → α → Py (ℝ × σ)
  logPredict : σ → α → Py (ℝ × σ)
  reset : σ → Py σ
  logProb : σ → ℝ

namespace Learner

variable {σ α : Type}

/-- `predict` (learners.py:42-43). -/
noncomputable def predict (L : Learner σ α) (s : σ) (a : α) : Py (ℝ × σ) := do
  let (r, s') ← L.logPredict s a
  pure (Real.exp r, s')

/-- The property `total_loss` (learners.py:45-50). -/
def totalLoss (L : Learner σ α) (s : σ) : ℝ := -L.logProb s

/-- `from_sequence` (learners.py:13-19): after making an object, `helpers.listify` is looked up; learners.py imports the names of
helpers.py but not the name `helpers` (learners.py:8), so that NameError is raised. -/
def fromSequence (construct : Py σ) : Py σ := do
  let _ ← construct
  .error .nameError

end Learner

/-- `learners.KT` (learners.py:429-495). -/
noncomputable def LKT.learner {α : Type} [DecidableEq α] (alphabet : List α) : Learner (LKT α) α where
  update := LKT.update
  logPredict s a := do
    let r ← s.logPredict a
    pure (r, s)
  reset := LKT.reset alphabet
  logProb := LKT.logProb

/-- `learners.PTW` (learners.py:103-392). -/
noncomputable def LPTW.learner {σ α : Type} (P : Predictor σ α) (fresh : σ) : Learner (LPTW σ) α where
  update := LPTW.update P fresh
  logPredict := LPTW.logPredict P fresh
  reset s := .ok s.reset
  logProb := LPTW.logProb

/-- The property `total_loss` of ctw.py (ctw.py:53-55), which has no minus sign. -/
def ProbSeq.totalLoss {σ α : Type} (Q : ProbSeq σ α) (s : σ) : ℝ := Q.lp s

/-- An object of `learners.SAD`: `log_prob` and `num_steps` exist only after `reset` (learners.py:504-507, 52-57). -/
structure LSAD where
  n : ℕ
  sumCounts : ℕ
  logProb : Option ℝ

namespace LSAD

/-- `__init__` (learners.py:504-507), which makes an attribute `counters` that is not used, does not call `reset` and does not make
`counts`. -/
def init (n : ℕ) : LSAD := ⟨n, 0, none⟩

/-- `reset`, inherited (learners.py:52-57). -/
def reset (s : LSAD) : LSAD := { s with logProb := some 0 }

/-- `update` (learners.py:509-515): the parameter is called `symb` and the body uses `sym`. -/
def update {α : Type} (_ : LSAD) (_ : α) : Py (ℝ × LSAD) := .error .nameError

/-- `log_predict` (learners.py:517-526): `self.counts` does not exist. -/
def logPredict {α : Type} (_ : LSAD) (_ : α) : Py (ℝ × LSAD) := .error .attributeError

/-- `total_loss` (learners.py:45-50). -/
def totalLoss (s : LSAD) : Py ℝ :=
  match s.logProb with
  | some r => .ok (-r)
  | none => .error .attributeError

end LSAD

end Verif
