import Verif.Model.LogSumExp

/-!
# The `Model` interface (model.py:17-78)

A sequence predictor is a record of its methods.  A method that mutates `self` returns the new state.
`log_predict` also returns a state because some models (CTW) create nodes while predicting.
-/

namespace Verif

/-- The methods of a `Model` with state `σ` over symbols `α` (model.py:26-44, 73-78). -/
structure Predictor (σ α : Type) where
  /-- `update(symbol, history, weight)` (model.py:26). -/
  update : σ → α → List α → ℝ → Py (ℝ × σ)
  /-- `log_predict(symbol, history)` (model.py:39). -/
  logPredict : σ → α → List α → Py (ℝ × σ)
  /-- `copy()` (model.py:73). -/
  copy : σ → Py σ

/-- One call of `update`: a symbol, the history it is presented with, and its weight. -/
structure Obs (α : Type) where
  sym : α
  hist : List α
  weight : ℝ

namespace Predictor

variable {σ α : Type} (P : Predictor σ α)

/-- `predict(symbol, history)` (model.py:68-71). -/
noncomputable def predict (s : σ) (a : α) (h : List α) : Py (ℝ × σ) := do
  let (r, s') ← P.logPredict s a h
  pure (Real.exp r, s')

/-- A sequence of `update` calls: the sum of the returned values and the final state. -/
noncomputable def run (s : σ) : List (Obs α) → Py (ℝ × σ)
  | [] => pure (0, s)
  | o :: os => do
    let (r, s') ← P.update s o.sym o.hist o.weight
    let (r', s'') ← run s' os
    pure (r + r', s'')

/-- The loop of `update_seq` (model.py:50-52); `history.append` is visible in the returned history. -/
noncomputable def updateSeqLoop (w : ℝ) : σ → List α → List α → ℝ → Py (ℝ × σ × List α)
  | s, [], h, rv => pure (rv, s, h)
  | s, a :: as, h, rv => do
    let (r, s') ← P.update s a h w
    updateSeqLoop w s' as (h ++ [a]) (rv + r)

/-- `update_seq(seq, history, weight)` (model.py:46-54): the returned value, the new state and the
caller's history list afterwards.  Line 53 is `history[-len(seq):] = []`. -/
noncomputable def updateSeq (s : σ) (seq h : List α) (w : ℝ) : Py (ℝ × σ × List α) := do
  let (rv, s', h') ← P.updateSeqLoop w s seq h 0
  pure (rv, s', pyDelTail h' seq.length)

/-- The loop of `log_predict_seq` (model.py:62-64). -/
noncomputable def logPredictSeqLoop : σ → List α → List α → ℝ → Py (ℝ × σ × List α)
  | s, [], h, rv => pure (rv, s, h)
  | s, a :: as, h, rv => do
    let (r, s') ← P.logPredict s a h
    logPredictSeqLoop s' as (h ++ [a]) (rv + r)

/-- `log_predict_seq(seq, history)` (model.py:56-66). -/
noncomputable def logPredictSeq (s : σ) (seq h : List α) : Py (ℝ × σ × List α) := do
  let (rv, s', h') ← P.logPredictSeqLoop s seq h 0
  pure (rv, s', pyDelTail h' seq.length)

end Predictor

end Verif
