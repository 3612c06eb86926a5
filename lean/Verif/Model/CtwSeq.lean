import Verif.Model.Ctw

/-!
# Sequences in ctw.py, and `ctw.SAD`

`CTW.log_predict_seq` works on a copy of the history list, which is a value here.  For `use_history`, which makes a model and
its caller share one list, the state holds the present content of that list, and a change by the caller is a step of its own.
-/

namespace Verif

namespace ProbSeq

variable {σ α : Type} (Q : ProbSeq σ α)

/-- The loop of `update_seq` (ctw.py:39-40), without the local variable `rv`, which is not used. -/
def updateSeqLoop (w : ℝ) : σ → List α → Py σ
  | s, [] => pure s
  | s, a :: as => do
    let (_, s') ← Q.update s a w
    updateSeqLoop w s' as

/-- `update_seq` (ctw.py:36-41). -/
noncomputable def updateSeq (s : σ) (seq : List α) (w : ℝ) : Py (ℝ × σ) := do
  let s' ← Q.updateSeqLoop w s seq
  pure (Q.lp s' - Q.lp s, s')

/-- The loop of `log_predict_seq` (ctw.py:45-46). -/
noncomputable def logPredictSeqLoop : σ → List α → ℝ → Py (ℝ × σ)
  | s, [], rv => pure (rv, s)
  | s, a :: as, rv => do
    let (r, s') ← Q.logPredict s a
    logPredictSeqLoop s' as (rv + r)

/-- `log_predict_seq` (ctw.py:43-47). -/
noncomputable def logPredictSeq (s : σ) (seq : List α) : Py (ℝ × σ) := Q.logPredictSeqLoop s seq 0

end ProbSeq

namespace CCTW

variable {σ α : Type} [DecidableEq α]

/-- The loop of `CTW.log_predict_seq` (ctw.py:204-206). -/
noncomputable def logPredictSeqLoop (Q : ProbSeq σ α) (fresh : σ) (depth : ℕ) (zero : α) :
    CCTWNode σ α → List α → List α → ℝ → Py (ℝ × CCTWNode σ α)
  | t, _, [], rv => pure (rv, t)
  | t, h, a :: as, rv => do
    let (r, t') ← t.logPredict Q fresh a depth (CTW.mkcontext depth zero h).reverse
    logPredictSeqLoop Q fresh depth zero t' (h ++ [a]) as (rv + r)

/-- `CTW.log_predict_seq` (ctw.py:201-207). -/
noncomputable def logPredictSeq (Q : ProbSeq σ α) (fresh : σ) (depth : ℕ) (zero : α) (s : CCTW σ α) (seq : List α) :
    Py (ℝ × CCTW σ α) := do
  let (r, t) ← logPredictSeqLoop Q fresh depth zero s.tree s.history seq 0
  pure (r, ⟨t, s.history⟩)

/-- A `ctw.CTW` with `update_history` (ctw.py:17-24); `history` is the present content of the list that it refers to. -/
structure Shared (σ α : Type) where
  ctw : CCTW σ α
  own : Bool

/-- What happens to a `ctw.CTW` and its history list: calls of its methods, and changes of the list by the caller. -/
inductive HOp (α : Type)
  | useHistory (h : List α) (own : Bool)
  | change (h : List α)
  | reset
  | update (a : α) (w : ℝ)
  | predict (a : α)

/-- `use_history` (ctw.py:22-24), `reset_history` (ctw.py:32-34), `update` with its test of `update_history` (ctw.py:166-173),
and `log_predict` (ctw.py:184-185). -/
noncomputable def Shared.step (Q : ProbSeq σ α) (fresh : σ) (depth : ℕ) (zero : α) (s : Shared σ α) :
    HOp α → Py (Option ℝ × Shared σ α)
  | .useHistory h own => pure (none, ⟨⟨s.ctw.tree, h⟩, own⟩)
  | .change h => pure (none, ⟨⟨s.ctw.tree, h⟩, s.own⟩)
  | .reset => if s.own then pure (none, ⟨⟨s.ctw.tree, []⟩, s.own⟩) else .error .assertionError
  | .update a w => do
    let t ← s.ctw.tree.update Q fresh a w depth (CTW.mkcontext depth zero s.ctw.history).reverse
    pure (some (t.lp - s.ctw.tree.lp), ⟨⟨t, if s.own then s.ctw.history ++ [a] else s.ctw.history⟩, s.own⟩)
  | .predict a => do
    let (r, t) ← s.ctw.tree.logPredict Q fresh a depth (CTW.mkcontext depth zero s.ctw.history).reverse
    pure (some r, ⟨⟨t, s.ctw.history⟩, s.own⟩)

/-- The results of a sequence of such steps, up to the first exception, each with the content of the list after it. -/
noncomputable def Shared.outputs (Q : ProbSeq σ α) (fresh : σ) (depth : ℕ) (zero : α) :
    Shared σ α → List (HOp α) → List (Py (Option ℝ × List α))
  | _, [] => []
  | s, o :: os =>
    match s.step Q fresh depth zero o with
    | .error e => [.error e]
    | .ok (r, s') => .ok (r, s'.ctw.history) :: Shared.outputs Q fresh depth zero s' os

end CCTW

/-- State of `ctw.SAD` (ctw.py:85-89). -/
structure CSAD (α : Type) where
  n : ℤ
  counts : PyDict α ℝ
  t : ℝ
  logProb : ℝ

namespace CSAD

variable {α : Type} [DecidableEq α]

/-- `__init__` (ctw.py:85-89). -/
def init (n : ℤ) : CSAD α := ⟨n, [], 0, 0⟩

/-- `beta` (ctw.py:100-101). -/
noncomputable def beta (s : CSAD α) : Py ℝ :=
  let m := min (s.counts.length : ℝ) s.t
  if s.t > 0 then do
    let q ← pyDiv (s.t + 1) m
    let l ← pyLog q
    pyDiv m (2 * l)
  else pure 1

/-- `log_predict` (ctw.py:99-106). -/
noncomputable def logPredict (s : CSAD α) (a : α) : Py ℝ := do
  let b ← s.beta
  match s.counts.get? a with
  | some c => do
    let q ← pyDiv c (s.t + b)
    pyLog q
  | none => do
    let q ← pyDiv b (((s.n : ℝ) - s.counts.length) * (s.t + b))
    pyLog q

/-- `update` (ctw.py:91-97). -/
noncomputable def update (s : CSAD α) (a : α) (w : ℝ) : Py (ℝ × CSAD α) := do
  let rv ← s.logPredict a
  let d := match s.counts.get? a with
    | some _ => s.counts
    | none => s.counts.set a 0
  let c ← d.getE a
  pure (rv, ⟨s.n, d.set a (c + w), s.t + w, s.logProb + rv⟩)

noncomputable def probSeq : ProbSeq (CSAD α) α where
  update := update
  logPredict s a := do
    let r ← s.logPredict a
    pure (r, s)
  lp := logProb
  setLP s x := { s with logProb := x }

end CSAD

end Verif
