import Verif.Model.Rounding
import Verif.Model.PTW

/-!
# `PTW` and `PTWFixedLength` in rounded arithmetic (model.py:504-689)

The methods of `Verif.Model.PTW`, with every sum, difference, logarithm and exponential replaced by the operation of an `Arith`,
in the order of the code.  Counts and heights are integers and stay exact.  The simplifications of `Verif.Model.PTW` apply.
-/

namespace Verif

namespace Arith

variable {σ α : Type} (R : Arith)

/-- The height correction loop (model.py:558-559, 678-679), `n` times. -/
noncomputable def ptwCorrect (base : ℝ) : ℕ → ℝ → Py ℝ
  | 0, x => .ok x
  | n + 1, x => do
    let l ← R.logsumexp2 base x
    ptwCorrect base n (R.add (R.log (1 / 2)) l)

/-- `self.base_log_prob += self.base.update(...)` (model.py:545). -/
noncomputable def ptwBaseStep (P : Predictor σ α) (d : PTWData σ) (a : α) (h : List α) (w : ℝ) : Py (PTWData σ) := do
  let (r, b) ← P.update d.base a h w
  pure { d with base := b, baseLP := R.add d.baseLP r }

/-- The code after the base update, for a node without right child (model.py:565-568). -/
noncomputable def ptwLeafUpdate (P : Predictor σ α) (d : PTWData σ) (a : α) (h : List α) (w : ℝ) : Py (PTWNode σ) := do
  let d1 ← R.ptwBaseStep P d a h w
  pure (.leaf { d1 with lp := d1.baseLP, count := d1.count + 1 })

/-- The new probability of a node from its updated right child (model.py:552-568). -/
noncomputable def ptwCombine (d : PTWData σ) (r : PTWNode σ) : Py (PTWNode σ) := do
  let rlp ← R.ptwCorrect r.data.baseLP (d.height - r.data.height - 1) r.data.lp
  let l ← R.logsumexp2 d.baseLP (R.add d.leftLP rlp)
  pure (.inner { d with lp := R.add (R.log (1 / 2)) l, count := d.count + 1 } r)

/-- The update of a complete node (model.py:539-568). -/
noncomputable def ptwPromoted (P : Predictor σ α) (fresh : Py σ) (h0 : ℕ) (d : PTWData σ) (a : α) (h : List α) (w : ℝ) :
    Py (PTWNode σ) := do
  let f ← fresh
  let d0 := { d with leftLP := d.lp, height := d.height + 1 }
  let d1 ← R.ptwBaseStep P d0 a h w
  let r ← R.ptwLeafUpdate P (PTWData.new f h0) a h w
  R.ptwCombine d1 r

/-- `Node.update` (model.py:535-568). -/
noncomputable def ptwNodeUpdate (P : Predictor σ α) (fresh : Py σ) (h0 : ℕ) (a : α) (h : List α) (w : ℝ) :
    PTWNode σ → Py (PTWNode σ)
  | .leaf d => if d.complete then R.ptwPromoted P fresh h0 d a h w else R.ptwLeafUpdate P d a h w
  | .inner d r =>
    if d.complete then R.ptwPromoted P fresh h0 d a h w
    else do
      let d1 ← R.ptwBaseStep P d a h w
      let r' ← ptwNodeUpdate P fresh h0 a h w r
      R.ptwCombine d1 r'

/-- The adjustment after the check at the start of `update` (model.py:616-617). -/
noncomputable def ptwAdjusted (s : PTW σ) : Py ℝ :=
  if s.tree.data.complete then do
    let l ← R.logsumexp2 s.tree.data.baseLP s.tree.data.lp
    pure (R.add s.adj (R.sub s.tree.data.lp (R.add (R.log (1 / 2)) l)))
  else .ok s.adj

/-- `PTW.update` (model.py:612-623). -/
noncomputable def ptwUpdate (P : Predictor σ α) (fresh : Py σ) (h0 : ℕ) (s : PTW σ) (a : α) (h : List α) (w : ℝ) :
    Py (ℝ × PTW σ) := do
  let adj ← R.ptwAdjusted s
  let n ← R.ptwNodeUpdate P fresh h0 a h w s.tree
  let lp := R.add n.data.lp adj
  pure (R.sub lp s.logProb, ⟨n, lp, adj⟩)

/-- `PTWFixedLength.update` (model.py:670-681). -/
noncomputable def ptwFixedUpdate (P : Predictor σ α) (fresh : Py σ) (h0 height : ℕ) (s : PTW σ) (a : α) (h : List α) (w : ℝ) :
    Py (ℝ × PTW σ) := do
  let n ← R.ptwNodeUpdate P fresh h0 a h w s.tree
  let lp ← R.ptwCorrect n.data.baseLP (height - n.data.height) n.data.lp
  pure (R.sub lp s.logProb, ⟨n, lp, s.adj⟩)

/-- `Node.log_predict` (model.py:570-583). -/
noncomputable def ptwNodeLogPredict (P : Predictor σ α) (a : α) (h : List α) : PTWNode σ → Py ((ℝ × ℝ × ℕ) × PTWNode σ)
  | .leaf d => do
    let (q, b) ← P.logPredict d.base a h
    let blp := R.add d.baseLP q
    if d.complete then do
      let l ← R.logsumexp2 blp d.lp
      pure ((R.add (R.log (1 / 2)) l, blp, d.height + 1), .leaf { d with base := b })
    else pure ((blp, blp, d.height), .leaf { d with base := b })
  | .inner d r => do
    let (q, b) ← P.logPredict d.base a h
    let blp := R.add d.baseLP q
    if d.complete then do
      let l ← R.logsumexp2 blp d.lp
      pure ((R.add (R.log (1 / 2)) l, blp, d.height + 1), .inner { d with base := b } r)
    else do
      let ((rlp, rblp, rh), r') ← ptwNodeLogPredict P a h r
      let rlp' ← R.ptwCorrect rblp (d.height - rh - 1) rlp
      let l ← R.logsumexp2 blp (R.add d.leftLP rlp')
      pure ((R.add (R.log (1 / 2)) l, blp, d.height), .inner { d with base := b } r')

/-- The adjustment as `log_predict` computes it (model.py:627-631).  The sum is taken in another order than in `update`. -/
noncomputable def ptwAdjustedPredict (s : PTW σ) : Py ℝ :=
  if s.tree.data.complete then do
    let l ← R.logsumexp2 s.tree.data.baseLP s.tree.data.lp
    pure (R.sub (R.add s.adj s.tree.data.lp) (R.add (R.log (1 / 2)) l))
  else .ok s.adj

/-- `PTW.log_predict` (model.py:625-636). -/
noncomputable def ptwLogPredict (P : Predictor σ α) (s : PTW σ) (a : α) (h : List α) : Py (ℝ × PTW σ) := do
  let adj ← R.ptwAdjustedPredict s
  let ((lp, _, _), n) ← R.ptwNodeLogPredict P a h s.tree
  pure (R.sub (R.add lp adj) s.logProb, ⟨n, s.logProb, s.adj⟩)

/-- `PTWFixedLength.log_predict` (model.py:683-689). -/
noncomputable def ptwFixedLogPredict (P : Predictor σ α) (height : ℕ) (s : PTW σ) (a : α) (h : List α) : Py (ℝ × PTW σ) := do
  let ((lp, blp, ht), n) ← R.ptwNodeLogPredict P a h s.tree
  let lp' ← R.ptwCorrect blp (height - ht) lp
  pure (R.sub lp' s.logProb, ⟨n, s.logProb, s.adj⟩)

/-- `PTW` as a model. -/
noncomputable def ptwPredictor (P : Predictor σ α) (fresh : σ) (h0 : ℕ) : Predictor (PTW σ) α where
  update s := R.ptwUpdate P (.ok fresh) h0 s
  logPredict := R.ptwLogPredict P
  copy _ := .error .notImplementedError

/-- `PTWFixedLength` as a model. -/
noncomputable def ptwFixedPredictor (P : Predictor σ α) (fresh : σ) (h0 height : ℕ) : Predictor (PTW σ) α where
  update s := R.ptwFixedUpdate P (.ok fresh) h0 height s
  logPredict := R.ptwFixedLogPredict P height
  copy _ := .error .notImplementedError

end Arith

end Verif
