import Verif.Model.Averager
import Mathlib.Data.Nat.Log

/-!
# `PTW` and `PTWFixedLength` (model.py:504-689)

Simplifications.
* The factory of base models is the value (or exception) `fresh` that it returns when called; `PTW` calls it once per
  new node.  `FMN` passes a factory whose result changes between updates.
* `int(math.log(L, 2))` and `int(math.ceil(math.log(L, 2)))` are the exact floor and ceiling of the binary
  logarithm, for `L ≥ 1`; the floating point quotient can be off for some large `L`.
* A new node has count 0, so it is not complete and has no right child; its first update is therefore written out
  as the leaf branch (`PTWNode.update_new` shows that the general code does the same).
-/

namespace Verif

/-- The fields of a `PTW.Node` except `right_child` (model.py:515-527). -/
structure PTWData (σ : Type) where
  base : σ
  height : ℕ
  count : ℕ
  baseLP : ℝ
  leftLP : ℝ
  lp : ℝ

/-- A `PTW.Node`: `right_child` is `None` in a leaf. -/
inductive PTWNode (σ : Type)
  | leaf (d : PTWData σ)
  | inner (d : PTWData σ) (right : PTWNode σ)

namespace PTWData

variable {σ α : Type}

/-- `Node.__init__` (model.py:519-527). -/
def new (base : σ) (h0 : ℕ) : PTWData σ := ⟨base, h0, 0, 0, 0, 0⟩

/-- `partition_is_complete` (model.py:529-533). -/
def complete (d : PTWData σ) : Bool := decide (0 < d.count >>> d.height)

/-- The height correction loop (model.py:558-559, 580-581, 678-679, 686-687), `n` times. -/
noncomputable def correct (base : ℝ) : ℕ → ℝ → ℝ
  | 0, x => x
  | n + 1, x => correct base n (log05 + logsumexp2 base x)

/-- `self.base_log_prob += self.base.update(...)` (model.py:545). -/
noncomputable def baseStep (P : Predictor σ α) (d : PTWData σ) (a : α) (h : List α) (w : ℝ) : Py (PTWData σ) := do
  let (r, b) ← P.update d.base a h w
  pure { d with base := b, baseLP := d.baseLP + r }

end PTWData

namespace PTWNode

variable {σ α : Type}

/-- The fields of the node. -/
def data : PTWNode σ → PTWData σ
  | leaf d => d
  | inner d _ => d

open PTWData

/-- The code after the base update, for a node without right child (model.py:565-568). -/
noncomputable def leafUpdate (P : Predictor σ α) (d : PTWData σ) (a : α) (h : List α) (w : ℝ) : Py (PTWNode σ) := do
  let d1 ← d.baseStep P a h w
  pure (.leaf { d1 with lp := d1.baseLP, count := d1.count + 1 })

/-- The new probability of a node from its updated right child (model.py:552-568). -/
noncomputable def combine (d : PTWData σ) (r : PTWNode σ) : PTWNode σ :=
  let rlp := correct r.data.baseLP (d.height - r.data.height - 1) r.data.lp
  .inner { d with lp := log05 + logsumexp2 d.baseLP (d.leftLP + rlp), count := d.count + 1 } r

/-- The update of a complete node (model.py:539-568): it is promoted one level and gets a new right child. -/
noncomputable def promoted (P : Predictor σ α) (fresh : Py σ) (h0 : ℕ) (d : PTWData σ) (a : α) (h : List α) (w : ℝ) :
    Py (PTWNode σ) := do
  let f ← fresh
  let d0 := { d with leftLP := d.lp, height := d.height + 1 }
  let d1 ← d0.baseStep P a h w
  let r ← leafUpdate P (PTWData.new f h0) a h w
  pure (combine d1 r)

/-- `Node.update` (model.py:535-568). -/
noncomputable def update (P : Predictor σ α) (fresh : Py σ) (h0 : ℕ) (a : α) (h : List α) (w : ℝ) :
    PTWNode σ → Py (PTWNode σ)
  | leaf d => if d.complete then promoted P fresh h0 d a h w else leafUpdate P d a h w
  | inner d r =>
    if d.complete then promoted P fresh h0 d a h w
    else do
      let d1 ← d.baseStep P a h w
      let r' ← update P fresh h0 a h w r
      pure (combine d1 r')

/-- `Node.log_predict` (model.py:570-583): the triple it returns, and the node with its base models after their
`log_predict` calls. -/
noncomputable def logPredict (P : Predictor σ α) (a : α) (h : List α) :
    PTWNode σ → Py ((ℝ × ℝ × ℕ) × PTWNode σ)
  | leaf d => do
    let (q, b) ← P.logPredict d.base a h
    let blp := d.baseLP + q
    let n' := leaf { d with base := b }
    if d.complete then pure ((log05 + logsumexp2 blp d.lp, blp, d.height + 1), n')
    else pure ((blp, blp, d.height), n')
  | inner d r => do
    let (q, b) ← P.logPredict d.base a h
    let blp := d.baseLP + q
    if d.complete then pure ((log05 + logsumexp2 blp d.lp, blp, d.height + 1), inner { d with base := b } r)
    else do
      let ((rlp, rblp, rh), r') ← logPredict P a h r
      let rlp' := correct rblp (d.height - rh - 1) rlp
      pure ((log05 + logsumexp2 blp (d.leftLP + rlp'), blp, d.height), inner { d with base := b } r')

/-- The candidates of `PTW.map` from a node down (model.py:641-648): base models with their keys. -/
noncomputable def mapNodes : ℝ → PTWNode σ → List (σ × ℝ)
  | left, leaf d => [(d.base, d.baseLP + left)]
  | left, inner d r => (d.base, d.baseLP + left) :: mapNodes (left + (d.leftLP + log05)) r

/-- The base models held by a node and its descendants. -/
def bases : PTWNode σ → List σ
  | leaf d => [d.base]
  | inner d r => d.base :: bases r

end PTWNode

/-- The state of a `PTW` (model.py:605-607). -/
structure PTW (σ : Type) where
  tree : PTWNode σ
  logProb : ℝ
  adj : ℝ

namespace PTW

variable {σ α : Type}

/-- `self.min_height = int(math.log(min_partition_length, 2))` (model.py:603); raises for 0. -/
def minHeight (L : ℕ) : Py ℕ := if L = 0 then .error .valueError else .ok (Nat.log 2 L)

/-- `PTW.__init__` with base model `f` returned by the factory (model.py:601-607). -/
def init (f : σ) (h0 : ℕ) : PTW σ := ⟨.leaf (PTWData.new f h0), 0, 0⟩

/-- The adjustment after the check at the start of `update` and `log_predict` (model.py:616-617, 627-631). -/
noncomputable def adjusted (s : PTW σ) : ℝ :=
  if s.tree.data.complete then
    s.adj + (s.tree.data.lp - (log05 + logsumexp2 s.tree.data.baseLP s.tree.data.lp))
  else s.adj

/-- `PTW.update` (model.py:612-623). -/
noncomputable def update (P : Predictor σ α) (fresh : Py σ) (h0 : ℕ) (s : PTW σ) (a : α) (h : List α) (w : ℝ) :
    Py (ℝ × PTW σ) := do
  let n ← s.tree.update P fresh h0 a h w
  let lp := n.data.lp + s.adjusted
  pure (lp - s.logProb, ⟨n, lp, s.adjusted⟩)

/-- `PTW.log_predict` (model.py:625-636). -/
noncomputable def logPredict (P : Predictor σ α) (s : PTW σ) (a : α) (h : List α) : Py (ℝ × PTW σ) := do
  let ((lp, _, _), n) ← s.tree.logPredict P a h
  pure (lp + s.adjusted - s.logProb, ⟨n, s.logProb, s.adj⟩)

/-- `PTW.map` (model.py:638-650). -/
noncomputable def map (s : PTW σ) : Py σ :=
  match s.tree.mapNodes 0 with
  | [] => .error .valueError
  | x :: xs => .ok (Averager.maxByKey x xs).1

/-- The methods of `PTW` with a factory that always returns `fresh` (a copy is not implemented: `PTW` inherits
`Model.copy`, model.py:73-78). -/
noncomputable def predictor (P : Predictor σ α) (fresh : σ) (h0 : ℕ) : Predictor (PTW σ) α where
  update s := update P (.ok fresh) h0 s
  logPredict := logPredict P
  copy _ := .error .notImplementedError

end PTW

namespace PTWFixedLength

variable {σ α : Type}

/-- `self.height = int(math.ceil(math.log(length, 2)))` (model.py:668); raises for 0. -/
def heightOf (length : ℕ) : Py ℕ := if length = 0 then .error .valueError else .ok (Nat.clog 2 length)

/-- `PTWFixedLength.update` (model.py:670-681). -/
noncomputable def update (P : Predictor σ α) (fresh : Py σ) (h0 height : ℕ) (s : PTW σ) (a : α) (h : List α) (w : ℝ) :
    Py (ℝ × PTW σ) := do
  let n ← s.tree.update P fresh h0 a h w
  let lp := PTWData.correct n.data.baseLP (height - n.data.height) n.data.lp
  pure (lp - s.logProb, ⟨n, lp, s.adj⟩)

/-- `PTWFixedLength.log_predict` (model.py:683-689). -/
noncomputable def logPredict (P : Predictor σ α) (height : ℕ) (s : PTW σ) (a : α) (h : List α) : Py (ℝ × PTW σ) := do
  let ((lp, blp, ht), n) ← s.tree.logPredict P a h
  pure (PTWData.correct blp (height - ht) lp - s.logProb, ⟨n, s.logProb, s.adj⟩)

/-- The methods of `PTWFixedLength`. -/
noncomputable def predictor (P : Predictor σ α) (fresh : σ) (h0 height : ℕ) : Predictor (PTW σ) α where
  update s := update P (.ok fresh) h0 height s
  logPredict := logPredict P height
  copy _ := .error .notImplementedError

end PTWFixedLength

end Verif
