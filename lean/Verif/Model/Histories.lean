import Verif.Model.FMN
import Verif.Model.CTW

/-!
# What is passed as `history` (model.py:26-71, 93-157, 204-215, 343-375, 477-493, 612-689, 827-859, 884-888)

The other models of `Verif.Model` take the history to be a list.  Here it is a Python value: nothing (the default `None`), a list or a tuple.
A class that only hands its history on is described by the model for lists, run with parts that have been given the history already.

Second part: contexts that are the caller's own list.
-/

namespace Verif

/-- A value passed as `history`. -/
inductive Hist (α : Type)
  | none
  | list (l : List α)
  | tuple (l : List α)

namespace Hist

variable {α : Type}

/-- `len(history)`. -/
def len : Hist α → Py ℕ
  | none => .error .typeError
  | list l => .ok l.length
  | tuple l => .ok l.length

/-- `_mkcontext` (model.py:343-348, 477-482): `len` of `None` raises, and so does the sum of a list and a tuple. -/
def mkcontext (depth : ℕ) (zero : α) (x : Hist α) : Py (List α) := do
  let n ← x.len
  match x with
  | none => .error .typeError
  | list l => pure (List.replicate (depth - n) zero ++ pyTail l depth)
  | tuple _ => .error .typeError

/-- `history.append(symbol)` (model.py:52, 64). -/
def append (a : α) : Hist α → Py (Hist α)
  | none => .error .attributeError
  | list l => .ok (list (l ++ [a]))
  | tuple _ => .error .attributeError

/-- `history[-n:] = []` (model.py:53, 65). -/
def delTail (n : ℕ) : Hist α → Py (Hist α)
  | none => .error .typeError
  | list l => .ok (list (pyDelTail l n))
  | tuple _ => .error .typeError

end Hist

/-- The methods of a `Model` that may be given any value as history (model.py:26-44, 73-78). -/
structure HPredictor (σ α : Type) where
  update : σ → α → Hist α → ℝ → Py (ℝ × σ)
  logPredict : σ → α → Hist α → Py (ℝ × σ)
  copy : σ → Py σ

namespace HPredictor

variable {S σ κ α : Type}

/-- The methods of an object when `history=x` is passed to it whenever it is called. -/
def given (Q : HPredictor σ α) (x : Hist α) : Predictor σ α where
  update s a _ w := Q.update s a x w
  logPredict s a _ := Q.logPredict s a x
  copy := Q.copy

/-- Classes whose methods do not use their history: `KT`, `KTBinary`, `SAD`, `Dumb` (model.py:105-112, 138-145, 165-187, 884-888). -/
def unused (P : Predictor σ α) : HPredictor σ α where
  update s a _ w := P.update s a [] w
  logPredict s a _ := P.logPredict s a []
  copy := P.copy

/-- `Averager` (model.py:204-222), which hands its history on. -/
noncomputable def averager (Q : HPredictor σ α) : HPredictor (Averager σ) α where
  update s a x w := (Averager.predictor (Q.given x)).update s a [] w
  logPredict s a x := (Averager.predictor (Q.given x)).logPredict s a []
  copy := Averager.copy (Q.given .none)

/-- `PTW` (model.py:612-636), which hands its history on. -/
noncomputable def ptw (Q : HPredictor σ α) (fresh : σ) (h0 : ℕ) : HPredictor (PTW σ) α where
  update s a x w := (PTW.predictor (Q.given x) fresh h0).update s a [] w
  logPredict s a x := (PTW.predictor (Q.given x) fresh h0).logPredict s a []
  copy _ := .error .notImplementedError

/-- `PTWFixedLength` (model.py:670-689), which hands its history on. -/
noncomputable def ptwFixedLength (Q : HPredictor σ α) (fresh : σ) (h0 height : ℕ) : HPredictor (PTW σ) α where
  update s a x w := (PTWFixedLength.predictor (Q.given x) fresh h0 height).update s a [] w
  logPredict s a x := (PTWFixedLength.predictor (Q.given x) fresh h0 height).logPredict s a []
  copy _ := .error .notImplementedError

/-- `FMN` (model.py:824-835), which hands its history on. -/
noncomputable def fmn (St : Store S σ) (Q : HPredictor σ α) (m : ℕ) : HPredictor (FMN S σ) α where
  update s a x w := (FMN.predictor St (Q.given x) m).update s a [] w
  logPredict s a x := (FMN.predictor St (Q.given x) m).logPredict s a []
  copy _ := .error .notImplementedError

/-- `Factored` (model.py:853-865), which takes the length of its history and hands it on. -/
noncomputable def factored (Q : HPredictor σ α) : HPredictor (Factored σ) α where
  update s a x _ := do
    let n ← x.len
    if s.factors.length = 0 then .error .zeroDivisionError
    else do
      let m ← pyGet s.factors (n % s.factors.length)
      let (r, m') ← Q.update m a x 1
      pure (r, ⟨s.factors.set (n % s.factors.length) m'⟩)
  logPredict s a x := do
    let n ← x.len
    if s.factors.length = 0 then .error .zeroDivisionError
    else do
      let m ← pyGet s.factors (n % s.factors.length)
      let (r, m') ← Q.logPredict m a x
      pure (r, ⟨s.factors.set (n % s.factors.length) m'⟩)
  copy := Factored.copy (Q.given .none)

/-- `CTW` (model.py:370-382) with a context function that may raise.  The nodes hand the history on (model.py:268-314). -/
noncomputable def ctw [DecidableEq κ] (Q : HPredictor σ α) (fresh : σ) (ctx : Hist α → Py (List κ)) : HPredictor (CTWNode σ κ) α where
  update n a x w := do
    let c ← ctx x
    n.update (Q.given x) fresh a [] w c.reverse
  logPredict n a x := do
    let c ← ctx x
    n.logPredict (Q.given x) fresh a [] c.reverse
  copy n := do
    let b ← Q.copy n.base
    pure (.mk b n.baseLP n.childrenLP n.lp n.children)

/-- `CTW_KT` (model.py:477-501). -/
noncomputable def ctwKT (depth : ℕ) : HPredictor KNode Bool where
  update n a x w := do
    let c ← x.mkcontext depth false
    n.update a w c.reverse
  logPredict n a x := do
    let c ← x.mkcontext depth false
    n.logPredict a c.reverse
  copy n := pure n

variable (Q : HPredictor σ α)

/-- The loop of `update_seq` (model.py:50-52): what it returns or raises, and the object and the caller's history afterwards.  An object that
raises in its own `update` is left here as it was (for what it is left in, see C121). -/
noncomputable def updateSeqLoop (w : ℝ) : σ → List α → Hist α → ℝ → Py ℝ × σ × Hist α
  | s, [], x, rv => (.ok rv, s, x)
  | s, a :: as, x, rv =>
    match Q.update s a x w with
    | .error e => (.error e, s, x)
    | .ok (r, s') =>
      match x.append a with
      | .error e => (.error e, s', x)
      | .ok x' => updateSeqLoop w s' as x' (rv + r)

/-- `update_seq` (model.py:46-54). -/
noncomputable def updateSeq (s : σ) (seq : List α) (x : Hist α) (w : ℝ) : Py ℝ × σ × Hist α :=
  match Q.updateSeqLoop w s seq x 0 with
  | (.error e, s', x') => (.error e, s', x')
  | (.ok rv, s', x') =>
    match x'.delTail seq.length with
    | .error e => (.error e, s', x')
    | .ok x'' => (.ok rv, s', x'')

end HPredictor

/-! ## A context that is the history itself -/

namespace CTWNode

variable {σ α : Type} [DecidableEq α]

/-- `Node.update` (model.py:268-297) when `context` and `history` are one list, of which the last symbol is first here: a base model is
given what is left of it, and `context.pop()` shortens both.  On success nothing is left. -/
noncomputable def updateShared (P : Predictor σ α) (fresh : σ) (a : α) (w : ℝ) : List α → CTWNode σ α → Py (ℝ × CTWNode σ α)
  | [], n => do
    let (r, b) ← P.update n.base a [] w
    let blp := n.baseLP + r
    pure (blp - n.lp, mk b blp n.childrenLP blp n.children)
  | c :: cs, n => do
    let (r, b) ← P.update n.base a (c :: cs).reverse w
    let blp := n.baseLP + r
    let child := (n.children c).getD (new fresh)
    let (rc, child') ← updateShared P fresh a w cs child
    let clp := n.childrenLP + rc
    let lp := log05 + logsumexp2 blp clp
    pure (lp - n.lp, mk b blp clp lp (Function.update n.children c (some child')))

/-- `Node.log_predict` (model.py:299-314) in the same case. -/
noncomputable def logPredictShared (P : Predictor σ α) (fresh : σ) (a : α) : List α → CTWNode σ α → Py (ℝ × CTWNode σ α)
  | [], n => do
    let (r, b) ← P.logPredict n.base a []
    pure (n.baseLP + r - n.lp, mk b n.baseLP n.childrenLP n.lp n.children)
  | c :: cs, n => do
    let (r, b) ← P.logPredict n.base a (c :: cs).reverse
    let blp := n.baseLP + r
    let child := (n.children c).getD (new fresh)
    let (rc, child') ← logPredictShared P fresh a cs child
    let clp := n.childrenLP + rc
    pure (log05 + logsumexp2 blp clp - n.lp,
      mk b n.baseLP n.childrenLP n.lp (Function.update n.children c (some child')))

end CTWNode

namespace SharedCTW

variable {σ α : Type} [DecidableEq α]

/-- `update` (model.py:370-372) of a `CTW` made with `mkcontext=lambda history: history`: the result, and the caller's list afterwards. -/
noncomputable def update (P : Predictor σ α) (fresh : σ) (n : CTWNode σ α) (a : α) (h : List α) (w : ℝ) :
    Py (ℝ × CTWNode σ α × List α) := do
  let (r, n') ← n.updateShared P fresh a w h.reverse
  pure (r, n', [])

/-- `log_predict` (model.py:374-375). -/
noncomputable def logPredict (P : Predictor σ α) (fresh : σ) (n : CTWNode σ α) (a : α) (h : List α) :
    Py (ℝ × CTWNode σ α × List α) := do
  let (r, n') ← n.logPredictShared P fresh a h.reverse
  pure (r, n', [])

/-- The loop of `update_seq` (model.py:50-52). -/
noncomputable def updateSeqLoop (P : Predictor σ α) (fresh : σ) (w : ℝ) :
    CTWNode σ α → List α → List α → ℝ → Py (ℝ × CTWNode σ α × List α)
  | n, [], h, rv => pure (rv, n, h)
  | n, a :: as, h, rv => do
    let (r, n', h') ← update P fresh n a h w
    updateSeqLoop P fresh w n' as (h' ++ [a]) (rv + r)

/-- `update_seq` (model.py:46-54). -/
noncomputable def updateSeq (P : Predictor σ α) (fresh : σ) (n : CTWNode σ α) (seq h : List α) (w : ℝ) :
    Py (ℝ × CTWNode σ α × List α) := do
  let (rv, n', h') ← updateSeqLoop P fresh w n seq h 0
  pure (rv, n', pyDelTail h' seq.length)

end SharedCTW

end Verif
