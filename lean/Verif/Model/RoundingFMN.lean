import Verif.Model.RoundingPTW
import Verif.Model.FMN

/-!
# `Averager` and `FMN` in rounded arithmetic (model.py:6-8, 190-228, 638-650, 796-835)

The functions of `Verif.Model.Averager` and `Verif.Model.FMN`, with every sum, difference, quotient, logarithm and exponential replaced by the
operation of an `Arith`, in the order of the code.  The simplifications of those files apply.  `sum` adds from left to right, each addition rounded;
Python from version 3.12 on adds floating-point numbers with a correction, which is more accurate.  Comparisons are those of the rounded numbers.
-/

namespace Verif

/-- Calls of the methods of objects of different classes: each object has its own state and methods. -/
def Predictor.sigma {ι α : Type} {σ : ι → Type} (P : (i : ι) → Predictor (σ i) α) : Predictor ((i : ι) × σ i) α where
  update s a h w := do
    let (r, t) ← (P s.1).update s.2 a h w
    pure (r, ⟨s.1, t⟩)
  logPredict s a h := do
    let (r, t) ← (P s.1).logPredict s.2 a h
    pure (r, ⟨s.1, t⟩)
  copy s := do
    let t ← (P s.1).copy s.2
    pure ⟨s.1, t⟩

namespace Arith

variable {σ α S : Type} (R : Arith)

/-- `logsumexp(*vals)` (model.py:6-8). -/
noncomputable def logsumexp : List ℝ → Py ℝ
  | [] => .error .valueError
  | v :: vs => do
    let shift := maxOf v vs
    let l ← R.pyLog (((v :: vs).map fun u => R.exp (R.sub u shift)).foldl R.add 0)
    pure (R.add shift l)

/-- `Averager.__init__` (model.py:195-202). -/
noncomputable def avInit (ms : List σ) : Py (Averager σ) := do
  let q ← R.pyDiv 1 ms.length
  let l ← R.pyLog q
  pure ⟨ms.map fun m => (m, l), 0⟩

/-- The loop of `Averager.update` (model.py:207-208). -/
noncomputable def avUpdateModels (P : Predictor σ α) (a : α) (h : List α) (w : ℝ) : List (σ × ℝ) → Py (List (σ × ℝ))
  | [] => pure []
  | (m, lp) :: rest => do
    let (r, m') ← P.update m a h w
    let rest' ← avUpdateModels P a h w rest
    pure ((m', R.add lp r) :: rest')

/-- `Averager.update` (model.py:204-211). -/
noncomputable def avUpdate (P : Predictor σ α) (s : Averager σ) (a : α) (h : List α) (w : ℝ) : Py (ℝ × Averager σ) := do
  let ms ← R.avUpdateModels P a h w s.models
  let lp ← R.logsumexp (ms.map Prod.snd)
  pure (R.sub lp s.logProb, ⟨ms, lp⟩)

/-- The arguments that `log_predict` passes to `logsumexp` (model.py:214-215), together with the components after their `log_predict` calls. -/
noncomputable def avPredictModels (P : Predictor σ α) (a : α) (h : List α) : List (σ × ℝ) → Py (List ℝ × List (σ × ℝ))
  | [] => pure ([], [])
  | (m, lp) :: rest => do
    let (r, m') ← P.logPredict m a h
    let (vs, rest') ← avPredictModels P a h rest
    pure (R.add r lp :: vs, (m', lp) :: rest')

/-- `Averager.log_predict` (model.py:213-215). -/
noncomputable def avLogPredict (P : Predictor σ α) (s : Averager σ) (a : α) (h : List α) : Py (ℝ × Averager σ) := do
  let (vs, ms) ← R.avPredictModels P a h s.models
  let lp ← R.logsumexp vs
  pure (R.sub lp s.logProb, ⟨ms, s.logProb⟩)

/-- `Averager` as a model (model.py:190-228). -/
noncomputable def avPredictor (P : Predictor σ α) : Predictor (Averager σ) α where
  update := R.avUpdate P
  logPredict := R.avLogPredict P
  copy := Averager.copy P

/-- The candidates of `PTW.map` from a node down (model.py:641-648). -/
noncomputable def ptwMapNodes : ℝ → PTWNode σ → List (σ × ℝ)
  | left, .leaf d => [(d.base, R.add d.baseLP left)]
  | left, .inner d r => (d.base, R.add d.baseLP left) :: ptwMapNodes (R.add left (R.add d.leftLP (R.log (1 / 2)))) r

/-- `PTW.map` (model.py:638-650). -/
noncomputable def ptwMap (s : PTW σ) : Py σ :=
  match R.ptwMapNodes 0 s.tree with
  | [] => .error .valueError
  | x :: xs => .ok (Averager.maxByKey x xs).1

/-- `FMN.model_factory` (model.py:824-825). -/
noncomputable def fmnFactory (P : Predictor σ α) (ms : List σ) : Py (Averager σ) := do
  let ys ← FMN.copies P ms
  R.avInit ys

/-- `FMN.__init__` (model.py:810-822). -/
noncomputable def fmnInit (St : Store S σ) (P : Predictor σ α) (f : σ) (m : ℕ) : Py (FMN S σ) := do
  let st ← St.lazyAdd St.empty (.ok f)
  let v ← R.fmnFactory P (St.items st)
  pure ⟨PTW.init v m, st, 0⟩

/-- `self.map().map().copy()` (model.py:833). -/
noncomputable def fmnBest (P : Predictor σ α) (p : PTW (Averager σ)) : Py σ := do
  let a ← R.ptwMap p
  let b ← a.map
  P.copy b

/-- `FMN.update` (model.py:827-835). -/
noncomputable def fmnUpdate (St : Store S σ) (P : Predictor σ α) (m : ℕ) (s : FMN S σ) (a : α) (h : List α) (w : ℝ) :
    Py (ℝ × FMN S σ) := do
  let (r, p) ← R.ptwUpdate (R.avPredictor P) (R.fmnFactory P (St.items s.store)) m s.ptw a h w
  let st ← if (s.t + 1) % 2 ^ m = 0 then St.lazyAdd s.store (R.fmnBest P p) else pure s.store
  pure (r, ⟨p, st, s.t + 1⟩)

/-- `FMN.log_predict` is that of `PTW` (model.py:625-636). -/
noncomputable def fmnLogPredict (P : Predictor σ α) (s : FMN S σ) (a : α) (h : List α) : Py (ℝ × FMN S σ) := do
  let (r, p) ← R.ptwLogPredict (R.avPredictor P) s.ptw a h
  pure (r, { s with ptw := p })

/-- `FMN` as a model. -/
noncomputable def fmnPredictor (St : Store S σ) (P : Predictor σ α) (m : ℕ) : Predictor (FMN S σ) α where
  update := R.fmnUpdate St P m
  logPredict := R.fmnLogPredict P
  copy _ := .error .notImplementedError

end Arith

end Verif
