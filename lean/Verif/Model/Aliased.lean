import Verif.Dict
import Verif.Model.Averager

/-!
# Objects that are used more than once (model.py:190-228, 838-865)

Here an object is its identity `ι`, and a heap `ι → σ` tells the state of every object.  So one object can occur several times in the list
that `Averager` or `Factored` is given, be a part of several mixtures, or be used by the caller directly.

Simplification: the parts themselves are objects that share nothing with each other.
-/

namespace Verif

/-- An `Averager`: the dictionary from its models, hashed by identity, to their log weights, and the cumulative log probability
(model.py:199-202). -/
structure AvgObj (ι : Type) where
  models : PyDict ι ℝ
  logProb : ℝ

namespace AvgObj

variable {ι σ α : Type} [DecidableEq ι]

/-- `Averager.__init__` (model.py:195-202): the weights are those of a list with as many models, the dictionary has each object once. -/
noncomputable def init (ms : List ι) : Py (AvgObj ι) := do
  let q ← pyDiv 1 ms.length
  let l ← pyLog q
  pure ⟨ms.foldl (fun d m => d.set m l) [], 0⟩

/-- The loop of `update` (model.py:207-208). -/
noncomputable def updateModels (P : Predictor σ α) (a : α) (h : List α) (w : ℝ) : PyDict ι ℝ → (ι → σ) → Py (PyDict ι ℝ × (ι → σ))
  | [], H => pure ([], H)
  | (m, lp) :: rest, H => do
    let (r, s) ← P.update (H m) a h w
    let (rest', H') ← updateModels P a h w rest (Function.update H m s)
    pure ((m, lp + r) :: rest', H')

/-- `Averager.update` (model.py:204-211). -/
noncomputable def update (P : Predictor σ α) (v : AvgObj ι) (H : ι → σ) (a : α) (h : List α) (w : ℝ) : Py (ℝ × AvgObj ι × (ι → σ)) := do
  let (d, H') ← updateModels P a h w v.models H
  let lp ← logsumexp d.values
  pure (lp - v.logProb, ⟨d, lp⟩, H')

/-- The arguments that `log_predict` passes to `logsumexp` (model.py:214-215), and the objects after their calls. -/
noncomputable def predictModels (P : Predictor σ α) (a : α) (h : List α) : PyDict ι ℝ → (ι → σ) → Py (List ℝ × (ι → σ))
  | [], H => pure ([], H)
  | (m, lp) :: rest, H => do
    let (r, s) ← P.logPredict (H m) a h
    let (vs, H') ← predictModels P a h rest (Function.update H m s)
    pure ((r + lp) :: vs, H')

/-- `Averager.log_predict` (model.py:213-215). -/
noncomputable def logPredict (P : Predictor σ α) (v : AvgObj ι) (H : ι → σ) (a : α) (h : List α) : Py (ℝ × AvgObj ι × (ι → σ)) := do
  let (vs, H') ← predictModels P a h v.models H
  let lp ← logsumexp vs
  pure (lp - v.logProb, v, H')

/-- The methods of an `Averager` that alone uses its models, which are the objects on the heap.  Copies, whose models are new objects, are not
described here (C50). -/
noncomputable def predictor (P : Predictor σ α) : Predictor (AvgObj ι × (ι → σ)) α where
  update s a h w := update P s.1 s.2 a h w
  logPredict s a h := logPredict P s.1 s.2 a h
  copy _ := .error .notImplementedError

end AvgObj

/-- Objects, and mixtures over some of them. -/
structure World (ι κ σ : Type) where
  heap : ι → σ
  mix : κ → AvgObj ι

/-- What a program can do with them: call the methods of an object or of a mixture. -/
inductive WorldCall (ι κ α : Type)
  | update (i : ι) (a : α) (h : List α) (w : ℝ)
  | predict (i : ι) (a : α) (h : List α)
  | mixUpdate (j : κ) (a : α) (h : List α) (w : ℝ)
  | mixPredict (j : κ) (a : α) (h : List α)

namespace World

variable {ι κ σ α : Type} [DecidableEq ι] [DecidableEq κ]

/-- One call. -/
noncomputable def step (P : Predictor σ α) (x : World ι κ σ) : WorldCall ι κ α → Py (ℝ × World ι κ σ)
  | .update i a h w => do
    let (r, s) ← P.update (x.heap i) a h w
    pure (r, ⟨Function.update x.heap i s, x.mix⟩)
  | .predict i a h => do
    let (r, s) ← P.logPredict (x.heap i) a h
    pure (r, ⟨Function.update x.heap i s, x.mix⟩)
  | .mixUpdate j a h w => do
    let (r, v, H) ← (x.mix j).update P x.heap a h w
    pure (r, ⟨H, Function.update x.mix j v⟩)
  | .mixPredict j a h => do
    let (r, v, H) ← (x.mix j).logPredict P x.heap a h
    pure (r, ⟨H, Function.update x.mix j v⟩)

/-- A program. -/
noncomputable def steps (P : Predictor σ α) (x : World ι κ σ) : List (WorldCall ι κ α) → Py (World ι κ σ)
  | [] => pure x
  | c :: cs => do
    let (_, x') ← step P x c
    steps P x' cs

end World

namespace FactoredObj

variable {ι σ α : Type} [DecidableEq ι]

/-- `index = len(history) % len(self.factors)` (model.py:854, 858). -/
def factor (fs : List ι) (h : List α) : Py ι :=
  if fs.length = 0 then .error .zeroDivisionError else pyGet fs (h.length % fs.length)

/-- `Factored.update` of a model whose factors are the objects `fs` (model.py:857-859). -/
noncomputable def update (P : Predictor σ α) (fs : List ι) (H : ι → σ) (a : α) (h : List α) (_w : ℝ) : Py (ℝ × (ι → σ)) := do
  let i ← factor fs h
  let (r, s) ← P.update (H i) a h 1
  pure (r, Function.update H i s)

/-- `Factored.log_predict` (model.py:853-855). -/
noncomputable def logPredict (P : Predictor σ α) (fs : List ι) (H : ι → σ) (a : α) (h : List α) : Py (ℝ × (ι → σ)) := do
  let i ← factor fs h
  let (r, s) ← P.logPredict (H i) a h
  pure (r, Function.update H i s)

/-- `Factored.copy` (model.py:861-865): every factor of the copy is an object of its own, so that the copy is a `Factored` without shared
factors. -/
def copy (P : Predictor σ α) (fs : List ι) (H : ι → σ) : Py (Factored σ) := do
  let ms ← fs.mapM fun i => P.copy (H i)
  pure ⟨ms⟩

/-- The methods of `Factored` while its factors are used by it alone; for `copy` see above. -/
noncomputable def predictor (P : Predictor σ α) (fs : List ι) : Predictor (ι → σ) α where
  update := update P fs
  logPredict := logPredict P fs
  copy H := pure H

end FactoredObj

end Verif
