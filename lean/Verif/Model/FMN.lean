import Verif.Model.PTW
import Verif.Model.LogStore

/-!
# `FMN` (model.py:796-835)

Simplification: stored models are values.  In the code the store holds objects that only it refers to (everything that
goes in or comes out is copied), so nothing else can change them.
-/

namespace Verif

/-- What `FMN` needs of a model store: `lazy_add`, which gets a callable that may raise, and iteration
(model.py:805-807). -/
structure Store (S σ : Type) where
  empty : S
  lazyAdd : S → Py σ → Py S
  items : S → List σ

/-- `LogStore` as a model store: `lazy_add` calls its argument (model.py:724-725). -/
def LogStore.store (σ : Type) : Store (LogStore σ) σ where
  empty := []
  lazyAdd s x := do
    let v ← x
    pure (s.add v)
  items := LogStore.items

/-- `LogStoreUniform` as a model store: `lazy_add` calls its argument unless it skips (model.py:781-793). -/
def LogStoreUniform.store (σ : Type) : Store (LogStoreUniform σ) σ where
  empty := .init
  lazyAdd s x :=
    if s.numToSkip ≠ 0 then pure { s with numToSkip := s.numToSkip - 1 }
    else do
      let v ← x
      pure (s.add v)
  items := LogStoreUniform.list

/-- The state of an `FMN` (model.py:810-822). -/
structure FMN (S σ : Type) where
  ptw : PTW (Averager σ)
  store : S
  t : ℕ

namespace FMN

variable {S σ α : Type}

/-- `[ m.copy() for m in self.models ]` (model.py:825). -/
def copies (P : Predictor σ α) : List σ → Py (List σ)
  | [] => pure []
  | x :: xs => do
    let y ← P.copy x
    let ys ← copies P xs
    pure (y :: ys)

/-- `FMN.model_factory` (model.py:824-825). -/
noncomputable def modelFactory (P : Predictor σ α) (ms : List σ) : Py (Averager σ) := do
  let ys ← copies P ms
  Averager.init ys

/-- `FMN.__init__` (model.py:810-822) when the given factory returns `f` and the minimum height is `m`. -/
noncomputable def init (St : Store S σ) (P : Predictor σ α) (f : σ) (m : ℕ) : Py (FMN S σ) := do
  let st ← St.lazyAdd St.empty (.ok f)
  let v ← modelFactory P (St.items st)
  pure ⟨PTW.init v m, st, 0⟩

/-- `self.map().map().copy()` (model.py:833). -/
noncomputable def best (P : Predictor σ α) (p : PTW (Averager σ)) : Py σ := do
  let a ← p.map
  let b ← a.map
  P.copy b

/-- `FMN.update` (model.py:827-835). -/
noncomputable def update (St : Store S σ) (P : Predictor σ α) (m : ℕ) (s : FMN S σ) (a : α) (h : List α) (w : ℝ) :
    Py (ℝ × FMN S σ) := do
  let (r, p) ← s.ptw.update (Averager.predictor P) (modelFactory P (St.items s.store)) m a h w
  let st ← if (s.t + 1) % 2 ^ m = 0 then St.lazyAdd s.store (best P p) else pure s.store
  pure (r, ⟨p, st, s.t + 1⟩)

/-- `log_predict` is inherited from `PTW` (model.py:625-636). -/
noncomputable def logPredict (P : Predictor σ α) (s : FMN S σ) (a : α) (h : List α) : Py (ℝ × FMN S σ) := do
  let (r, p) ← s.ptw.logPredict (Averager.predictor P) a h
  pure (r, { s with ptw := p })

/-- The methods of `FMN` (no `copy`, as for `PTW`). -/
noncomputable def predictor (St : Store S σ) (P : Predictor σ α) (m : ℕ) : Predictor (FMN S σ) α where
  update := update St P m
  logPredict := logPredict P
  copy _ := .error .notImplementedError

end FMN

end Verif
