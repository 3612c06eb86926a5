import Verif.Model.Ctw

/-!
# `ctw.FMN` (ctw.py:375-387)

Simplifications.
* The store holds objects of classes without `__eq__`, each added once, so `set(self.models)` has the same elements as the
  store, in an order that depends on addresses.  The order is a function `ord`, given the time; that it permutes is a
  hypothesis of the theorems.
* `deepcopy` of a value is the value.  `Base()` is computed before the update rather than when `PTW` calls it: at most one
  call is made, the store does not change before it, and over a non-empty store it does not raise.
-/

namespace Verif

/-- `PTW.map` (ctw.py:319-332). -/
noncomputable def CPTW.map {σ α : Type} (Q : ProbSeq σ α) (s : CPTW σ) : Py σ :=
  match s.tree.mapNodes Q 0 with
  | [] => .error .valueError
  | x :: xs => .ok (Averager.maxByKey x xs).1

/-- The state of a `ctw.FMN` (ctw.py:376-379). -/
structure CFMN (S σ : Type) where
  ptw : CPTW (CAverager σ)
  store : S

namespace CFMN

variable {S σ α : Type}

/-- `Base` (ctw.py:381-382). -/
noncomputable def base (St : Store S σ) (Q : ProbSeq σ α) (ord : List σ → List σ) (st : S) : Py (CAverager σ) :=
  CAverager.init Q (ord (St.items st))

/-- `__init__` (ctw.py:376-379) when the given factory returns `f`; `add` is `lazy_add` of a constant. -/
noncomputable def init (St : Store S σ) (Q : ProbSeq σ α) (ord : List σ → List σ) (f : σ) : Py (CFMN S σ) := do
  let st ← St.lazyAdd St.empty (.ok f)
  let v ← base St Q ord st
  pure ⟨CPTW.init v, st⟩

/-- `update` (ctw.py:384-387). -/
noncomputable def update (St : Store S σ) (Q : ProbSeq σ α) (ord : ℕ → List σ → List σ) (height : ℕ) (s : CFMN S σ)
    (a : α) (w : ℝ) : Py (ℝ × CFMN S σ) := do
  let v ← base St Q (ord s.ptw.tree.data.t) s.store
  let (rv, p) ← s.ptw.update (CAverager.probSeq Q) v height a w
  let m ← p.map (CAverager.probSeq Q)
  let b ← m.map Q
  let st ← St.lazyAdd s.store (.ok b)
  pure (rv, ⟨p, st⟩)

/-- `log_predict` is inherited from `PTW` (ctw.py:310-317). -/
noncomputable def logPredict (St : Store S σ) (Q : ProbSeq σ α) (ord : List σ → List σ) (height : ℕ) (s : CFMN S σ)
    (a : α) : Py (ℝ × CFMN S σ) := do
  let v ← base St Q ord s.store
  let (r, p) ← s.ptw.logPredict (CAverager.probSeq Q) v height a
  pure (r, ⟨p, s.store⟩)

/-- The interface of an `FMN`; `log_predict` sees the elements of a set in the order `ord'`. -/
noncomputable def probSeq (St : Store S σ) (Q : ProbSeq σ α) (ord ord' : ℕ → List σ → List σ) (height : ℕ) :
    ProbSeq (CFMN S σ) α where
  update := update St Q ord height
  logPredict s := logPredict St Q (ord' s.ptw.tree.data.t) height s
  lp s := s.ptw.logProb
  setLP s x := { s with ptw := { s.ptw with logProb := x } }

end CFMN

end Verif
