import Verif.Model.RoundingTower

/-!
# `KT` and `SAD` with rounded arithmetic, and models over them (model.py:81-114, 146-187)

As in `Verif/Model/Rounding.lean` every operation on `float`s is one of an arbitrary arithmetic.  Operations on `int`s are exact: `len(...)`,
`self.n - len(self.counts)` and the comparison in `min`.  The products and quotients of an `int` and a `float` are operations of the arithmetic.
A `CTW` over larger alphabets has `binary_context=False` (model.py:357-361).
-/

namespace Verif

namespace Arith

variable (R : Arith) {α : Type} [DecidableEq α]

/-- `KT(alphabet)` (model.py:92-98) without initial counts. -/
noncomputable def katInit (alphabet : List α) : Py (KT α) := do
  let d ← KT.comprehension (fun _ => R.pyDiv 1 (alphabet.length : ℝ)) alphabet []
  pure { counts := d, sumCounts := d.values.foldl R.add 0 }

/-- `KT.log_predict` (model.py:106-107). -/
noncomputable def katLogPredict (s : KT α) (a : α) : Py ℝ := do
  let c ← s.counts.getE a
  let q ← R.pyDiv c s.sumCounts
  R.pyLog q

/-- `KT.update` (model.py:100-104). -/
noncomputable def katUpdate (s : KT α) (a : α) (w : ℝ) : Py (ℝ × KT α) := do
  let rv ← R.katLogPredict s a
  let c ← s.counts.getE a
  pure (rv, { counts := s.counts.set a (R.add c w), sumCounts := R.add s.sumCounts w })

/-- `KT` as a `Model` (model.py:100-114). -/
noncomputable def katPredictor : Predictor (KT α) α where
  update s a _ w := R.katUpdate s a w
  logPredict s a _ := do
    let r ← R.katLogPredict s a
    pure (r, s)
  copy s := pure { counts := s.counts, sumCounts := s.sumCounts }

/-- The `beta` computed by `SAD.log_predict` (model.py:169-173). -/
noncomputable def sadBeta (s : SAD α) : Py ℝ :=
  let m := min (s.counts.length : ℝ) s.sumCounts
  if s.sumCounts > 0 then do
    let q ← R.pyDiv (R.add s.sumCounts 1) m
    let l ← R.pyLog q
    R.pyDiv m (R.mul 2 l)
  else pure 1

/-- `SAD.log_predict` (model.py:168-179). -/
noncomputable def sadLogPredict (s : SAD α) (a : α) : Py ℝ := do
  let b ← R.sadBeta s
  match s.counts.get? a with
  | some c => do
    let q ← R.pyDiv c (R.add s.sumCounts b)
    R.pyLog q
  | none => do
    let q ← R.pyDiv b (R.mul ((s.n : ℝ) - s.counts.length) (R.add s.sumCounts b))
    R.pyLog q

/-- `SAD.update` (model.py:161-166). -/
noncomputable def sadUpdate (s : SAD α) (a : α) (w : ℝ) : Py (ℝ × SAD α) := do
  let rv ← R.sadLogPredict s a
  let d := match s.counts.get? a with
    | some _ => s.counts
    | none => s.counts.set a 0
  let c ← d.getE a
  pure (rv, { n := s.n, counts := d.set a (R.add c w), sumCounts := R.add s.sumCounts w })

/-- `SAD` as a `Model` (model.py:161-187). -/
noncomputable def sadPredictor : Predictor (SAD α) α where
  update s a _ w := R.sadUpdate s a w
  logPredict s a _ := do
    let r ← R.sadLogPredict s a
    pure (r, s)
  copy s := pure { n := s.n, counts := s.counts, sumCounts := s.sumCounts }

end Arith

namespace Layer

variable {σ α : Type} [DecidableEq α]

/-- The state of a tower over a model with states in `σ`, whose contexts are symbols of `α`. -/
def StateOver (σ α : Type) : List Layer → Type
  | [] => σ
  | .ctw _ :: ls => CTWNode (StateOver σ α ls) α
  | .ptw _ :: ls => PTW (StateOver σ α ls)
  | .fixed _ _ :: ls => PTW (StateOver σ α ls)

/-- The constructors (model.py:350-362, 601-610, 666-668); `fresh` is the state of a new base model. -/
noncomputable def newOver (α : Type) (fresh : σ) : (ls : List Layer) → StateOver σ α ls
  | [] => fresh
  | .ctw _ :: ls => CTW.init (newOver α fresh ls)
  | .ptw h0 :: ls => PTW.init (newOver α fresh ls) h0
  | .fixed h0 _ :: ls => PTW.init (newOver α fresh ls) h0

/-- A tower in an arithmetic; the symbol `pad` is 0 (model.py:343-348). -/
noncomputable def roundedOver (R : Arith) (P : Predictor σ α) (fresh : σ) (pad : α) : (ls : List Layer) → Predictor (StateOver σ α ls) α
  | [] => P
  | .ctw d :: ls => R.ctwPredictor (roundedOver R P fresh pad ls) (newOver α fresh ls) (CTW.mkcontext d pad)
  | .ptw h0 :: ls => R.ptwPredictor (roundedOver R P fresh pad ls) (newOver α fresh ls) h0
  | .fixed h0 height :: ls => R.ptwFixedPredictor (roundedOver R P fresh pad ls) (newOver α fresh ls) h0 height

/-- A tower in exact arithmetic. -/
noncomputable def exactOver (P : Predictor σ α) (fresh : σ) (pad : α) : (ls : List Layer) → Predictor (StateOver σ α ls) α
  | [] => P
  | .ctw d :: ls => CTW.predictor (exactOver P fresh pad ls) (newOver α fresh ls) (CTW.mkcontext d pad)
  | .ptw h0 :: ls => PTW.predictor (exactOver P fresh pad ls) (newOver α fresh ls) h0
  | .fixed h0 height :: ls => PTWFixedLength.predictor (exactOver P fresh pad ls) (newOver α fresh ls) h0 height

end Layer

end Verif
