import Verif.Model.RoundingPTW

/-!
# Models over models, in rounded and in exact arithmetic (model.py:231-382, 504-689)

`CTW`, `PTW` and `PTWFixedLength` take any model as base, so `PTW(lambda: CTW(8))` is a model as well.  A list of layers describes such a
tower; at its bottom is `KTBinary`.  The contexts of a `CTW` are the last symbols of the history, padded with 0 (model.py:343-348).
-/

namespace Verif

/-- A model over another. -/
inductive Layer
  | /-- `CTW(depth, model_factory)` (model.py:231-382). -/ ctw (depth : ℕ)
  | /-- `PTW(model_factory, min_partition_length)` (model.py:504-650); `h0` is the height of the smallest nodes. -/ ptw (h0 : ℕ)
  | /-- `PTWFixedLength(length, model_factory, min_partition_length)` (model.py:653-689). -/ fixed (h0 height : ℕ)

namespace Layer

/-- The state of a tower. -/
def State : List Layer → Type
  | [] => KTBinary
  | .ctw _ :: ls => CTWNode (State ls) Bool
  | .ptw _ :: ls => PTW (State ls)
  | .fixed _ _ :: ls => PTW (State ls)

/-- The constructors (model.py:127-129, 350-362, 601-610, 666-668). -/
noncomputable def new : (ls : List Layer) → State ls
  | [] => KTBinary.init none
  | .ctw _ :: ls => CTW.init (new ls)
  | .ptw h0 :: ls => PTW.init (new ls) h0
  | .fixed h0 _ :: ls => PTW.init (new ls) h0

/-- A tower in an arithmetic. -/
noncomputable def rounded (R : Arith) : (ls : List Layer) → Predictor (State ls) Bool
  | [] => R.ktPredictor
  | .ctw d :: ls => R.ctwPredictor (rounded R ls) (new ls) (CTW.mkcontext d false)
  | .ptw h0 :: ls => R.ptwPredictor (rounded R ls) (new ls) h0
  | .fixed h0 height :: ls => R.ptwFixedPredictor (rounded R ls) (new ls) h0 height

/-- A tower in exact arithmetic. -/
noncomputable def exact : (ls : List Layer) → Predictor (State ls) Bool
  | [] => KTBinary.predictor
  | .ctw d :: ls => CTW.predictor (exact ls) (new ls) (CTW.mkcontext d false)
  | .ptw h0 :: ls => PTW.predictor (exact ls) (new ls) h0
  | .fixed h0 height :: ls => PTWFixedLength.predictor (exact ls) (new ls) h0 height

end Layer

end Verif
