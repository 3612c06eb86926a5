import Verif.Model.AC

/-!
# How the arithmetic coder calls the models of model.py

The coder calls `update(symbol)` (ac.py:96, 194) and `predict(0)` (ac.py:189).  Whether such a call gets as far as the body
of the method depends only on the method's parameters.
-/

namespace Verif

namespace AC

/-- The positional parameters of a method after `self`: how many have no default, and how many have one. -/
structure Sig where
  required : ℕ
  optional : ℕ
  deriving DecidableEq

/-- Binding `n` positional arguments: Python raises `TypeError` if there are too few or too many. -/
def Sig.bind (s : Sig) (n : ℕ) : Py Unit :=
  if n < s.required ∨ s.required + s.optional < n then .error .typeError else .ok ()

/-- The concrete models of model.py. -/
inductive ModelClass
  | KT | KTBinary | SAD | Averager | CTW | CTW_KT | PTW | PTWFixedLength | FMN | Factored | Dumb
  deriving DecidableEq

/-- The parameters of `update` (model.py:100, 131, 161, 204, 370, 489, 612, 670, 828, 857, 884). -/
def ModelClass.update : ModelClass → Sig
  | KT | KTBinary | SAD | Averager | PTW | PTWFixedLength | FMN => ⟨1, 2⟩
  | CTW | CTW_KT | Factored | Dumb => ⟨2, 1⟩

/-- The parameters of `predict`, which every model inherits from `Model` (model.py:68). -/
def ModelClass.predict : ModelClass → Sig
  | _ => ⟨2, 0⟩

/-- A model of class `c` as the coder sees it: `update` gets one argument and `predict` gets one. -/
noncomputable def asCalled {σ : Type} (c : ModelClass) (P : Predictor σ Bool) : Predictor σ Bool where
  update s b h w := do
    c.update.bind 1
    P.update s b h w
  logPredict s b h := do
    c.predict.bind 1
    P.logPredict s b h
  copy := P.copy

end AC

end Verif
