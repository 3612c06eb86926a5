import Verif.Model.FMN
import Verif.Model.AC

/-!
# `min_partition_length` of any value (model.py:601-607, 529-533, 811-823)

The argument is a real number, and logarithms are exact.
-/

namespace Verif

/-- `int(math.log(min_partition_length, 2))` (model.py:603). -/
noncomputable def PTW.minHeightOf (x : ℝ) : Py ℤ := do
  let l ← pyLog x
  pure (pyInt (l / Real.log 2))

/-- The methods of `PTW` with any `min_height`.  The first thing `update` and `log_predict` do is `self.count >> self.height`
(model.py:533, 616, 627), which raises ValueError if the height is negative. -/
noncomputable def PTW.predictorOf {σ α : Type} (P : Predictor σ α) (fresh : σ) (m : ℤ) : Predictor (PTW σ) α where
  update s a h w := if m < 0 then .error .valueError else (PTW.predictor P fresh m.toNat).update s a h w
  logPredict s a h := if m < 0 then .error .valueError else (PTW.predictor P fresh m.toNat).logPredict s a h
  copy := (PTW.predictor P fresh m.toNat).copy

/-- `FMN.__init__` (model.py:811-823) with any `min_partition_length`; `1 << self.min_height` raises if the height is negative. -/
noncomputable def FMN.initOf {S σ α : Type} (St : Store S σ) (P : Predictor σ α) (f : σ) (x : ℝ) : Py (FMN S σ) := do
  let m ← PTW.minHeightOf x
  let s ← FMN.init St P f m.toNat
  if m < 0 then .error .valueError else pure s

end Verif
