import Verif.Model.CTW

/-! The default contexts of `CTW` for any integer as depth (model.py:343-348). -/

namespace Verif

/-- `_mkcontext` (model.py:343-348) with a depth that may be negative: `[0] * padding` is empty and `x[-depth:]` is the history without its
first `-depth` symbols. -/
def CTW.mkcontextInt {α : Type} (depth : ℤ) (zero : α) (x : List α) : List α :=
  if 0 ≤ depth then CTW.mkcontext depth.toNat zero x else x.drop (-depth).toNat

end Verif
