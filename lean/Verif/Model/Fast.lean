import Verif.Model.CTWHeap

/-!
# `modelfast.CTW_KT` (modelfast.py:157-202)

The tree code is modelled in `Verif.Model.CTWHeap`; here are the parts special to `modelfast`.

Simplifications.  `double` is exact real arithmetic.  C's `log` does not raise; the counts it is applied to are
positive as long as weights are not negative.  Symbols are `Fin k`; `Verif.Model.OutOfRange` describes symbols that are
not below `ALPHABET_SIZE`, which read and write outside the arrays.
-/

namespace Verif

namespace Fast

/-- The expression `log(base_counts[symbol] / sum_counts)` (modelfast.py:96-98, 128-132). -/
noncomputable def logRatio {k : ℕ} (s : Fin k → ℝ) (a : Fin k) : ℝ :=
  Real.log (s a / ((List.finRange k).map s).sum)

/-- The counts of a node as a base model: `ctwnode_base_update` (modelfast.py:94-100) and the first lines of
`ctwnode_log_predict` (modelfast.py:128-132). -/
noncomputable def kt (k : ℕ) : Predictor (Fin k → ℝ) (Fin k) where
  update s a _ w := .ok (logRatio s a, Function.update s a (s a + w))
  logPredict s a _ := .ok (logRatio s a, s)
  copy s := .ok s

/-- Initial counts (modelfast.py:65). -/
noncomputable def fresh (k : ℕ) : Fin k → ℝ := fun _ => 1 / (k : ℝ)

/-- The context symbols that the C code reads (modelfast.py:180-190, 109): `_mkcontext` builds the same list as
`model.py`, and the C code reads positions `depth - 1` down to `0` of it. -/
def ctx {k : ℕ} [NeZero k] (depth : ℕ) (h : List (Fin k)) : List (Fin k) :=
  (CTW.mkcontext depth 0 h).take depth

/-- `modelfast.CTW_KT(depth, alphabet_size = k)` on its own, its tree not shared with a copy. -/
noncomputable def predictor (k : ℕ) [NeZero k] (depth : ℕ) : Predictor (CTWNode (Fin k → ℝ) (Fin k)) (Fin k) :=
  CTW.predictor (kt k) (fresh k) (ctx depth)

end Fast

end Verif
