import Verif.Py
import Mathlib.Analysis.SpecialFunctions.Log.Basic

/-!
# Feature vectors (features.py, the vector functions of utilities.py, helpers.log_sum_exp)

Simplifications.
* Floats are exact reals; numpy arrays and lists are lists.
* A discount that is `None` or `np.nan` is `none`: both take the branch of the horizon in features.py.  (utilities.py:135
  does not test for `np.nan`.)
* `features.calculate_return` (features.py:65-104) and `utilities.calculate_return` (utilities.py:105-144) are the same text
  apart from that test, and `running_mean` is the same in both files (features.py:46-58, utilities.py:236-248).
-/

namespace Verif

namespace Vectors

/-- `r[i:j]` for a list, `i` not negative. -/
def pySlice (r : List ℝ) (i : ℕ) (j : ℤ) : List ℝ :=
  let stop := if j < 0 then (j + r.length).toNat else j.toNat
  (r.take stop).drop i

/-- The loop `ret[i] = r[i] + gamma * ret[i+1]` from the end (features.py:100-103). -/
def discountLoop (gamma : ℝ) : List ℝ → List ℝ
  | [] => []
  | x :: xs =>
    match discountLoop gamma xs with
    | [] => [x]
    | y :: ys => (x + gamma * y) :: y :: ys

/-- The sums over a horizon (features.py:96-97). -/
def horizonSums (r : List ℝ) (horizon : ℤ) : List ℝ :=
  (List.range r.length).map fun i => (pySlice r i (min ((i : ℤ) + horizon) r.length)).sum

/-- `calculate_return` (features.py:65-104, utilities.py:105-144).  Adding `None` to an index raises TypeError. -/
noncomputable def calculateReturn (r : List ℝ) (gamma : Option ℝ) (horizon : Option ℤ) : Py (List ℝ) :=
  if r.length = 0 then .ok []
  else
    let byHorizon : Py (List ℝ) := match horizon with
      | none => .error .typeError
      | some h => .ok (horizonSums r h)
    match gamma with
    | none => byHorizon
    | some g => if g ≥ 1 then byHorizon else .ok (discountLoop g r)

/-- `decay_trace` (utilities.py:94-103): the loop after the first element. -/
noncomputable def traceLoop (trace maxValue : ℝ) (replacing : Bool) : ℝ → List ℝ → List ℝ
  | _, [] => []
  | prev, x :: xs =>
    let d := x + trace * prev
    let d := if replacing then min d maxValue else d
    d :: traceLoop trace maxValue replacing d xs

/-- `max` of a list of numbers, which raises for the empty list. -/
noncomputable def pyMax : List ℝ → Py ℝ
  | [] => .error .valueError
  | x :: xs => .ok (xs.foldl max x)

/-- `min` of a list of numbers. -/
noncomputable def pyMin : List ℝ → Py ℝ
  | [] => .error .valueError
  | x :: xs => .ok (xs.foldl min x)

/-- `decay_trace` (utilities.py:94-103). -/
noncomputable def decayTrace (f : List ℝ) (trace : ℝ) (replacing : Bool) : Py (List ℝ) := do
  let m ← pyMax f
  match f with
  | [] => .error .indexError
  | x :: xs => pure (x :: traceLoop trace m replacing x xs)

/-- `np.convolve(a, v)` (the full convolution), which raises for an empty argument. -/
noncomputable def convolve (a v : List ℝ) : Py (List ℝ) :=
  if a = [] ∨ v = [] then .error .valueError
  else .ok ((List.range (a.length + v.length - 1)).map fun k =>
    ∑ j ∈ Finset.range a.length, if j ≤ k ∧ k - j < v.length then a.getD j 0 * v.getD (k - j) 0 else 0)

/-- `l[i:-k]` for natural numbers: `-0` is `0`. -/
def sliceToMinus {α : Type} (l : List α) (i k : ℕ) : List α := (if k = 0 then [] else l.take (l.length - k)).drop i

/-- `running_mean` (features.py:46-58, utilities.py:236-248) for a window that is not negative. -/
noncomputable def runningMean (data : List ℝ) (n : ℕ) : Py (List ℝ) := do
  let c ← convolve data (List.replicate n (1 / (n : ℝ)))
  pure (sliceToMinus c (n - 1) (n - 1))

/-- `np.clip(x, 0, cap)`. -/
noncomputable def clip (x cap : ℝ) : ℝ := min (max x 0) cap

/-- `scale_features` (utilities.py:73-85); `cap_values` is falsy exactly if it is zero or `None`, here `0`. -/
noncomputable def scaleFeatures (f : List ℝ) (mn mx : Option ℝ) (cap : ℝ) : Py (List ℝ) := do
  let a ← (match mn with | none => pyMin f | some a => pure a)
  let b ← (match mx with | none => pyMax f | some b => pure b)
  if b - a = 0 then pure f
  else
    let g := f.map fun x => (x - a) / (b - a)
    pure (if cap ≠ 0 then g.map (clip · cap) else g)

/-- `log_sum_exp` (helpers.py:89-104, utilities.py:160-176). -/
noncomputable def logSumExp (v : List ℝ) : Py ℝ := do
  let m ← pyMax v
  let l ← pyLog ((v.map fun x => Real.exp (x - m)).sum)
  pure (m + l)

/-- `get_unitizer(max_class)(label)` for a natural number (features.py:39-44). -/
noncomputable def unitizer (maxClass label : ℕ) : Py (List ℝ) :=
  if label < maxClass then .ok ((List.replicate maxClass (0 : ℝ)).set label 1) else .error .indexError

/-- `argmax` (utilities.py:201-224): `choose` is the random choice from a non-empty list of indices. -/
noncomputable def argmax (choose : List ℕ → ℕ) (values : List ℝ) : Py ℕ := do
  let m ← pyMax values
  pure (choose ((List.range values.length).filter fun i => values.getD i 0 = m))

end Vectors

end Verif
