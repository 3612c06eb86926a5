import Verif.Py

/-!
# Splitting data (experiment.py:57-91, helpers.py:490-552)

Simplifications.
* A data frame is its list of rows; `data.ix[l]` on row numbers is the list of these rows.
* `random.shuffle` is a function `shuffle`; that it permutes is a hypothesis of the theorems.
* `gap` and `nsample` are natural numbers.
* Labels can be compared for equality (NaN is not modelled), and are compared exactly: pandas converts integers to floats
  when it shifts a series.  A dictionary is the list of its items in order of insertion.
-/

namespace Verif

namespace Splitting

/-- `range(start, stop, step)` for natural numbers and a positive step. -/
def rangeStep (start stop step : ℕ) : List ℕ :=
  (List.range ((stop - start + step - 1) / step)).map fun i => start + i * step

/-- The first rows of the samples (experiment.py:80-81): a step of zero raises ValueError. -/
def firsts (gap nsample n : ℕ) : Py (List ℕ) :=
  if gap + nsample = 0 then .error .valueError else .ok (rangeStep gap (n - (gap + nsample)) (gap + nsample))

/-- The rows of the samples starting at `l`, in order (experiment.py:85-88). -/
def sampleRows (nsample : ℕ) (l : List ℕ) : List ℕ :=
  (l.flatMap fun i => (List.range nsample).map fun j => i + j).mergeSort

/-- The two lists of row numbers of the split `'sample'` (experiment.py:80-88): training first. -/
def sampleSplit (shuffle : List ℕ → List ℕ) (gap nsample n : ℕ) : Py (List ℕ × List ℕ) := do
  let fs ← firsts gap nsample n
  let fs := shuffle fs
  let half := fs.length / 2
  pure (sampleRows nsample (fs.drop half), sampleRows nsample (fs.take half))

/-- The kinds of split. -/
inductive Split | half | sample | other

/-- `DataSplitter.__call__` (experiment.py:72-91). -/
def split {α : Type} (shuffle : List ℕ → List ℕ) (kind : Split) (gap nsample : ℕ) (data : List α) :
    Py (List α × List α) :=
  match kind with
  | .half => .ok (data.take (data.length / 2), data.drop (data.length / 2))
  | .sample => do
    let (tr, te) ← sampleSplit shuffle gap nsample data.length
    let a ← tr.mapM (pyGet data)
    let b ← te.mapM (pyGet data)
    pure (a, b)
  | .other => .ok (data, data)

section Regions

variable {L : Type} [DecidableEq L]

/-- The row numbers where the label differs from the one before (helpers.py:514); the first row counts because the shifted
series starts with NaN. -/
def changes (labels : List L) : List ℕ :=
  (List.range labels.length).filter fun i => i = 0 ∨ labels[i]? ≠ labels[i - 1]?

/-- `label_regions[cls].append(v)` for a `defaultdict(list)`. -/
def dictAppend {V : Type} (d : List (L × List V)) (k : L) (v : V) : List (L × List V) :=
  match d with
  | [] => [(k, [v])]
  | (k', vs) :: rest => if k' = k then (k', vs ++ [v]) :: rest else (k', vs) :: dictAppend rest k v

/-- `d[k]` for a dictionary. -/
def dictGet {V : Type} (d : List (L × V)) (k : L) : Py V :=
  match d.find? (fun p => p.1 = k) with
  | none => .error .keyError
  | some p => .ok p.2

/-- The list of regions (helpers.py:515-518). -/
def regionList (labels : List L) : Py (List (ℕ × ℕ)) :=
  match changes labels with
  | [] => .error .indexError
  | c :: cs =>
    let cs := if c = 0 then cs else c :: cs
    .ok ((0 :: cs).zip (cs ++ [labels.length]))

/-- `get_regions` (helpers.py:490-525); an empty series has no first index. -/
def getRegions (labels : List L) : Py (List (L × List (ℕ × ℕ))) :=
  if labels = [] then .error .indexError
  else do
    let regions ← regionList labels
    regions.foldlM (fun d v => do
      let cls ← pyGet labels v.1
      pure (dictAppend d cls v)) []

/-- The loop of `get_outer_boundaries` (helpers.py:546-551). -/
def outerLoop (myStart myEnd : ℕ) : List (ℕ × ℕ) → ℕ × ℕ → ℕ × ℕ
  | [], fl => fl
  | r :: rs, (first, last) =>
    let first := if r.2 = myStart then r.1 else first
    if r.1 = myEnd then (first, r.2) else outerLoop myStart myEnd rs (first, last)

/-- `get_outer_boundaries` (helpers.py:527-552). -/
def getOuterBoundaries (regions : List (L × List (ℕ × ℕ))) (cls restCls : L) : Py (ℕ × ℕ) := do
  let mine ← dictGet regions cls
  let (myStart, _) ← pyGet mine 0
  match mine.getLast? with
  | none => .error .indexError
  | some (_, myEnd) => do
    let rest ← dictGet regions restCls
    pure (outerLoop myStart myEnd rest (myStart, myEnd))

end Regions

end Splitting

end Verif
