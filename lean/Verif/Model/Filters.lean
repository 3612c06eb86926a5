import Verif.Dict
import Verif.Model.Strings

/-!
# Headers and filters of `FileEnvironment` (environments.py:379-410, 505-535, 631-645)

Simplifications.
* The filters asked for a header are the list that `listify` makes of them; `None` and `''` in it are both `[]`.
* The headers asked for are the keyword arguments left after the four parameters are popped.  They are distinct, and in the order of `kwargs.items()`.
* A data frame is a dictionary from the column to its list of numbers; numbers are rational.  Dividing by 0 gives 0 here and no number in the code:
  the theorems about values of scaled columns exclude it.
* `pd.rolling_mean` is an arbitrary function of the window and the column.
* `x[label] = 1` raises IndexError if a label is not an integer or is outside the array; `num_classes` is a number and not `None`.
-/

namespace Verif.Filters

open Str

/-- A column of a data frame. -/
abbrev Col := List ℚ

/-- The functions made by `get_file_filters` (environments.py:396-407).  The function of `'scaled'` is a closure over the variable `header` of the
loop, so it does not hold a header. -/
inductive Func | rollmean | scaled | unitvect
  deriving DecidableEq

/-- The parameters `window`, `ranges` and `num_classes` (environments.py:384-388). -/
structure Opts where
  window : Option ℤ
  ranges : Option (PyDict Str (ℚ × ℚ))
  numClasses : ℕ

/-- The function for one filter name (environments.py:395-408); `none` if it is skipped. -/
def makeFilter (ftr : Str) : Py (Option Func) :=
  if ftr = [] then .ok none
  else if ftr = "rollmean".toList then .ok (some .rollmean)
  else if ftr = "trace".toList then .error .notImplementedError
  else if ftr = "return".toList then .error .nameError
  else if ftr = "scaled".toList then .ok (some .scaled)
  else if ftr = "unitvect".toList then .ok (some .unitvect)
  else .error .valueError

/-- The loop over the filters of one header (environments.py:394-409). -/
def makeFilters : List Str → List Func → Py (List Func)
  | [], acc => .ok acc
  | f :: fs, acc => do
    match ← makeFilter f with
    | none => makeFilters fs acc
    | some g => makeFilters fs (acc ++ [g])

/-- The loop over the headers (environments.py:391-409): the dictionary and the value of the variable `header`. -/
def filterLoop : List (Str × List Str) → PyDict Str (List Func) → Option Str → Py (PyDict Str (List Func) × Option Str)
  | [], ff, hv => .ok (ff, hv)
  | (h, fs) :: l, ff, _ => do
    let gs ← makeFilters fs []
    filterLoop l (PyDict.set ff h gs) (some h)

/-- `get_file_filters` (environments.py:379-410); the variable `header` is kept because the closures read it later. -/
def getFileFilters (kw : List (Str × List Str)) : Py (PyDict Str (List Func) × Option Str) := filterLoop kw [] none

/-- What `set_headers` computes: `headers` and `header_mapping`. -/
structure Headers where
  headers : List Str
  mapping : PyDict Str Str

/-- The loop of `set_headers` (environments.py:523-534) over the headers of the file. -/
def setHeaders (asked : List Str) : List Str → Headers → Headers
  | [], s => s
  | h :: hs, s =>
    if h ∈ asked then setHeaders asked hs ⟨s.headers ++ [h], s.mapping⟩
    else
      let p := (split '-' h).headD []
      if p ∈ asked then setHeaders asked hs ⟨s.headers ++ [h], PyDict.set s.mapping h p⟩
      else setHeaders asked hs s

/-- `ranges[header]` in the closure of `'scaled'` (environments.py:404). -/
def rangeOf (o : Opts) (hv : Option Str) : Py (ℚ × ℚ) :=
  match o.ranges, hv with
  | none, _ => .error .typeError
  | some _, none => .error .nameError
  | some r, some h => PyDict.getE r h

/-- `x[label] = 1` for one label (features.py:42). -/
def setOne (x : Col) (label : ℚ) : Py Col :=
  if label.den = 1 then
    if 0 ≤ label.num ∧ label.num < x.length then .ok (x.set label.num.toNat 1)
    else if label.num < 0 ∧ -(x.length : ℤ) ≤ label.num then .ok (x.set (x.length + label.num).toNat 1)
    else .error .indexError
  else .error .indexError

/-- `unitizer(label)` where the label is a column (features.py:39-44). -/
def unitizer (numClasses : ℕ) (label : Col) : Py Col := label.foldlM setOne (List.replicate numClasses 0)

variable (roll : Option ℤ → Col → Py Col)

/-- `func(data[h])` (environments.py:397-407, 644). -/
def call (o : Opts) (hv : Option Str) : Func → Col → Py Col
  | .rollmean, c => roll o.window c
  | .scaled, c => do
    let r ← rangeOf o hv
    pure (c.map fun x => (x - r.1) / r.2)
  | .unitvect, c => unitizer o.numClasses c

/-- `data[h] = v` (environments.py:644): a column must have as many values as the frame has rows. -/
def assign (rows : ℕ) (v : Col) : Py Col := if v.length = rows then .ok v else .error .valueError

/-- The inner loop of `_filter_data_block` (environments.py:643-644). -/
def applyAll (o : Opts) (hv : Option Str) (rows : ℕ) : List Func → Col → Py Col
  | [], c => .ok c
  | f :: fs, c => do
    let v ← call roll o hv f c
    let c' ← assign rows v
    applyAll o hv rows fs c'

/-- `data_filters[header]` on a `defaultdict(list)` (environments.py:389, 643): a missing key is inserted. -/
def lookup (ff : PyDict Str (List Func)) (h : Str) : List Func × PyDict Str (List Func) :=
  match PyDict.get? ff h with
  | some l => (l, ff)
  | none => ([], PyDict.set ff h [])

/-- The outer loop of `_filter_data_block` (environments.py:641-645) over the columns of the frame. -/
def filterBlock (o : Opts) (hv : Option Str) (mapping : PyDict Str Str) (rows : ℕ) :
    List (Str × Col) → PyDict Str (List Func) → Py (List (Str × Col) × PyDict Str (List Func))
  | [], ff => .ok ([], ff)
  | (h, c) :: d, ff => do
    let (fs, ff) := lookup ff ((PyDict.get? mapping h).getD h)
    let c' ← applyAll roll o hv rows fs c
    let (d', ff') ← filterBlock o hv mapping rows d ff
    pure ((h, c') :: d', ff')

/-- The constructor's part (environments.py:373-374) and one block read from a file (environments.py:602-604): the filters are made, the columns chosen
from the headers of the first file, and the block of these columns, given by `raw`, is filtered. -/
def readBlock (o : Opts) (kw : List (Str × List Str)) (fileHeaders : List Str) (rows : ℕ) (raw : Str → Col) : Py (List (Str × Col)) := do
  let (ff, hv) ← getFileFilters kw
  let hd := setHeaders (PyDict.keys ff) fileHeaders ⟨[], []⟩
  let (d, _) ← filterBlock roll o hv hd.mapping rows (hd.headers.map fun h => (h, raw h)) ff
  pure d

end Verif.Filters
