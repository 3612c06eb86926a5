import Verif.Model.LogData

/-!
# Lines of log files and small numeric utilities (utilities.py:87-91, 217-224, 1081-1153)

Simplifications.
* A file is the list of the lines that are left to read; `tell` and `seek` are the list at that moment.
* `int(s)` and `float(s)` are arbitrary partial functions.
* Numbers are exact; `np.linspace` is not rounded.
-/

namespace Verif

namespace LogText

open Str Jobs LogData

/-- `skip_comments(filepointer)` (utilities.py:1100-1122): the comments and the lines that are left; `none` is the exception at the end
of the file. -/
def skipComments : List Str → List Str → List Str → Option (List Str × List Str)
  | _, _, [] => none
  | comments, pos, l :: ls =>
    if l.head? = some '#' then skipComments (comments ++ [l]) ls ls else some (comments, pos)

/-- `get_header_indices(filepath)` (utilities.py:1093-1098): `None` is not iterable. -/
def getHeaderIndices (w : World) (filename : Str) : Py (PyDict Str ℕ) :=
  match getHeaderList w filename false with
  | none => .error .typeError
  | some hs => .ok (getIndices hs)

/-- A value in a line. -/
inductive Datum (F : Type) | int (n : ℤ) | float (x : F) | str (s : Str)
  deriving DecidableEq

section Format

variable {F : Type} (pyInt : Str → Option ℤ) (pyFloat : Str → Option F)

/-- `list[i]` for an integer. -/
def pyIdx {α : Type} (l : List α) (i : ℤ) : Py α :=
  if 0 ≤ i then pyGet l i.toNat else if 0 ≤ l.length + i then pyGet l (l.length + i).toNat else .error .indexError

/-- The conversion of a datum (utilities.py:1141-1150). -/
def datum (s : Str) : Datum F :=
  if '.' ∈ s then
    match pyFloat s with
    | some x => .float x
    | none => .str s
  else
    match pyInt s with
    | some n => .int n
    | none => .str s

/-- The loop of `get_formatted_data` (utilities.py:1136-1151). -/
def formatLoop (fileData : List Str) : List (Option ℤ) → Py (List (Datum F))
  | [] => .ok []
  | c :: cs => do
    let s ← match c with
      | some i => pyIdx fileData i
      | none => .ok [' ']
    let ds ← formatLoop fileData cs
    pure (datum pyInt pyFloat s :: ds)

/-- `get_formatted_data(line, indices)` (utilities.py:1124-1152). -/
def getFormattedData (line : Str) (indices : Option (List (Option ℤ))) : Py (List (Datum F)) :=
  let fileData := split ' ' (strip line)
  formatLoop pyInt pyFloat fileData (indices.getD ((List.range fileData.length).map fun i : ℕ => some (i : ℤ)))

end Format

/-- `slices` (utilities.py:1087): the ends of the bins. -/
def slice (bins i : ℕ) : ℕ := 100 * i / bins

/-- One element of `np.add.reduceat(data, slices[:-1])`: up to the next index, or for the last to the end of the data. -/
def reduceat (data : List ℚ) (bins i : ℕ) : ℚ :=
  if i + 1 < bins then
    (if slice bins i < slice bins (i + 1) then ((data.take (slice bins (i + 1))).drop (slice bins i)).sum
      else data.getD (slice bins i) 0)
  else (data.drop (slice bins i)).sum

/-- `bin_data(data, num_bins)` (utilities.py:1081-1091) for at least one bin; an index out of range raises.  Division by zero gives in
`numpy` infinities; at most 100 bins are considered. -/
def binData (data : List ℚ) (bins : ℕ) : Py (List ℚ) :=
  if (List.range bins).all fun i => slice bins i < data.length then
    .ok ((List.range bins).map fun i => reduceat data bins i / ((slice bins (i + 1) : ℚ) - slice bins i))
  else .error .indexError

/-- `scale_val(val, rng, cap_values)` (utilities.py:87-91) for a range of two different numbers; a cap of 0 counts as none. -/
def scaleVal (val lo hi : ℚ) (cap : Option ℚ) : Py ℚ :=
  if hi - lo = 0 then .error .zeroDivisionError
  else
    let v := (val - lo) / (hi - lo)
    match cap with
    | none => .ok v
    | some c => .ok (if c = 0 then v else min (max v 0) c)

/-- `calc_alpha_init(alpha, decay)` (utilities.py:217-224); `None` is 0. -/
def calcAlphaInit (alpha decay : ℚ) : ℚ := if decay = 0 ∨ decay ≤ 0 then alpha else alpha * decay

end LogText

end Verif
