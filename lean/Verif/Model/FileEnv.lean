import Verif.Py

/-!
# `FileEnvironment` (environments.py:349-645)

Simplifications.
* A protocol is its list of entries `(dirname, steps)`; directory names are not empty (for an empty one
  environments.py:614-615 loads another block first).
* Reading a log file, selecting columns and applying the filters (environments.py:606-645) is one function `load` from the
  directory and the row limit to the list of rows, which may raise.  Nothing is assumed about it here.
* A data frame is its list of rows with the labels 0, 1, ..., so that `data.ix[i]` is the row number `i`.
* `pd.concat` drops `None` and raises `ValueError` if nothing else is there.
-/

namespace Verif

/-- An entry of a protocol, `EnvDir` (environments.py:25-30). -/
structure EnvDir (D : Type) where
  dirname : D
  steps : ℤ

/-- The attributes set by `reset`, `start` and `update_data_block` (environments.py:537-604). -/
structure FileEnv (D R : Type) where
  dirIter : Option (List (EnvDir D))
  currentMax : ℤ
  step : ℤ
  localStep : ℤ
  data : Option (List R)

namespace FileEnv

variable {D R : Type}

/-- `reset` (environments.py:537-545); `current_max` keeps its value. -/
def reset (s : FileEnv D R) : FileEnv D R := { s with dirIter := none, step := -1, localStep := -1, data := none }

/-- `start` (environments.py:547-554). -/
def start (protocol : List (EnvDir D)) (s : FileEnv D R) : FileEnv D R :=
  { reset s with dirIter := some protocol, step := 0 }

/-- The row limit computed in `_get_data_block` (environments.py:617-620). -/
def numLines (steps : ℤ) : Option ℤ := if steps > 0 then some steps else none

/-- The condition for keeping the block (environments.py:587-590). -/
def keeps (s : FileEnv D R) : Bool :=
  match s.data with
  | none => false
  | some d => (s.currentMax == 0 && decide (s.localStep < d.length)) ||
      (decide (s.currentMax > 0) && decide (s.localStep < s.currentMax))

/-- `update_data_block` (environments.py:578-604). -/
def updateDataBlock (load : D → Option ℤ → Py (List R)) (protocol : List (EnvDir D)) (s : FileEnv D R) : Py (FileEnv D R) :=
  let s := match s.dirIter with
    | none => start protocol s
    | some _ => s
  if keeps s then .ok s
  else match s.dirIter with
    | none => .error .typeError
    | some [] => .ok (reset s)
    | some (e :: es) => do
      let rows ← load e.dirname (numLines e.steps)
      pure { s with dirIter := some es, currentMax := e.steps, localStep := 0, data := some rows }

/-- `get_data()` (environments.py:568-576). -/
def getData (s : FileEnv D R) : Py (Option R) :=
  match s.data with
  | none => .ok none
  | some d =>
    if d.length = 0 then .error .zeroDivisionError
    else match d[(s.localStep % (d.length : ℤ)).toNat]? with
      | none => .error .keyError
      | some r => .ok (some r)

/-- `update()` (environments.py:556-566). -/
def update (load : D → Option ℤ → Py (List R)) (protocol : List (EnvDir D)) (s : FileEnv D R) :
    Py (Option R × FileEnv D R) := do
  let s ← updateDataBlock load protocol s
  let r ← getData s
  pure (r, { s with step := s.step + 1, localStep := s.localStep + 1 })

/-- `get_data_block` (environments.py:471-495). -/
def getDataBlock (s : FileEnv D R) : Py (Option (List R) × FileEnv D R) :=
  match s.data with
  | none => .ok (none, s)
  | some d =>
    if s.currentMax ≤ 0 ∨ s.currentMax = d.length then .ok (some d, { s with localStep := d.length })
    else if d.length = 0 then .error .zeroDivisionError
    else
      let repeats := (s.currentMax / (d.length : ℤ)).toNat
      let remainder := (s.currentMax % (d.length : ℤ)).toNat
      .ok (some ((List.replicate repeats d).flatten ++ d.take remainder), { s with localStep := s.currentMax })

/-- The loop of `__iter_chunks__` (environments.py:423-426), at most `fuel` rounds; `none` if it has not ended by then. -/
def chunkLoop (load : D → Option ℤ → Py (List R)) (protocol : List (EnvDir D)) :
    ℕ → FileEnv D R → Py (Option (List (Option (List R)) × FileEnv D R))
  | 0, _ => .ok none
  | fuel + 1, s =>
    match s.dirIter with
    | none => .ok (some ([], reset s))
    | some _ => do
      let s1 ← updateDataBlock load protocol s
      let (c, s2) ← getDataBlock s1
      let rest ← chunkLoop load protocol fuel s2
      pure (rest.map fun r => (c :: r.1, r.2))

/-- `pd.concat` on a list of frames. -/
def concat (l : List (Option (List R))) : Py (List R) :=
  match l.filterMap id with
  | [] => .error .valueError
  | f :: fs => .ok ((f :: fs).flatten)

/-- `get_all_data` (environments.py:428-432). -/
def getAllData (load : D → Option ℤ → Py (List R)) (protocol : List (EnvDir D)) (fuel : ℕ) (s : FileEnv D R) :
    Py (Option (List R × FileEnv D R)) := do
  match ← chunkLoop load protocol fuel (start protocol s) with
  | none => pure none
  | some (l, s') => do
    let d ← concat l
    pure (some (d, s'))

/-- `n` calls of `update()`. -/
def updates (load : D → Option ℤ → Py (List R)) (protocol : List (EnvDir D)) :
    ℕ → FileEnv D R → Py (List (Option R) × FileEnv D R)
  | 0, s => pure ([], s)
  | n + 1, s => do
    let (r, s1) ← update load protocol s
    let (rs, s2) ← updates load protocol n s1
    pure (r :: rs, s2)

end FileEnv

end Verif
