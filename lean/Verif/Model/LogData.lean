import Verif.Model.Logs

/-!
# Log data (utilities.py:733-739, 986-1079, 1155-1286)

Simplifications.
* Files as in `Verif/Model/Jobs.lean`; names do not contain `gz`, so that nothing is zipped.
* `float(s)` and the conversion by `numpy` are one arbitrary partial function `fl`; a list is converted if all its elements are.
* A table of data has strings as values; `str(v)` is taken for `v`.
* The recursion limit is not modelled.
-/

namespace Verif

namespace LogData

open Str Jobs Structures

/-- A column of data, converted or not. -/
inductive Col (F : Type) where
  | texts (l : List Str)
  | numbers (l : List F)

/-- What `get_log_data` returns: `{}` for no file, an array for one header, a dictionary. -/
inductive Result (F : Type) where
  | nothing
  | array (l : List F)
  | table (d : PyDict Str (Col F))

variable {F : Type} (fl : Str → Option F)

/-- `read_strings` (utilities.py:986-1011) on the lines that are left. -/
def readStrings : List Str → Option (List Str) × List Str
  | [] => (none, [])
  | l :: ls => if l.head? = some '#' then readStrings ls else (some (words l), ls)

theorem readStrings_length {ls r : List Str} {d : List Str} (h : readStrings ls = (some d, r)) : r.length < ls.length := by
  induction ls with
  | nil => cases h
  | cons l ls ih =>
    rw [readStrings] at h
    split_ifs at h
    · have := ih h
      rw [List.length_cons]
      omega
    · cases h
      simp

/-- `read_floats` (utilities.py:1031-1050). -/
def readFloats (ls : List Str) : Option (List F) × List Str :=
  match h : readStrings ls with
  | (none, r) => (none, r)
  | (some d, r) =>
    if d.isEmpty then (none, r)
    else
      match d.mapM fl with
      | some x => (some x, r)
      | none => readFloats r
termination_by ls.length
decreasing_by exact readStrings_length h

theorem readFloats_length {ls r : List Str} {d : List F} (h : readFloats fl ls = (some d, r)) : r.length < ls.length := by
  induction ls using readFloats.induct fl with
  | case1 ls r' h' =>
    rw [readFloats] at h
    split at h
    · cases h
    · rename_i h2
      rw [h'] at h2
      cases h2
  | case2 ls d' r' h' he =>
    rw [readFloats] at h
    split at h
    · cases h
    · rename_i h2
      rw [h'] at h2
      cases h2
      rw [if_pos he] at h
      cases h
  | case3 ls d' r' h' he x hx =>
    rw [readFloats] at h
    split at h
    · cases h
    · rename_i h2
      rw [h'] at h2
      cases h2
      rw [if_neg he, hx] at h
      cases h
      exact readStrings_length h'
  | case4 ls d' r' h' he hx ih =>
    rw [readFloats] at h
    split at h
    · cases h
    · rename_i h2
      rw [h'] at h2
      cases h2
      rw [if_neg he, hx] at h
      exact (ih h).trans (readStrings_length h')

/-- The loop of `num_data_lines` (utilities.py:1026-1027). -/
def numLoop (ls : List Str) : ℕ :=
  match h : readFloats fl ls with
  | (none, _) => 0
  | (some _, r) => numLoop r + 1
termination_by ls.length
decreasing_by exact readFloats_length fl h

/-- `num_data_lines` (utilities.py:1013-1029). -/
def numDataLines (w : World) (filename : Str) : ℤ :=
  match w.files filename with
  | none => -1
  | some c => numLoop fl (readlines c)

/-- The loop of `get_header_list` (utilities.py:1068-1076). -/
def headerListLoop : List Str → List Str
  | [] => []
  | l :: ls => if l.head? = some '#' ∨ words l = [] then headerListLoop ls else words l

/-- `get_header_list` (utilities.py:1052-1079). -/
def getHeaderList (w : World) (filename : Str) (sort : Bool) : Option (List Str) :=
  match w.files filename with
  | none => none
  | some c =>
    let headers := headerListLoop (readlines c)
    some (if sort then sortStr headers else headers)

/-- The loop over the comments in `get_log_data` (utilities.py:1182-1193): `headers`, if it is bound, the comments and
`lcount`. -/
def scanNotes : List Str → Option (List Str) → List Str → ℕ → Option (List Str) × List Str × ℕ
  | [], h, c, n => (h, c, n)
  | l :: ls, h, c, n =>
    if l = ['\n'] then scanNotes ls h c n
    else if l.head? = some '#' then scanNotes ls (some (words l)) (c ++ [strip (l.drop 2)]) (n + 1)
    else (some (words l), c, n + 1)

/-- `clean_string` (utilities.py:262-266). -/
def clean (s : Str) : Str := s.filter keepU

/-- `get_indices` (utilities.py:733-734). -/
def getIndices (headers : List Str) : PyDict Str ℕ := headers.zipIdx.foldl (fun d hi => d.set hi.1 hi.2) []

/-- The loop which adds the cleaned headers (utilities.py:1197-1198). -/
def addClean : PyDict Str ℕ → List Str → Py (PyDict Str ℕ)
  | ind, [] => .ok ind
  | ind, h :: hs => do
    let i ← ind.getE h
    addClean (ind.set (clean h) i) hs

/-- The inner loop over the data (utilities.py:1212-1213). -/
def appendRow (ind : PyDict Str ℕ) (content : List Str) : PyDict Str (List Str) → List Str → Py (PyDict Str (List Str))
  | data, [] => .ok data
  | data, k :: ks => do
    let i ← ind.getE k
    let old ← data.getE k
    let v ← pyGet content i
    appendRow ind content (data.set k (old ++ [v])) ks

/-- The loop over the data (utilities.py:1210-1213). -/
def appendRows (ind : PyDict Str ℕ) (valid : List Str) : PyDict Str (List Str) → List Str → Py (PyDict Str (List Str))
  | data, [] => .ok data
  | data, l :: ls => do
    let data ← appendRow ind (words l) data valid
    appendRows ind valid data ls

/-- The conversion of a column in the dictionary (utilities.py:1224-1229). -/
def convert (l : List Str) : Col F :=
  match l.mapM fl with
  | some x => .numbers x
  | none => .texts l

/-- `get_log_data` after the file was read (utilities.py:1180-1229). -/
def fromLines (lines : List Str) (subset : List Str) (keepComments : Bool) : Py (Result F) :=
  let (h, comments, lcount) := scanNotes lines none [] 0
  match h with
  | none => .error .nameError
  | some headers => do
    let ind ← addClean (getIndices headers) headers
    let valid := subset.filter fun k => decide (k ∈ ind.keys)
    let data := valid.foldl (fun (d : PyDict Str (List Str)) k => d.set k []) [("comments".toList, comments)]
    let data ← appendRows ind valid data (lines.drop lcount)
    match valid with
    | [k] => do
      let l ← data.getE k
      match l.mapM fl with
      | some x => pure (.array x)
      | none => .error .valueError
    | _ =>
      let data := if keepComments then data else data.erase "comments".toList
      pure (.table (data.map fun kv => (kv.1, if kv.1 ∈ valid then convert fl kv.2 else .texts kv.2)))

/-- `get_log_data` (utilities.py:1155-1229). -/
def getLogData (w : World) (filename : Str) (subset : Option (List Str)) (keepComments : Bool) : Py (Result F) :=
  match w.files filename with
  | none => .ok .nothing
  | some c => fromLines fl (readlines c) (subset.getD (sortStr (headerListLoop (readlines c)))) keepComments

/-- `get_snippets` (utilities.py:1231-1235), `data.pop('comments')`: an array has no `pop`, and the dictionaries have no comments.
What would come after is not modelled. -/
def getSnippets (w : World) (infile : Str) (headers : Option (List Str)) : Py (Result F) := do
  match ← getLogData fl w infile headers false with
  | .nothing => .error .keyError
  | .array _ => .error .attributeError
  | .table d => if "comments".toList ∈ d.keys then pure (.table d) else .error .keyError

/-- The notes in `save_log_data` (utilities.py:1274-1277): what is written, and how it ends. -/
def noteLines : List Str → Str × Py Unit
  | [] => ([], .ok ())
  | n :: ns =>
    match n with
    | [] => ([], .error .indexError)
    | c :: cs =>
      let (t, r) := noteLines ns
      ((if c ≠ '#' then ['#', ' '] else []) ++ strip (c :: cs) ++ '\n' :: t, r)

/-- One row of values (utilities.py:1284). -/
def rowValues (data : PyDict Str (List Str)) (i : ℕ) : List Str → Py (List Str)
  | [] => .ok []
  | k :: ks => do
    let l ← data.getE k
    let v ← pyGet l i
    let vs ← rowValues data i ks
    pure (v :: vs)

/-- The rows (utilities.py:1283-1285) from `i` on. -/
def rowLines (data : PyDict Str (List Str)) (keys : List Str) : List ℕ → Str × Py Unit
  | [] => ([], .ok ())
  | i :: is =>
    match rowValues data i keys with
    | .error e => ([], .error e)
    | .ok vs =>
      let (t, r) := rowLines data keys is
      (join ' ' vs ++ '\n' :: t, r)

/-- `save_log_data` (utilities.py:1262-1286).  What was written before an exception is in the file. -/
def saveLogData (w : World) (filepath : Str) (data : PyDict Str (List Str)) (notes : List Str) : World × Py Str :=
  let keys := sortStr data.keys
  match pyGet keys 0 with
  | .error e => (w, .error e)
  | .ok k =>
    match data.getE k with
    | .error e => (w, .error e)
    | .ok l =>
      if w.dirs filepath || !w.writable filepath then (w, .error .osError)
      else
        let put (t : Str) : World := ⟨Function.update w.files filepath (some t), w.dirs, w.writable⟩
        let top := '#' :: ' ' :: filepath ++ ['\n']
        match noteLines notes with
        | (t, .error e) => (put (top ++ t), .error e)
        | (t, .ok _) =>
          let (t', r) := rowLines data keys (List.range l.length)
          (put (top ++ t ++ (join ' ' keys ++ '\n' :: t')), r.map fun _ => filepath)

end LogData

end Verif
