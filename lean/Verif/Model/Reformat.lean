import Verif.Model.Logs

/-!
# Conversion of a raw log (logfiles.py:345-352)

Simplifications.  As in `Verif/Model/Logs.lean`.  What `LogReader.read_log` finds in a text is an arbitrary function, which may raise, and so
is what `to_csv` writes for each of the three parts, including exceptions from `df.emg`, `de_array` and `DataFrame` before anything is
written.  Besides the result, the states of the file system in which the program may be stopped are given: what is written reaches the file
in pieces, so that each prefix may be there.
-/

namespace Verif

namespace Logs

open Str Jobs

/-- What is written for the three parts of a data frame, or the exception raised before (logfiles.py:348, 350, 352). -/
structure Frame where
  emg : Py Str
  glove : Py Str
  labels : Py Str

/-- The states while a new file is written. -/
def stages (w : World) (p text : Str) : List World :=
  text.inits.map fun t => { w with files := Function.update w.files p (some t) }

/-- `with LogWriter(name, base_dir=dir) as f: df.to_csv(f, ...)` (logfiles.py:347-348; `__enter__`, `__exit__` and `close` are
logfiles.py:441-449).  If there is a file already, `f` is `None` and `to_csv` only makes a string. -/
def saveOne (w : World) (dir name : Str) (csv : Py Str) : (World × Py Unit) × List World :=
  let path := writerPath name (some dir)
  let head := '#' :: ' ' :: name ++ ['\n']
  match newWriter w name (some dir) true [] with
  | (w1, .error e) => ((w1, .error e), [w, w1])
  | (w1, .ok wr) =>
    match csv, wr.opened with
    | .error e, false => ((w1, .error e), [w, w1])
    | .error e, true => ((w1, .error e), w :: (makedirs w (pathSplit path).1).1 :: stages w1 path head)
    | .ok _, false => ((w1, .ok ()), [w, w1])
    | .ok s, true =>
      (({ w1 with files := Function.update w1.files path (some ((w1.files path).getD [] ++ s)) }, .ok ()),
        w :: (makedirs w (pathSplit path).1).1 :: stages w1 path (head ++ s))

/-- The files one after the other; the first exception ends it. -/
def saveAll (dir : Str) : World → List (Str × Py Str) → (World × Py Unit) × List World
  | w, [] => ((w, .ok ()), [w])
  | w, (name, csv) :: rest =>
    match saveOne w dir name csv with
    | ((w1, .error e), l) => ((w1, .error e), l)
    | ((w1, .ok _), l) =>
      let r := saveAll dir w1 rest
      (r.1, l ++ r.2)

/-- `reformat_data(dirpath)` (logfiles.py:345-352). -/
def reformatData (readLog : Str → Py Frame) (w : World) (dir : Str) : (World × Py Unit) × List World :=
  match w.files (pathJoin2 dir "raw-data.txt".toList) with
  | none => ((w, .error .osError), [w])
  | some raw =>
    match readLog raw with
    | .error e => ((w, .error e), [w])
    | .ok fr =>
      saveAll dir w [("emg.txt".toList, fr.emg), ("glove.txt".toList, fr.glove), ("labels.txt".toList, fr.labels)]

end Logs

end Verif
