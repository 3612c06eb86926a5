import Verif.Model.Logs

/-!
# Saving and loading of data and models (datasets.py:433-532, 965-970, 988-1038)

Simplifications.
* A file system as in `Verif/Model/Logs.lean`.
* What `to_csv` and `pickle.dump` write, and what `pd.read_csv` and `pickle.load` make of the contents of a file, are arbitrary functions.
* The directory string `log_dir` is given; `base_dir`, `log_file` and `model_file` are attributes that may be missing.
* The experiment itself, `__call__` with what `__enter__` does before it, is an arbitrary function of the files and the object.  It has no nested
  structures with an `__exit__` of their own.
* `print` is not modelled.
-/

namespace Verif.Saving

open Str Jobs Logs

/-- The attributes of a structure used here; `data` and `model` are `_data` and `_model`. -/
structure Obj (D M : Type) where
  logData : Bool
  logModel : Bool
  logFile : Option Str
  modelFile : Option Str
  baseDir : Option Str
  logDir : Str
  data : Option D
  model : Option M

variable {D M : Type}

/-- An attribute that may be missing. -/
def attr {α : Type} : Option α → Py α
  | none => .error .attributeError
  | some a => .ok a

/-- `log_path` (datasets.py:440-442). -/
def Obj.logPath (o : Obj D M) : Py Str := do
  let b ← attr o.baseDir
  pure (pathJoin2 b o.logDir)

/-- `log_file_path` (datasets.py:444-446). -/
def Obj.logFilePath (o : Obj D M) : Py Str := do
  let p ← o.logPath
  let f ← attr o.logFile
  pure (pathJoin2 p f)

/-- `loggable` (datasets.py:467-472). -/
def Obj.loggable (o : Obj D M) : Bool := o.logData && o.logFile.isSome

/-- `log_exists` (datasets.py:455-465). -/
def Obj.logExists (o : Obj D M) (w : World) : Py Bool :=
  if o.loggable then do
    let p ← o.logFilePath
    pure (w.exists' p)
  else pure false

/-- A file with new contents. -/
def put (w : World) (p c : Str) : World := ⟨Function.update w.files p (some c), w.dirs, w.writable⟩

/-- The first line of a log (datasets.py:530). -/
def firstLine (p : Str) : Str := '#' :: ' ' :: p ++ ['\n']

/-- `save_data` from the creation of the file on (datasets.py:529-532): it writes `self._data`. -/
def writeData (csv : D → Str) (o : Obj D M) (w : World) (p : Str) : World × Py (Option Str) :=
  if w.dirs p || !w.writable p then (w, .error .osError)
  else
    match o.data with
    | none => (put w p (firstLine p), .error .attributeError)
    | some d => (put w p (firstLine p ++ csv d), .ok (some p))

/-- `save_data` (datasets.py:509-532); `ok none` stands for `False`. -/
def saveData (csv : D → Str) (o : Obj D M) (w : World) (arg : Option D) : World × Py (Option Str) :=
  if o.loggable = false then (w, .error .typeError)
  else if arg.isNone && o.data.isNone then (w, .error .typeError)
  else
    match o.logFilePath, o.logPath with
    | .error e, _ => (w, .error e)
    | .ok _, .error e => (w, .error e)
    | .ok p, .ok d =>
      if w.exists' p then (w, .ok none)
      else
        match makedirs w d with
        | (w, .error e) => (w, .error e)
        | (w, .ok _) => writeData csv o w p

/-- `if base_dir: self.set_base_dir(base_dir)` (datasets.py:489-490). -/
def Obj.withBase (o : Obj D M) : Option Str → Obj D M
  | none => o
  | some b => if b = [] then o else { o with baseDir := some b }

/-- `pd.read_csv` of a path (datasets.py:504-506, logfiles.py:268-285). -/
def readFile (parse : Str → Py D) (w : World) (p : Str) : Py D :=
  match w.files p with
  | none => .error .osError
  | some c => parse c

/-- The last part of `load_data` (datasets.py:501-507).  Without `base_dir` the attribute `base_path` is read, which does not exist. -/
def loadFrom (parse : Str → Py D) (o : Obj D M) (w : World) : Option Str → Py D
  | none => .error .attributeError
  | some b =>
    if b = [] then .error .attributeError
    else do
      let f ← attr o.logFile
      readFile parse w (pathify f (some b))

/-- `load_data(base_dir)` (datasets.py:485-507): the object afterwards and the data. -/
def loadData (parse : Str → Py D) (o : Obj D M) (w : World) (base : Option Str) : Obj D M × Py D :=
  let o := o.withBase base
  match o.data with
  | some d => (o, .ok d)
  | none =>
    if o.loggable = false then (o, .error .typeError)
    else
      match o.logExists w with
      | .error e => (o, .error e)
      | .ok false => (o, .error .typeError)
      | .ok true =>
        match loadFrom parse o w base with
        | .error e => (o, .error e)
        | .ok d => ({ o with data := some d }, .ok d)

/-- `model_file_path` (datasets.py:1029-1031). -/
def Obj.modelFilePath (o : Obj D M) : Py Str := do
  let p ← o.logPath
  let f ← attr o.modelFile
  pure (pathJoin2 p f)

/-- `model_exists` (datasets.py:1033-1038). -/
def Obj.modelExists (o : Obj D M) (w : World) : Bool :=
  match o.modelFilePath with
  | .error _ => false
  | .ok p => w.exists' p

/-- `save_model` (datasets.py:1011-1027); `ok none` stands for `False`. -/
def saveModel (dump : M → Str) (o : Obj D M) (w : World) (arg : Option M) : World × Py (Option Str) :=
  match arg.or o.model with
  | none => (w, .error .typeError)
  | some m =>
    if o.modelExists w then (w, .ok none)
    else
      match o.logPath with
      | .error e => (w, .error e)
      | .ok d =>
        match makedirs w d with
        | (w, .error e) => (w, .error e)
        | (w, .ok _) =>
          match o.modelFilePath with
          | .error e => (w, .error e)
          | .ok p => if w.dirs p || !w.writable p then (w, .error .osError) else (put w p (dump m), .ok (some p))

/-- An experiment: the files and the object afterwards, and the result. -/
abbrev Body (D M R : Type) := World → Obj D M → World × Obj D M × Py R

/-- `__exit__` (datasets.py:965-970). -/
def exitModel (dump : M → Str) (o : Obj D M) (w : World) : World × Py Unit :=
  if o.logModel then
    match saveModel dump o w none with
    | (w, .error e) => (w, .error e)
    | (w, .ok _) => (w, .ok ())
  else (w, .ok ())

/-- `run` (datasets.py:988-990): an exception in `__exit__` replaces the result or the exception of the experiment. -/
def run {R : Type} (dump : M → Str) (body : Body D M R) (w : World) (o : Obj D M) : World × Obj D M × Py R :=
  match body w o with
  | (w, o, r) =>
    match exitModel dump o w with
    | (w, .error e) => (w, o, .error e)
    | (w, .ok _) => (w, o, r)

/-- `load_model` (datasets.py:995-1009). -/
def loadModel {R : Type} (dump : M → Str) (load : Str → Py M) (body : Body D M R) (w : World) (o : Obj D M) : World × Obj D M × Py M :=
  match o.model with
  | some m => (w, o, .ok m)
  | none =>
    if o.logModel = false then (w, o, .error .notImplementedError)
    else if o.modelExists w = false then
      match run dump body w o with
      | (w, o, .error e) => (w, o, .error e)
      | (w, o, .ok _) => (w, o, attr o.model)
    else
      match o.modelFilePath with
      | .error e => (w, o, .error e)
      | .ok p =>
        match w.files p with
        | none => (w, o, .error .osError)
        | some c => (w, o, load c)

end Verif.Saving
