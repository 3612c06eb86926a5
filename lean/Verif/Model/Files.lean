import Verif.Model.Items

/-!
# Directories and files (utilities.py:482-522, 742-795, 1287-1372)

Simplifications.
* A disk is a map from paths to directories and contents.  Two paths are the same only if they are the same string; the path `''`
  stands for the working directory.
* Permissions are a fixed set of paths that can be made, written and removed.
* A content is a text, or a zipped content; `damaged` is a file that `gzip` has not finished.  Texts are read and written without
  changing line ends, and are encoded in such a way that lines are decoded one by one.
* The depth of recursion that Python allows is a parameter; exceptions are not told apart.
* `print` is not modelled.
-/

namespace Verif

namespace Files

open Str

/-- What a file holds. -/
inductive Content | text (s : Str) | gz (c : Content) | damaged
  deriving DecidableEq

/-- What is at a path. -/
inductive Node | dir | file (c : Content)
  deriving DecidableEq

/-- The files and directories, and the paths that can be made, written and removed. -/
structure Disk where
  node : Str → Option Node
  canWrite : Str → Bool

/-- `os.path.exists(p)`. -/
def Disk.exists' (w : Disk) (p : Str) : Bool := (w.node p).isSome

/-- The disk with something new at a path. -/
def Disk.put (w : Disk) (p : Str) (n : Option Node) : Disk := ⟨Function.update w.node p n, w.canWrite⟩

/-- `os.mkdir(p)`; `none` is OSError. -/
def Disk.mkdir (w : Disk) (p : Str) : Option Disk :=
  if w.node p = none ∧ w.node (pathSplit p).1 = some .dir ∧ w.canWrite p = true then some (w.put p (some .dir)) else none

/-- What `make_dirs` and `file_exists` return. -/
inductive Found | no | nothing | path (p : Str)
  deriving DecidableEq

/-- The truth value of the result. -/
def Found.truthy : Found → Bool
  | .path p => p ≠ []
  | _ => false

/-- `make_dirs(dirpath)` (utilities.py:751-795) with `n` levels of recursion left; `none` is RecursionError. -/
def makeDirs : ℕ → Disk → Str → Option (Found × Disk)
  | 0, _, _ => none
  | n + 1, w, p =>
    if w.exists' p then some (.path p, w)
    else
      match w.mkdir p with
      | some w' => some (.path p, w')
      | none =>
        let head := (pathSplit p).1
        if '/' ∉ head ∨ w.exists' head = true then some (.no, w)
        else
          match makeDirs n w head with
          | none => none
          | some (r, w1) => if r.truthy then makeDirs n w1 p else some (.path p, w1)

/-- `os.path.splitext(p)`. -/
def splitext (p : Str) : Str × Str := (p.take (p.length - (extension p).length), extension p)

/-- `is_zip(filepath)` (utilities.py:745-749). -/
def isZip (p : Str) : Bool := (splitext p).2 = ".gz".toList

/-- `unzip(filepath, cleanup)` (utilities.py:1287-1304): the path, unless it raises, and the disks that it may go through:
what is written reaches the disk in pieces, so that each prefix of the text may be there.  A file that is not zipped raises when it is read, unless it is empty. -/
def unzip (w : Disk) (p : Str) (cleanup : Bool) : Option Str × List Disk :=
  let uz := (splitext p).1
  if (splitext p).2 ≠ ".gz".toList then (some p, [])
  else if w.exists' uz then (some uz, [])
  else
    match w.node p with
    | none => (none, [])
    | some .dir => (none, [])
    | some (.file c) =>
      if !w.canWrite uz then (none, [])
      else
        match c with
        | .gz (.text s) =>
          let ws := s.inits.map fun t => w.put uz (some (.file (.text t)))
          (some uz, ws ++ if cleanup then [(w.put uz (some (.file (.text s)))).put p none] else [])
        | .text [] =>
          let w1 := w.put uz (some (.file (.text [])))
          (some uz, w1 :: if cleanup then [w1.put p none] else [])
        | _ => (none, [w.put uz (some (.file (.text [])))])

/-- `zipfile(filepath, cleanup)` (utilities.py:1306-1317). -/
def zipfile (w : Disk) (p : Str) (cleanup : Bool) : Option Str × List Disk :=
  let z := p ++ ".gz".toList
  match w.node p with
  | some (.file c) =>
    if w.canWrite z = true ∧ w.node z ≠ some .dir then
      let w1 := w.put z (some (.file (.gz c)))
      (some z, [w.put z (some (.file .damaged)), w1] ++ if cleanup then [w1.put p none] else [])
    else (none, [])
  | _ => (none, [])

/-- The disk at the end. -/
def finally' (w : Disk) (l : List Disk) : Disk := l.getLast?.getD w

/-- `file_exists(filepath, make_dir, check_zip, unzip_file)` (utilities.py:1320-1342); `none` is an exception.  `n` is the depth of
recursion for `make_dirs`. -/
def fileExists (n : ℕ) (w : Disk) (p : Str) (makeDir checkZip unzipFile : Bool) : Option (Found × Disk) :=
  if p = [] then some (.no, w)
  else if w.exists' p then some (.path p, w)
  else if isZip p && w.exists' (splitext p).1 then some (.path (splitext p).1, w)
  else if checkZip then
    let z := p ++ ".gz".toList
    if w.exists' z then
      if unzipFile then
        match unzip w z false with
        | (none, _) => none
        | (some q, l) => some (.path q, finally' w l)
      else some (.path z, w)
    else some (.nothing, w)
  else if makeDir then
    if ".txt".toList <:+: (pathSplit p).2 then makeDirs n w (pathSplit p).1 else makeDirs n w p
  else some (.no, w)

/-- The loop of `get_all_dirs` (utilities.py:514-519). -/
def dirsLoop : ℕ → Str → List Str → List Str
  | 0, _, dirs => dirs
  | n + 1, post, dirs =>
    let (head, tail) := pathSplit post
    if tail = [] then dirs else dirsLoop n head (tail :: dirs)

/-- `s.split(sep)` for a non-empty string. -/
def splitSub (sep : Str) : Str → Str → List Str
  | acc, [] => [acc.reverse]
  | acc, c :: cs =>
    if sep.isPrefixOf (c :: cs) then acc.reverse :: splitSub sep [] (cs.drop (sep.length - 1))
    else splitSub sep (c :: acc) cs
termination_by _ s => s.length

/-- `get_all_dirs(dirpath, base_dir)` (utilities.py:480-520): the loop takes at most one turn for every character. -/
def getAllDirs (dirpath : Str) (base : Option Str) : Py (Option (List Str)) :=
  match base with
  | none => .ok (some (dirsLoop ((normpath dirpath).length + 1) (normpath dirpath) []))
  | some b =>
    if b = [] then .ok (some (dirsLoop ((normpath dirpath).length + 1) (normpath dirpath) []))
    else if b <:+: dirpath then
      match splitSub (normpath b) [] dirpath with
      | [_, post] => .ok (some (dirsLoop ((normpath post).length + 1) (normpath post) []))
      | _ => .error .valueError
    else .ok none

/-- `get_all_subdirs(dir_path)` (utilities.py:1344-1354) of the names that `os.listdir` gives. -/
def getAllSubdirs (w : Disk) (p : Str) (ls : List Str) : List Str := ls.filter fun f => w.node (pathJoin2 p f) = some .dir

/-- `split_ext(filepath)` (utilities.py:372-385). -/
def splitExt (p : Str) : Str × Str :=
  let (fn, ext) := splitext p
  if ext = ".gz".toList then ((splitext fn).1, (splitext fn).2 ++ ".gz".toList) else (fn, ext)

/-- `get_all_text_files(log_path, keep_extension)` (utilities.py:1356-1367) of the names that `os.listdir` gives. -/
def getAllTextFiles (ls : List Str) (keep : Bool) : List Str :=
  (ls.filter fun f => decide ("txt".toList <:+: (splitExt f).2)).map fun f => if keep then f else (splitExt f).1

end Files

end Verif
