import Verif.Model.Jobs

/-!
# Log files (logfiles.py)

Simplifications.
* A file system as in `Verif/Model/Jobs.lean`.  `os.makedirs` records only the directory itself, not the ones above it.  What is
  written is in the file at once.
* A reader is always at the beginning of a line, so its position is the list of the lines that are left.
* `str.isnumeric` is an arbitrary predicate on characters.
* What `DataFrame.to_csv` writes is an arbitrary text; the columns which `pandas` finds in a file are an arbitrary function of it.
* `print` is not modelled.
-/

namespace Verif

namespace Logs

open Str Jobs

/-- `pathify` (logfiles.py:38-42). -/
def pathify (filepath : Str) (baseDir : Option Str) : Str :=
  match baseDir with
  | none => filepath
  | some b => pathJoin2 b filepath

/-- `os.makedirs(d, exist_ok=True)`: raises for the empty name, for a file, and if it is not allowed. -/
def makedirs (w : World) (d : Str) : World × Py Unit :=
  if d = [] then (w, .error .osError)
  else if w.dirs d then (w, .ok ())
  else if (w.files d).isSome || !w.writable d then (w, .error .osError)
  else ({ w with dirs := Function.update w.dirs d true }, .ok ())

/-- The fields of a `LogWriter` (logfiles.py:378-399).  `opened` is whether `fp` is not `None`. -/
structure Writer where
  fullpath : Str
  filepath : Str
  headers : List Str
  opened : Bool
  closed : Bool
  deriving DecidableEq

/-- `write` (logfiles.py:408-413).  A closed file raises. -/
def Writer.write (wr : Writer) (w : World) (value : Str) : World × Py Unit :=
  if wr.opened then
    if wr.closed then (w, .error .valueError)
    else
      (⟨Function.update w.files wr.fullpath (some ((w.files wr.fullpath).getD [] ++ (value ++ ['\n']))), w.dirs, w.writable⟩, .ok ())
  else (w, .ok ())

/-- `write_list` and `write_args` (logfiles.py:401-406). -/
def Writer.writeList (wr : Writer) (w : World) (value : List Str) : World × Py Unit :=
  if value.isEmpty then (w, .ok ()) else wr.write w (join ' ' value)

/-- `comment` (logfiles.py:438-439). -/
def Writer.comment (wr : Writer) (w : World) (value : Str) : World × Py Unit := wr.write w ('#' :: ' ' :: value)

/-- `write_dataframe` (logfiles.py:415-426); `csv` is what `to_csv` writes. -/
def Writer.writeFrame (wr : Writer) (w : World) (columns : ℕ) (csv : Str) : World × Py Unit :=
  if wr.headers.length = columns then
    if wr.opened then
      if wr.closed then (w, .error .valueError)
      else
        (⟨Function.update w.files wr.fullpath
          (some ((w.files wr.fullpath).getD [] ++ ('#' :: ' ' :: wr.filepath ++ ['\n']) ++ csv)), w.dirs, w.writable⟩, .ok ())
    else (w, .error .attributeError)
  else (w, .error .valueError)

/-- `close` (logfiles.py:447-449). -/
def Writer.close (wr : Writer) : Writer := { wr with closed := wr.opened }

/-- `open(p, mode)` (logfiles.py:388-393): the file is empty then.  `none` stands for `FileExistsError`. -/
def openFile (w : World) (p : Str) (safe : Bool) : World × Option (Py Unit) :=
  if safe && w.exists' p then (w, none)
  else if w.dirs p || !w.writable p then (w, some (.error .osError))
  else (⟨Function.update w.files p (some []), w.dirs, w.writable⟩, some (.ok ()))

/-- `self.fullpath` (logfiles.py:378-381). -/
def writerPath (filepath : Str) (baseDir : Option Str) : Str :=
  match baseDir with
  | none => filepath
  | some b => if b.isEmpty then filepath else pathJoin2 b filepath

/-- `LogWriter(filepath, base_dir, safe_mode, headers)` (logfiles.py:377-399); `headers` is the list after `set_headers`
(logfiles.py:428-436). -/
def newWriter (w : World) (filepath : Str) (baseDir : Option Str) (safe : Bool) (headers : List Str) : World × Py Writer :=
  let fullpath := writerPath filepath baseDir
  match makedirs w (pathSplit fullpath).1 with
  | (w, .error e) => (w, .error e)
  | (w, .ok _) =>
    match openFile w fullpath safe with
    | (w, none) => (w, .ok ⟨fullpath, filepath, headers, false, false⟩)
    | (w, some (.error e)) => (w, .error e)
    | (w, some (.ok _)) =>
      let wr : Writer := ⟨fullpath, filepath, headers, true, false⟩
      match wr.comment w filepath with
      | (w, .error e) => (w, .error e)
      | (w, .ok _) =>
        match wr.writeList w headers with
        | (w, .error e) => (w, .error e)
        | (w, .ok _) => (w, .ok wr)

/-- The calls on a writer. -/
inductive Op where
  | line (value : Str)
  | list (value : List Str)
  | comment (value : Str)
  | frame (columns : ℕ) (csv : Str)
  | close

/-- One call. -/
def step (s : World × Writer) : Op → (World × Writer) × Py Unit
  | .line v => let (w, r) := s.2.write s.1 v; ((w, s.2), r)
  | .list v => let (w, r) := s.2.writeList s.1 v; ((w, s.2), r)
  | .comment v => let (w, r) := s.2.comment s.1 v; ((w, s.2), r)
  | .frame n csv => let (w, r) := s.2.writeFrame s.1 n csv; ((w, s.2), r)
  | .close => ((s.1, s.2.close), .ok ())

/-- A sequence of calls; the first exception ends it. -/
def steps : World × Writer → List Op → (World × Writer) × Py Unit
  | s, [] => (s, .ok ())
  | s, o :: os =>
    match step s o with
    | (s, .error e) => (s, .error e)
    | (s, .ok _) => steps s os

/-- `LogWriter.write_log` (logfiles.py:362-370): `__enter__` (logfiles.py:441-442) returns the file or `None`, neither of which
has `set_headers`. -/
def writeLog (w : World) (logpath : Str) (baseDir : Option Str) (safe : Bool) : World × Py Unit :=
  match newWriter w logpath baseDir safe [] with
  | (w, .error e) => (w, .error e)
  | (w, .ok _) => (w, .error .attributeError)

/-- The fields of a `LogReader` (logfiles.py:293-300).  `lines` is what is left of the file. -/
structure Reader where
  lines : List Str
  comments : List Str
  commentRows : ℕ
  fileHeaders : Option (List Str)
  deriving DecidableEq

/-- `LogReader(filepath, base_dir)` (logfiles.py:293-300).  `file_headers` is not set yet. -/
def newReader (w : World) (filepath : Str) (baseDir : Option Str) : Py Reader :=
  match w.files (pathify filepath baseDir) with
  | none => .error .osError
  | some c => .ok ⟨readlines c, [], 0, none⟩

/-- The loop of `skip_comments` (logfiles.py:302-309) on the lines that are left, with `peek_char` (logfiles.py:44-49). -/
def skipLoop (comments : List Str) (rows : ℕ) : List Str → List Str × List Str × ℕ
  | [] => ([], comments, rows)
  | l :: ls => if l.head? = some '#' then skipLoop (comments ++ [l.tail]) (rows + 1) ls else (l :: ls, comments, rows)

/-- `skip_comments` (logfiles.py:302-309). -/
def Reader.skipComments (r : Reader) : Reader :=
  let (ls, cs, n) := skipLoop r.comments r.commentRows r.lines
  ⟨ls, cs, n, r.fileHeaders⟩

/-- `get_headers` (logfiles.py:311-328). -/
def Reader.getHeaders (num : Char → Bool) (r : Reader) : Reader × Option (List Str) :=
  let r := r.skipComments
  match r.lines with
  | [] => (⟨[], r.comments, r.commentRows, none⟩, none)
  | l :: ls =>
    if l.head?.any num then (⟨l :: ls, r.comments, r.commentRows, none⟩, none)
    else (⟨ls, r.comments, r.commentRows, some (words l)⟩, some (words l))

/-- `for row in reader` (logfiles.py:330-335): the generator has one element, the words of the next line.  `pandas` puts the
headers on it, which raises if their number is another; that is not modelled. -/
def Reader.iter (r : Reader) : Reader × List (List Str) :=
  match r.lines with
  | [] => (r, [[]])
  | l :: ls => (⟨ls, r.comments, r.commentRows, r.fileHeaders⟩, [words l])

/-- The loop `while line[0] == '#'` (logfiles.py:242-243); the empty string has no first character. -/
def headerLine : List Str → Py Str
  | [] => .error .indexError
  | l :: ls => if l.head? = some '#' then headerLine ls else .ok l

/-- `LogReader.check_headers` (logfiles.py:236-259); no subset and an empty one are `[]`. -/
def checkHeaders (w : World) (filepath : Str) (subset : List Str) : Py (List Str) :=
  match w.files filepath with
  | none => .error .osError
  | some c =>
    match readlines c with
    | [] => .ok []
    | ls => do
      let l ← headerLine ls
      if subset.isEmpty then pure (words l)
      else pure ((words l).filter fun h => decide ((split '-' h).headD [] ∈ subset ∨ h ∈ subset))

/-- `file_length` (logfiles.py:522-534): the name `comment_length` is not defined. -/
def fileLength (w : World) (filepath : Str) : Py ℤ := if !w.exists' filepath then .ok (-1) else .error .nameError

/-- The loop of `get_headers` (logfiles.py:500-520) over the columns of the file.  `fmt` is the text of the number which the suffix
is converted to. -/
def headerLoop (fmt : Str → Str) (columns : List Str) : List Str → List Str → Py (List Str)
  | acc, [] => .ok acc
  | acc, s :: ss =>
    if s ∈ columns then headerLoop fmt columns (acc ++ [s]) ss
    else do
      let (pre, suf) ← deNumber s
      if pre ∈ columns ∧ pre ∉ acc then headerLoop fmt columns (acc ++ [pre]) ss
      else
        let a := pre ++ '[' :: ((suf.map fmt).getD "None".toList) ++ [']']
        if a ∈ columns then headerLoop fmt columns (acc ++ [a]) ss else headerLoop fmt columns acc ss

/-- `get_headers(filepath, subset)` (logfiles.py:484-520); `cols` is `pd.read_csv(...).columns`, where `IndexError` is caught. -/
def getHeaders (fmt : Str → Str) (cols : Str → Py (List Str)) (w : World) (filepath : Str) (subset : List Str) : Py (List Str) :=
  match w.files filepath with
  | none => .error .osError
  | some c =>
    match cols c with
    | .error .indexError => .ok []
    | .error e => .error e
    | .ok columns => if subset.isEmpty then .ok columns else headerLoop fmt columns [] subset

/-- `file_complete` (logfiles.py:452-482).  `raise Warning(... .format(rh))` raises `NameError`, because `rh` is not defined.  The
last `raise Warning` is not reached. -/
def fileComplete (fmt : Str → Str) (cols : Str → Py (List Str)) (w : World) (filepath : Str) (reqLines : ℤ)
    (reqHeaders : List Str) (exc : Bool) : Py Bool :=
  if filepath.isEmpty then if exc then .error .valueError else .ok false
  else if !w.exists' filepath then if exc then .error .osError else .ok false
  else do
    let h ← if reqHeaders.isEmpty then pure [[]] else getHeaders fmt cols w filepath reqHeaders
    if h.isEmpty then if exc then .error .nameError else .ok false
    else if reqLines ≠ 0 then do
      let n ← fileLength w filepath
      if !decide (reqLines ≤ n) then if exc then .error .nameError else .ok false
      else .ok true
    else .ok true

/-- The loop over the directory tree in `get_filepaths` (logfiles.py:62-68). -/
def walkLoop (filename : Str) (partial' : Bool) : List (Str × List Str) → List Str
  | [] => []
  | (d, fs) :: rest =>
    if filename ∈ fs then pathJoin2 d filename :: walkLoop filename partial' rest
    else if partial' then (fs.filter (fun f => decide (filename <:+: f))).map (pathJoin2 d) ++ walkLoop filename partial' rest
    else walkLoop filename partial' rest

/-- `get_filepaths` (logfiles.py:54-72); `walk` is the list that `os.walk` yields, without the names of directories. -/
def getFilepaths (walk : List (Str × List Str)) (filename : Str) (partial' : Bool) (ignore : List Str) : List Str :=
  ignore.foldl List.erase (walkLoop filename partial' walk)

end Logs

end Verif
