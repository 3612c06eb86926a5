import Verif.Model.Text

/-! What is said of jobs: the names of their files and the commands in them. -/

namespace Verif

namespace Jobs

/-- What identifies a job in the names of its files. -/
structure Key where
  protocol : Str
  model : Str
  depth : ℕ

/-- `protocol-model-depth`. -/
def Key.text (k : Key) : Str := k.protocol ++ '-' :: k.model ++ '-' :: Str.ofNat k.depth

/-- Where the script of a job is kept that the queue has given a name. -/
def Key.script (k : Key) (dir queueName : Str) : Str := dir ++ '/' :: k.text ++ '.' :: queueName ++ ".sh".toList

/-- The command which compresses a file. -/
def compressCommand (model : Str) (depth : ℕ) (infile : Str) : Str :=
  "pypy z.py compress -m ".toList ++ model ++ " -d ".toList ++ Str.ofNat depth ++ " ".toList ++ infile ++ " /dev/null".toList

/-- Protocols and models which can be told apart in names. -/
structure Key.Good (k : Key) : Prop where
  protocol : '-' ∉ k.protocol
  model : '-' ∉ k.model
  relative : k.protocol.head? ≠ some '/'

/-- A job. -/
structure Job where
  baseDir : Str
  platform : Str
  key : Key

/-- A part of a path: not empty, without a slash at its end and without a line end. -/
structure Part (s : Str) : Prop where
  ne : s ≠ []
  last : s.getLast? ≠ some '/'
  line : '\n' ∉ s

/-- A job whose parameters fit into names, paths and lines. -/
structure Job.Good (x : Job) : Prop where
  key : x.key.Good
  baseDir : Part x.baseDir
  platform : Part x.platform
  relative : x.platform.head? ≠ some '/'
  protocol : '\n' ∉ x.key.protocol
  model : '\n' ∉ x.key.model

/-- The file to be compressed. -/
def Job.file (x : Job) (protocol : Str) : Str := x.baseDir ++ '/' :: x.platform ++ '/' :: protocol

/-- The line of a script which makes the file to be compressed from the files whose names are joined by underscores in its name. -/
def Job.catLine (x : Job) : Str :=
  "  then `cat ".toList ++ Str.join ' ' ((Str.split '_' x.key.protocol).map x.file) ++ " > ".toList ++ x.file x.key.protocol ++ "`".toList

/-! ### Logs -/

/-- The line says that the statistic `k` is `v`: after the first colon comes, after white space, the word `v`, which ends at white
space, at a second colon or at the end. -/
def Says (line k v : Str) : Prop :=
  ∃ a sp rest : Str, line = a ++ ':' :: sp ++ v ++ rest ∧ ':' ∉ a ∧ k = Str.strip a ∧ (∀ c ∈ sp, Str.isSpace c = true) ∧
    v ≠ [] ∧ (∀ c ∈ v, Str.isSpace c = false ∧ c ≠ ':') ∧ ∀ c ∈ rest.head?, Str.isSpace c = true ∨ c = ':'

/-- The text with the given lines. -/
def textOf (ls : List Str) : Str := (ls.map (· ++ ['\n'])).flatten

/-- A line of statistics of z.py, `"    {:15} ..."`. -/
def statOf (label value : Str) : Str :=
  "    ".toList ++ (label ++ List.replicate (15 - label.length) ' ') ++ ' ' :: value

/-- What a script writes in the end. -/
def completed (code date : Str) : Str := "Completed run with exit code ".toList ++ code ++ " at: ".toList ++ date

/-- The job to which a log belongs in the table: its name up to the first full stop. -/
def stem (f : Str) : Str := f.takeWhile (· ≠ '.')

end Jobs

end Verif
