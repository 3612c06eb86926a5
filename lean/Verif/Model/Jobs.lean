import Verif.Model.Params
import Verif.Model.Structures
import Verif.Model.Text

/-!
# Jobs and their logs (jobs.py:28-221)

Simplifications.
* A file system is a map from paths to contents, with a fixed set of directories and of paths that can be written.  Two paths
  are the same file only if they are the same string.  Text files have `\n` as line ends and the default encoding.
* `print` is not modelled.  `qsub` answers a submission with a name or fails; its answers are a stream.
* The values of parameters are strings; `str(depth)` is taken for `depth`.
* `Series(params)` and `DataFrame(data)` are the dictionaries they are made of.
-/

namespace Verif

namespace Jobs

open Str Params

/-- The files that the program works on. -/
structure World where
  files : Str → Option Str
  dirs : Str → Bool
  writable : Str → Bool

/-- `os.path.exists(p)`. -/
def World.exists' (w : World) (p : Str) : Bool := (w.files p).isSome || w.dirs p

/-- The fields of a `JobSet` (jobs.py:85-91); `logDir` is `self.log_dir`. -/
structure JobSet where
  logDir : Str
  debug : Bool
  runNow : Bool
  numHours : ℤ
  numMinutes : ℤ

/-- The parameters of one job. -/
structure Ps where
  baseDir : Str
  platform : Str
  protocol : Str
  model : Str
  depth : Str
  deriving DecidableEq

/-- The lookups in `ps` (jobs.py:102, 123, 131-133). -/
def Ps.ofDict (d : PyDict Str Str) : Py Ps := do
  let b ← d.getE "base_dir".toList
  let pl ← d.getE "platform".toList
  let pr ← d.getE "protocol".toList
  let m ← d.getE "model".toList
  let de ← d.getE "depth".toList
  pure ⟨b, pl, pr, m, de⟩

/-- `infile` (jobs.py:102). -/
def Ps.infile (p : Ps) : Str := pathJoin [p.baseDir, p.platform, p.protocol]

/-- `extra` (jobs.py:105-114). -/
def Ps.extra (w : World) (p : Ps) : Str :=
  if !w.exists' p.infile then
    let paths := (split '_' p.protocol).map fun f => pathJoin [p.baseDir, p.platform, f]
    join '\n' ["echo \"Checking the existence of the file ".toList ++ p.protocol ++ "\"".toList,
      "if [ ! -e ".toList ++ p.infile ++ " ]".toList,
      "  then `cat ".toList ++ join ' ' paths ++ " > ".toList ++ p.infile ++ "`".toList,
      "  echo \"...created\"".toList,
      "fi".toList]
  else []

/-- `name` (jobs.py:121). -/
def Ps.name (p : Ps) : Str := join '-' [p.protocol, p.model, p.depth]

/-- `argstring` (jobs.py:129-132). -/
def Ps.args (p : Ps) : Str :=
  "compress -m ".toList ++ p.model ++ " -d ".toList ++ p.depth ++ ' ' :: p.infile ++ ' ' :: "/dev/null".toList

/-- `pbs_template` (jobs.py:186-207). -/
def JobSet.template (j : JobSet) (filename args extra : Str) : Str :=
  join '\n' ["#!/bin/sh".toList, [], "#PBS -S /bin/sh".toList, "#PBS -j oe".toList, "#PBS -r n".toList,
    "#PBS -o ".toList ++ j.logDir ++ '/' :: filename ++ ".$PBS_JOBID.log".toList,
    "#PBS -l nodes=1:ppn=1,walltime=".toList ++ ofInt j.numHours ++ ':' :: ofInt j.numMinutes ++ ":00,mem=4000mb".toList,
    [], extra, "cd $PBS_O_WORKDIR".toList, "echo \"Current working directory is `pwd`\"".toList,
    "echo \"Starting run at: `date`\"".toList,
    "alias pypy=/home/akoop/pypy3-2.4-linux_x86_64-portable/bin/pypy3".toList,
    "pypy z.py ".toList ++ args,
    "echo \"Completed run with exit code $? at: `date`\"".toList]

/-- `z.__main__(argstring.split())` (jobs.py:175): the module has no such attribute. -/
def experiment : Py Unit := .error .attributeError

/-- `if self.run_now` (jobs.py:171-177): every exception is caught. -/
def JobSet.runExperiment (j : JobSet) : Py Unit :=
  if j.runNow then
    match experiment with
    | .ok _ => .ok ()
    | .error _ => .ok ()
  else .ok ()

/-- `pname` (jobs.py:160-170).  `answer` is what `qsub` prints, or `none` if calling it fails. -/
def JobSet.queueName (j : JobSet) (answer : Option Str) : Str :=
  if j.debug then "DEBUG".toList
  else
    match answer with
    | some p => strip p
    | none => "FAILED".toList

/-- `submit_job` (jobs.py:146-183). -/
def JobSet.submit (j : JobSet) (answer : Option Str) (w : World) (filename args extra : Str) : World × Py Str :=
  let sh := j.template filename args extra
  let tmp := pathJoin2 j.logDir filename
  if !w.writable tmp then (w, .error .osError)
  else
    let w := { w with files := Function.update w.files tmp (some sh) }
    let pname := j.queueName answer
    match j.runExperiment with
    | .error e => (w, .error e)
    | .ok _ =>
      let script := pathJoin2 j.logDir (filename ++ '.' :: pname ++ ".sh".toList)
      if !w.writable script then (w, .error .osError)
      else
        let content := w.files tmp
        ({ w with files := Function.update (Function.update w.files tmp none) script content }, .ok script)

/-- The loop of `run` (jobs.py:100-136): `num_checked` and `num_submitted` at the end. -/
def JobSet.loop (j : JobSet) (qsub : ℕ → Option Str) : World → ℕ → ℕ → List (PyDict Str Str) → World × Py (ℕ × ℕ)
  | w, checked, submitted, [] => (w, .ok (checked, submitted))
  | w, checked, submitted, d :: ds =>
    match Ps.ofDict d with
    | .error e => (w, .error e)
    | .ok p =>
      match j.submit (qsub submitted) w p.name p.args (p.extra w) with
      | (w, .error e) => (w, .error e)
      | (w, .ok _) => j.loop qsub w (checked + 1) (submitted + 1) ds

/-- `run(**kwargs)` (jobs.py:93-138). -/
def JobSet.run (j : JobSet) (qsub : ℕ → Option Str) (w : World) (kwargs : PyDict Str (List Str)) : World × Py (ℕ × ℕ) :=
  j.loop qsub w 0 0 (uniqueDictSets kwargs)

/-- `pull_params_from_name` (jobs.py:44-48), without the entry `filename`. -/
def pullParams (filename : Str) : Py (Str × Str × Str) :=
  match split '-' filename with
  | a :: b :: c :: _ => .ok (a, b, (split '.' c).headD [])
  | _ => .error .valueError

/-- One turn of the loop of `pull_stats_from_file` (jobs.py:36-41). -/
def statLine (data : PyDict Str Str) (s : Str) : PyDict Str Str :=
  match split ':' s with
  | a :: b :: _ =>
    match words b with
    | v :: _ => data.set (strip a) v
    | [] => data
  | _ => data

/-- `pull_stats_from_file` on the contents of the file (jobs.py:28-42). -/
def pullStats (content : Str) : Py (PyDict Str Str) :=
  let stats := pyTail (readlines content) 7
  match stats.getLast? with
  | none => .error .indexError
  | some last =>
    if "Starting".toList <:+: last then .ok [("flaked".toList, "True".toList)]
    else if "killed".toList <:+: last then .ok [("killed".toList, strip ((split ':' last).getLastD []))]
    else .ok (stats.foldl statLine [])

/-- `params.update(...)` after `pull_params_from_name` (jobs.py:55-56). -/
def logEntry (f content : Str) : Py (PyDict Str Str) := do
  let (pr, m, d) ← pullParams f
  let s ← pullStats content
  pure (s.foldl (fun e kv => e.set kv.1 kv.2)
    [("filename".toList, f), ("protocol".toList, pr), ("model".toList, m), ("depth".toList, d)])

/-- `get_all_logs` (jobs.py:50-58); the list holds the names and contents of the files in `logs`. -/
def allLogs : List (Str × Str) → PyDict Str (PyDict Str Str) → Py (PyDict Str (PyDict Str Str))
  | [], data => .ok data
  | (f, content) :: rest, data =>
    if ".log".toList <:+: f then do
      let e ← logEntry f content
      allLogs rest (data.set ((split '.' f).headD []) e)
    else allLogs rest data

end Jobs

end Verif
