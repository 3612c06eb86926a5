import Verif.Model.Files

/-!
# Matching files and parameters (utilities.py:344-404, 522-540, 920-984, 1369-1397)

Simplifications.
* Two items are equal if `canon` gives the same for both (in Python 1 equals 1.0).
* `os.listdir` is a list of names.
* The value of a parameter is `None`, a number or a string; what is required of it is such a value, or a list of them.
* `print` is not modelled.
-/

namespace Verif

namespace Matching

open Str Params Items Files

section Items

variable {F C : Type} [DecidableEq C] (pyFloat : Str → Option F) (canon : Item F → C)

/-- `match_sets(required, potential)` (utilities.py:394-404) of the sets of the elements. -/
def matchSets (required potential : List C) : ℤ :=
  if required.all (· ∈ potential) then (potential.dedup.length : ℤ) - required.dedup.length else -1

/-- `set(split_items(s))`. -/
def itemSet (s : Str) : List C := (splitItems pyFloat s).map canon

/-- `match_items(required, potential)` (utilities.py:387-392) of two strings. -/
def matchItems (required potential : Str) : ℤ := matchSets (itemSet pyFloat canon required) (itemSet pyFloat canon potential)

/-- The loop of `get_best_file_match` (utilities.py:364-369). -/
def bestLoop (required : List C) : List Str → ℤ → Str → Str
  | [], _, best => best
  | o :: os, extra, best =>
    let m := matchSets required (itemSet pyFloat canon (splitExt o).1)
    if m > 0 ∧ m < extra then bestLoop required os m o else bestLoop required os extra best

/-- `get_best_file_match(required_features, base_dir)` (utilities.py:344-370): a list has no `split`.  `ls` is what `os.listdir` gives
after `file_exists`; the disk may have one more file afterwards.  `none` is an exception while unzipping. -/
def getBestFileMatch (w : Disk) (base : Str) (ls : List Str) : Str ⊕ List Str → Py (Option Str)
  | .inr _ => .error .attributeError
  | .inl s =>
    let best := joinItems true (.items (removeModifiers [s] none))
    let required := itemSet pyFloat canon best
    match fileExists 0 w (pathJoin2 base (best ++ ".txt".toList)) false true true with
    | none => .ok none
    | some (r, _) =>
      if r.truthy then
        match r with
        | .path p => .ok (some (pathSplit p).2)
        | _ => .ok none
      else
        let options := getAllTextFiles ls true
        if options = [] then .ok (some (best ++ ".txt".toList))
        else .ok (some (bestLoop pyFloat canon required options (s.length * 10) (best ++ ".txt".toList)))

/-- `get_dir_params(dirpath, params)` (utilities.py:522-540). -/
def getDirParams [DecidableEq F] (path : Str) (params : PyDict (Item F) (PVal F)) : Py (Str × PyDict (Item F) (PVal F)) := do
  let ps ← splitParamsU pyFloat (pathSplit path).2
  pure ((pathSplit path).1, ps.foldl (fun d kv => d.set kv.1 kv.2) params)

end Items

/-- The value of a parameter. -/
inductive V | none | num (q : ℚ) | str (s : Str)
  deriving DecidableEq

/-- What is required of a value. -/
inductive Req | one (v : V) | many (l : List V)
  deriving DecidableEq

/-- `p_val not in req_vals` or, if that is a TypeError, `p_val != req_vals` (utilities.py:972-978), negated. -/
def Req.accepts : Req → V → Bool
  | .many l, v => v ∈ l
  | .one (.str t), .str s => decide (s <:+: t)
  | .one r, v => v = r

section Params

variable {K : Type} [DecidableEq K]

/-- The parameters that are given: only a dictionary has values. -/
inductive Given (K : Type) | keys (l : List K) | dict (d : PyDict K V)

/-- The parameters that are required. -/
inductive Required (K : Type) | keys (l : List K) | dict (d : PyDict K Req)

/-- The keys of the parameters given. -/
def Given.ks : Given K → List K
  | .keys l => l
  | .dict d => d.keys

/-- The keys that are required. -/
def Required.ks : Required K → List K
  | .keys l => l
  | .dict d => d.keys

/-- One turn of the loop of `validate_params` (utilities.py:959-982); `get` gives `None` for a missing key. -/
def validKey (params : Given K) (required : Required K) (values : Bool) (k : K) : Bool :=
  if k ∉ params.ks then false
  else if values then
    match params with
    | .keys _ => false
    | .dict d =>
      let v := (d.get? k).getD .none
      match required with
      | .keys _ => v ≠ .none
      | .dict r => ((r.get? k).getD (.one .none)).accepts v
  else true

/-- `validate_params(params, required_params, validate_values)` (utilities.py:920-984). -/
def validateParams (params : Given K) (required : Required K) (values : Bool) : Bool :=
  required.ks.all (validKey params required values)

variable {W : Type} [DecidableEq W]

/-- The first loop of `check_param_matches` (utilities.py:1384-1388). -/
def requiredLoop (candidate settings : PyDict K W) : List K → Bool
  | [] => true
  | p :: ps =>
    match candidate.get? p with
    | none => false
    | some c =>
      match settings.get? p with
      | some s => if s ≠ c then false else requiredLoop candidate settings ps
      | none => requiredLoop candidate settings ps

/-- The second loop of `check_param_matches` (utilities.py:1392-1394). -/
def restrictedLoop (candidate settings : PyDict K W) : List K → Py Bool
  | [] => .ok true
  | p :: ps => do
    let s ← settings.getE p
    let c ← candidate.getE p
    if s = c then pure false else restrictedLoop candidate settings ps

/-- `check_param_matches(candidate, settings, required, restricted)` (utilities.py:1369-1396). -/
def checkParamMatches (candidate settings : PyDict K W) (required restricted : List K) : Py Bool :=
  if requiredLoop candidate settings required then restrictedLoop candidate settings restricted else .ok false

end Params

end Matching

end Verif
