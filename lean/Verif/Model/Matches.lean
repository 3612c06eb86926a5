import Verif.Model.Format

/-!
# Selection of structures by the values of their parameters (datasets.py:115-132, 844-852, 874-907)

Simplifications.
* An attribute is a string, `None` or another value, of which only `clean_string` and an arbitrary equality are used.  Structures as values are not
  considered.
* `listify` of the options is applied to `None`, one value or a list.
* The dictionaries of options are lists of pairs; the order is that of iteration.
-/

namespace Verif.Matches

open Str Structures Format

/-- The value of an attribute, or an option. -/
inductive AVal | none | str (s : Str) | val (v : CVal)

/-- What is given as options for a key. -/
inductive Opts | one (v : AVal) | many (l : List AVal)

/-- `listify` of the options (helpers.py:139-156). -/
def Opts.list : Opts → List AVal
  | .one .none => []
  | .one v => [v]
  | .many l => l

/-- A field of a class of structures. -/
inductive Fld
  | par (name : Str) (keyword transient : Bool)
  | struct (name : Str) (fields : List Fld)

mutual
/-- `_iter_base_params` (datasets.py:846-852), with the names and whether they have a keyword. -/
def Fld.base : Fld → List (Str × Bool)
  | .par n k t => if t then [] else [(n, k)]
  | .struct _ fs => baseAll fs

def baseAll : List Fld → List (Str × Bool)
  | [] => []
  | f :: fs => f.base ++ baseAll fs
end

/-- `get_parameter` (datasets.py:874-883); a parameter that is not found gets a generic one with a keyword. -/
def getParameter (fs : List Fld) (k : Str) : Str × Bool := ((baseAll fs).find? fun p => p.1 = k).getD (k, true)

/-- `clean_string` of the value unless it is a string (datasets.py:120-121). -/
def text : AVal → Py Str
  | .none => .ok "None".toList
  | .str s => .ok s
  | .val v => cleanString v

/-- `stringify` (datasets.py:115-132) with the code `-`, where `format_param` (helpers.py:391-402) cleans the string (again). -/
def stringify (p : Str × Bool) (v : AVal) : Py Str := do
  let s ← text v
  .ok (if p.2 = true ∧ p.1 ≠ [] then formatItem (p.1, s.filter keepH) else s.filter keepH)

/-- An object: its class and its attributes. -/
structure Inst where
  fields : List Fld
  attrs : Str → Option AVal

variable (eq : CVal → CVal → Bool)

/-- `==` of two values. -/
def same : AVal → AVal → Bool
  | .none, .none => true
  | .str s, .str t => s = t
  | .val v, .val w => eq v w
  | _, _ => false

/-- The loop over `assert_vals` (datasets.py:890-896). -/
def assertAll (i : Inst) : List (Str × Opts) → Py Bool
  | [] => .ok true
  | (k, o) :: l =>
    match i.attrs k with
    | none => .ok false
    | some v => do
      let s ← stringify (getParameter i.fields k) v
      if o.list.any (same eq v) || o.list.any (same eq (.str s)) then assertAll i l else .ok false

/-- The loop over `drop_vals` (datasets.py:897-902). -/
def dropAll (i : Inst) : List (Str × Opts) → Py Bool
  | [] => .ok true
  | (k, o) :: l =>
    match i.attrs k with
    | none => dropAll i l
    | some v => do
      let s ← stringify (getParameter i.fields k) v
      if o.list.any (same eq (.str s)) then .ok false else dropAll i l

/-- `matches` (datasets.py:885-907). -/
def isMatch (i : Inst) (drop assert : List (Str × Opts)) : Py Bool := do
  let b ← assertAll eq i assert
  if b then dropAll eq i drop else .ok false

end Verif.Matches
