import Verif.Model.Structures

/-!
# Formatting of parameters and lists (helpers.py:122-192, 328-422, 631-654)

Simplifications.
* A value is a scalar, given by what `str` makes of it, a list, or a dictionary whose keys are strings.
* The entries of a dictionary are cleaned in the order of insertion and then sorted; the code sorts first.  The only exception possible is the
  same, and the dictionary has distinct keys.
* `repr` and `str` of lists and dictionaries are arbitrary functions, and so is the text of the default object of `format_param`.
-/

namespace Verif.Format

open Str Structures

/-- A value to be formatted. -/
inductive CVal
  | scalar (s : Str)
  | list (l : List CVal)
  | dict (d : List (Str × CVal))

/-- The pairs of a dictionary in the order of `sorted(value.keys())`. -/
def sortPairs (l : List (Str × Str)) : List (Str × Str) := l.mergeSort (fun a b => a.1 ≤ b.1)

mutual
/-- `clean_string` (helpers.py:171-192). -/
def cleanString : CVal → Py Str
  | .scalar s => pure (s.filter keepH)
  | .list l => do
    let ps ← cleanList l
    pure (join '-' ps)
  | .dict d => do
    let ps ← cleanDict d
    pure (join '_' ((sortPairs ps).map formatItem))

/-- `clean_string(i) for i in value` (helpers.py:189). -/
def cleanList : List CVal → Py (List Str)
  | [] => pure []
  | v :: l => do
    let s ← cleanString v
    let ps ← cleanList l
    pure (s :: ps)

/-- `format_param(k, value[k], '-', force_both=True)` for every key (helpers.py:191, 391-402). -/
def cleanDict : List (Str × CVal) → Py (List (Str × Str))
  | [] => pure []
  | (k, v) :: d =>
    if k = [] then throw .typeError
    else do
      let s ← cleanString v
      let ps ← cleanDict d
      pure ((k, s) :: ps)
end

/-- What `format_param` returns. -/
inductive Out | none | str (s : Str) | args (l : List Str)
  deriving DecidableEq

variable (reprOf strOf : CVal → Str) (dummy : CVal)

/-- `format_param` (helpers.py:328-410); the value `none` is the default object. -/
def formatParam (name : Option Str) (value : Option CVal) (code : Str) (force : Bool) : Py Out :=
  let v := value.getD dummy
  if force = false ∧ ('n' ∈ code ∨ value.isNone = true) then
    if code = "arg".toList then pure (.str ("--".toList ++ name.getD "None".toList))
    else pure (match name with | none => .none | some n => .str n)
  else if force = false ∧ ('v' ∈ code ∨ name.getD [] = []) then
    if '-' ∈ code then (cleanString v).map .str else pure (.str (reprOf v))
  else if name.getD [] = [] then throw .typeError
  else
    let n := name.getD []
    if code = "arg".toList then
      pure (.args (("--".toList ++ n) :: match v with | .list l => l.map strOf | w => [strOf w]))
    else if '-' ∈ code then (cleanString v).map fun s => .str (formatItem (n, s))
    else if '=' ∈ code then pure (.str (n ++ '=' :: reprOf v))
    else if ':' ∈ code then pure (.str (n ++ ':' :: reprOf v))
    else if code = [' '] then pure (.str (n ++ ' ' :: strOf v))
    else pure (.str (n ++ ' ' :: reprOf v))

/-- `sep.join(parts)` for a separator of any length. -/
def joinWith (sep : Str) : List Str → Str
  | [] => []
  | [s] => s
  | s :: t :: l => s ++ sep ++ joinWith sep (t :: l)

/-- `format_join` (helpers.py:412-422); `os.path.join` of a list raises TypeError. -/
def formatJoin (parts : List Str) (code : Str) : Py Str :=
  if '_' ∈ code then pure (joinWith ['_'] parts)
  else if '=' ∈ code ∨ ':' ∈ code then pure (joinWith [',', ' '] parts)
  else if code = [] then pure (joinWith [] parts)
  else if '/' ∈ code then throw .typeError
  else pure (joinWith [' '] parts)

/-! ### Lists -/

/-- An argument of `listify`: `seq` is anything but a list or string that can be iterated over again and again, `iter` what can be iterated
over once, such as a generator, and `scalar` everything else. -/
inductive Obj (α : Type) | none | str (s : Str) | list (l : List α) | seq (l : List α) | iter (l : List α) | scalar (x : α)

/-- The result of `listify`: the argument itself, as it is afterwards, or a new list. -/
inductive Listed (α : Type) | same (o : Obj α) | new (l : List (Obj α))

/-- `listify` (helpers.py:139-156). -/
def listify {α : Type} (v : Obj α) (copy : Bool) : Listed α :=
  match v with
  | .none => .new []
  | .str s => .new [.str s]
  | .list l => .same (.list l)
  | .seq l => if copy then .new (l.map .scalar) else .same (.seq l)
  | .iter l => if copy then .new (l.map .scalar) else .same (.iter [])
  | .scalar x => .new [.scalar x]

/-- What a loop over an object runs through; a string gives its characters and is not used. -/
def Obj.elems {α : Type} : Obj α → List (Obj α)
  | .list l | .seq l | .iter l => l.map .scalar
  | _ => []

/-- What a loop over the result of `listify` runs through. -/
def Listed.elems {α : Type} : Listed α → List (Obj α)
  | .same o => o.elems
  | .new l => l

end Verif.Format
