import Verif.Model.LogData

/-!
# Item strings and command line arguments (utilities.py:262-306, 406-478)

Simplifications.
* A value is what the branches of the code ask about it: whether it is a string, an iterable or neither, what `str()` gives for it
  or for its elements, and for a number whether it equals `False` or `True`.
* `clean_string` is that of `Model/LogData.lean`, `split_items` that of `Model/Params.lean`.
-/

namespace Verif

namespace Items

open Str Params LogData Structures

/-- The argument of `join_items`: a string, an iterable, given by `str()` of its elements, or anything else, given by its
`str()`. -/
inductive JVal | str (s : Str) | items (l : List Str) | other (s : Str)
  deriving DecidableEq

/-- `join_items(values, sort)` (utilities.py:268-306). -/
def joinItems (sort : Bool) : JVal → Str
  | .str s => clean s
  | .items l => join '-' (if sort then sortStr (l.map clean) else l.map clean)
  | .other s => s

/-- The values of `params_to_args`: a truth value, another number with its `str()`, a string, an iterable, given by `str()` of its
elements, or anything else, given by its `str()`. -/
inductive AVal | bool (b : Bool) | num (q : ℚ) (s : Str) | str (s : Str) | seq (l : List Str) | other (s : Str)
  deriving DecidableEq

/-- `value == False`: Python compares truth values as numbers. -/
def AVal.isFalse : AVal → Bool
  | .bool b => !b
  | .num q _ => q = 0
  | _ => false

/-- `value == True`. -/
def AVal.isTrue : AVal → Bool
  | .bool b => b
  | .num q _ => q = 1
  | _ => false

/-- The words for the value (utilities.py:460-466). -/
def AVal.words : AVal → List Str
  | .bool true => ["True".toList]
  | .bool false => ["False".toList]
  | .num _ s => [s]
  | .str s => [s]
  | .seq l => l
  | .other s => [s]

/-- One turn of the loop of `params_to_args` (utilities.py:453-466). -/
def argsOf (k : Str) (v : AVal) : List Str :=
  if v.isFalse then []
  else if v.isTrue then ['-' :: '-' :: k]
  else ('-' :: '-' :: k) :: v.words

/-- The loop of `params_to_args` over the sorted keys. -/
def argsLoop (d : PyDict Str AVal) : List Str → Py (List Str)
  | [] => .ok []
  | k :: ks => do
    let v ← d.getE k
    let as ← argsLoop d ks
    pure (argsOf k v ++ as)

/-- `params_to_args(**params)` (utilities.py:437-467). -/
def paramsToArgs (d : PyDict Str AVal) : Py (List Str) := argsLoop d (sortStr d.keys)

/-- `params_to_arg_string(**params)` (utilities.py:469-478). -/
def paramsToArgString (d : PyDict Str AVal) : Py Str := (paramsToArgs d).map (join ' ')

/-- `[p[0] for p in parts]` (utilities.py:413). -/
def firsts : List Str → Py Str
  | [] => .ok []
  | [] :: _ => .error .indexError
  | (c :: _) :: ps => do
    let r ← firsts ps
    pure (c :: r)

/-- `shorten_keys(params)` (utilities.py:406-415). -/
def shortenKeys : List Str → PyDict Str Str → Py (PyDict Str Str)
  | [], d => .ok d
  | n :: ns, d => do
    let f ← firsts (split '_' n)
    shortenKeys ns (d.set n f)

end Items

end Verif
