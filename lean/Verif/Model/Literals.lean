import Verif.Model.Format

/-!
# Arrays read from text (logfiles.py:23-36, features.py:25-33)

Simplifications.

* `ast.literal_eval` is modelled on texts of numbers, spaces, commas and square brackets.  Other characters (quotes, parentheses, braces, `#`, line ends)
  are taken for parts of numbers.  A number is what `num` reads from the text between two commas or brackets, spaces at the ends removed, so that every
  syntax of numbers is allowed; `num` raises on the other texts.  Spaces at the beginning are removed, as they are from Python 3.10 on; `de_array` and
  `strs_to_floats` have none there.
* `SyntaxError` and `ValueError` are not distinguished; both are `valueError` here.
* `np.array` is not modelled: the result is the nested list that is passed to it.
-/

namespace Verif

namespace Literals

/-- Numbers and lists. -/
inductive Lit (ν : Type)
  | num (x : ν)
  | list (l : List (Lit ν))

inductive Tok
  | open
  | close
  | comma
  | atom (s : Str)
  deriving DecidableEq

/-- The text of a number, without the spaces at its end. -/
def flush (acc : Str) : List Tok :=
  match acc.dropWhile (· = ' ') with
  | [] => []
  | s => [.atom s.reverse]

/-- The tokens of a text; `acc` is the text of the number so far, reversed. -/
def tokens : Str → Str → List Tok
  | acc, [] => flush acc
  | acc, c :: s =>
    if c = '[' then flush acc ++ .open :: tokens [] s
    else if c = ']' then flush acc ++ .close :: tokens [] s
    else if c = ',' then flush acc ++ .comma :: tokens [] s
    else if c = ' ' ∧ acc = [] then tokens [] s
    else tokens (c :: acc) s

/-- A list that is being read: its elements so far, the last one first, and whether another one may follow, which is so at the beginning and after a
comma. -/
structure Frame (ν : Type) where
  items : List (Lit ν)
  ready : Bool

/-- Add an element. -/
def Frame.push {ν : Type} (f : Frame ν) (v : Lit ν) : Frame ν := ⟨v :: f.items, false⟩

/-- Read the rest of a list: the innermost list is given first. -/
def parse {ν : Type} (num : Str → Py ν) : Frame ν → List (Frame ν) → List Tok → Py (Lit ν)
  | _, _, [] => throw .valueError
  | f, fs, .open :: ts => if f.ready then parse num ⟨[], true⟩ (f :: fs) ts else throw .valueError
  | f, fs, .atom s :: ts =>
    if f.ready then do
      let x ← num s
      parse num (f.push (.num x)) fs ts
    else throw .valueError
  | f, fs, .comma :: ts => if f.ready then throw .valueError else parse num ⟨f.items, true⟩ fs ts
  | f, fs, .close :: ts =>
    match fs, ts with
    | [], [] => pure (.list f.items.reverse)
    | [], _ :: _ => throw .valueError
    | g :: gs, ts => parse num (g.push (.list f.items.reverse)) gs ts

/-- `ast.literal_eval` of one number or list. -/
def evalToks {ν : Type} (num : Str → Py ν) : List Tok → Py (Lit ν)
  | .open :: ts => parse num ⟨[], true⟩ [] ts
  | [.atom s] => do
    let x ← num s
    pure (.num x)
  | _ => throw .valueError

/-- `ast.literal_eval`. -/
def literalEval {ν : Type} (num : Str → Py ν) (s : Str) : Py (Lit ν) := evalToks num (tokens [] s)

/-- `'[' + ', '.join(values) + ']'` (logfiles.py:35, features.py:32) for strings. -/
def bracket (ss : List Str) : Str := '[' :: Format.joinWith [',', ' '] ss ++ [']']

/-- The texts of the elements; `join` raises TypeError for an element that is no string. -/
def texts : List (Format.Obj (Option Str)) → Py (List Str)
  | [] => pure []
  | .str s :: l => do
    let r ← texts l
    pure (s :: r)
  | .scalar (some s) :: l => do
    let r ← texts l
    pure (s :: r)
  | _ :: _ => throw .typeError

/-- `de_array` (logfiles.py:23-36).  The elements of lists are strings or, as `none`, anything else. -/
def deArray {ν : Type} (num : Str → Py ν) (values : Format.Obj (Option Str)) : Py (Lit ν) := do
  let ss ← texts (Format.listify values false).elems
  literalEval num (bracket ss)

/-- `strs_to_floats` (features.py:25-33): without `listify`, so that a string is the sequence of its characters. -/
def strsToFloats {ν : Type} (num : Str → Py ν) (values : Format.Obj (Option Str)) : Py (Lit ν) := do
  let ss ← match values with
    | .none => throw .typeError
    | .scalar _ => throw .typeError
    | .str s => pure (s.map fun c => [c])
    | .list l | .seq l | .iter l => texts (l.map .scalar)
  literalEval num (bracket ss)

end Literals

end Verif
