import Verif.Py
import Verif.Dict

/-!
# Names with numbers and parameters (environments.py:26-131, helpers.py:171-192, 295-325, 328-481, utilities.py:262-308,
540-598, 793-807)

Simplifications.
* A string is the list of its characters.
* `int(s)` accepts ASCII white space around an optional sign and ASCII digits with single underscores between them.
  The digits of other scripts, which Python also accepts, are not modelled.
* `float(s)` is a parameter.
* `split_params` of helpers.py is modelled with `deep_eval=False`, that is without `ast.literal_eval`.
* The data frame of a `Protocol` is the list of its rows.
-/

namespace Verif

/-- A Python string. -/
abbrev Str := List Char

namespace Str

/-- `s.split(c)` for a one-character separator. -/
def split (c : Char) : Str → List Str
  | [] => [[]]
  | x :: xs =>
    if x = c then [] :: split c xs
    else
      match split c xs with
      | [] => [[x]]
      | p :: ps => (x :: p) :: ps

/-- `c.join(ps)` for a one-character separator. -/
def join (c : Char) : List Str → Str
  | [] => []
  | [p] => p
  | p :: q :: ps => p ++ c :: join c (q :: ps)

/-- White space outside of ASCII: next line, no-break space, Ogham space, spaces of various widths, line and paragraph separators, narrow
no-break space, mathematical space, ideographic space. -/
def isWideSpace (n : ℕ) : Bool :=
  n = 0x85 || n = 0xa0 || n = 0x1680 || (0x2000 ≤ n && n ≤ 0x200a) || n = 0x2028 || n = 0x2029 || n = 0x202f || n = 0x205f || n = 0x3000

/-- White space, `c.isspace()`: what `s.strip()` and `s.split()` take away. -/
def isSpace (c : Char) : Bool :=
  c = ' ' || (9 ≤ c.toNat && c.toNat ≤ 13) || (28 ≤ c.toNat && c.toNat ≤ 31) || isWideSpace c.toNat

/-- `s.strip()`. -/
def strip (s : Str) : Str := ((s.dropWhile isSpace).reverse.dropWhile isSpace).reverse

/-- Digits with single underscores between them. -/
def unsigned (s : Str) : Py ℕ :=
  if (split '_' s).all (fun p => decide (p ≠ []) && p.all Char.isDigit) then .ok (Nat.ofDigitChars 10 (split '_' s).flatten 0)
  else .error .valueError

/-- `int(s)`. -/
def pyInt (s : Str) : Py ℤ :=
  match strip s with
  | '-' :: r => (unsigned r).map fun n => -(n : ℤ)
  | '+' :: r => (unsigned r).map fun n => (n : ℤ)
  | r => (unsigned r).map fun n => (n : ℤ)

/-- `str(n)` for a natural number. -/
def ofNat (n : ℕ) : Str := Nat.toDigits 10 n

/-- `str(n)` for an integer. -/
def ofInt (n : ℤ) : Str := if n < 0 then '-' :: ofNat n.natAbs else ofNat n.natAbs

/-- The characters that `clean_string` of helpers.py keeps (helpers.py:192). -/
def keepH (c : Char) : Bool := c.isAlphanum || c = '_' || c = '.' || c = '-'

/-- The characters that `clean_string` of utilities.py keeps (utilities.py:266). -/
def keepU (c : Char) : Bool := c.isAlphanum || c = '_' || c = '.'

/-- One turn of the loop of `get_protocol_parts` (environments.py:67-84). -/
def protocolPart (p : Str) : Str × ℤ :=
  let sub := split '-' p
  match sub.getLast? with
  | none => ([], 0)
  | some last =>
    if last = [] then (join '-' sub.dropLast, 0)
    else
      match pyInt last with
      | .ok n => (join '-' sub.dropLast, n)
      | .error _ => (join '-' sub, 0)

/-- `Protocol.get_protocol_parts` (environments.py:45-85). -/
def getProtocolParts (s : Str) : List (Str × ℤ) := (split '_' s).map protocolPart

/-- `format_protocol` (helpers.py:425-430) with the branches of `format_param` (helpers.py:380-402) for the code `-`: no
value gives the name, no name gives the value. -/
def formatProtocol (v : Str × ℤ) : Str :=
  if v.2 = 0 then v.1
  else if v.1 = [] then (ofInt v.2).filter keepH
  else v.1 ++ '-' :: (ofInt v.2).filter keepH

/-- `Protocol.__str__` (environments.py:130-131). -/
def protocolStr (ps : List (Str × ℤ)) : Str := join '_' (ps.map formatProtocol)

/-- `EnvDir.__str__` (environments.py:26-31). -/
def envDirStr (v : Str × ℤ) : Str := if v.2 ≠ 0 then v.1 ++ '-' :: ofInt v.2 else v.1

/-- The loop of `split_params` (helpers.py:461-480): the list holds the parts not yet seen; a part without `-` is
put in front of the next one. -/
def splitParamsLoop : List Str → PyDict Str Str → Py (PyDict Str Str)
  | [], d => .ok d
  | [p], d =>
    match split '-' p with
    | k :: v :: vs => .ok (d.set k (join '-' (v :: vs)))
    | _ => .error .indexError
  | p :: q :: rest, d =>
    match split '-' p with
    | k :: v :: vs => splitParamsLoop (q :: rest) (d.set k (join '-' (v :: vs)))
    | _ => splitParamsLoop ((p ++ '_' :: q) :: rest) d
termination_by l => l.length

/-- `split_params` of helpers.py with `deep_eval=False` (helpers.py:432-481). -/
def splitParams (s : Str) : Py (PyDict Str (Option Str)) :=
  match split '_' s with
  | [p] => if '-' ∈ p then (splitParamsLoop [p] []).map (fun d => d.map fun kv => (kv.1, some kv.2)) else .ok [(p, none)]
  | ps => (splitParamsLoop ps []).map fun d => d.map fun kv => (kv.1, some kv.2)

/-- One parameter as it is written (helpers.py:402). -/
def formatItem (kv : Str × Str) : Str := kv.1 ++ '-' :: kv.2

/-- `s.rjust(w, '0')` and, for digits, `s.zfill(w)`. -/
def zfill (w : ℕ) (s : Str) : Str := List.replicate (w - s.length) '0' ++ s

/-- `join_number` (utilities.py:540-554); a width of zero or `None` does nothing. -/
def joinNumber (s : Str) (num : ℤ) (width : ℕ) : Str :=
  let n := ofInt num
  let n := if width ≠ 0 then zfill width n else n
  s ++ '-' :: n

/-- The number that `split_number` finds. -/
inductive Num (F : Type) | none | int (n : ℤ) | float (x : F)

/-- `split_number` on a string (utilities.py:556-598). -/
def splitNumber {F : Type} (pyFloat : Str → Option F) (s : Str) : Str × Num F :=
  let parts := split '-' s
  match parts.getLast? with
  | Option.none => ([], .none)
  | some last =>
    let num : Num F :=
      if '.' ∈ last then
        match pyFloat last with
        | some x => .float x
        | Option.none => .none
      else
        match pyInt last with
        | .ok n => .int n
        | .error _ => .none
    match num with
    | .none => (join '-' parts, .none)
    | n => (join '-' parts.dropLast, n)

/-- `get_array_headers` (utilities.py:793-807) with `join_items` of two strings (utilities.py:299-306). -/
def arrayHeaders (name : Str) (length : ℕ) : List Str :=
  let width := (ofNat length).length
  (List.range length).map fun i => join '-' [name.filter keepU, (zfill width (ofNat i)).filter keepU]

/-- The loop of `de_number` (helpers.py:318-319) on the reversed string: the characters that are digits or points. -/
def deNumberLoop : Str → Str → Py (Str × Str)
  | _, [] => .error .indexError
  | acc, c :: rest => if c.isDigit || c = '.' then deNumberLoop (c :: acc) rest else .ok (acc, c :: rest)

/-- `de_number` (helpers.py:295-325) for ASCII strings: the prefix and the suffix that is then converted to a number; no
suffix if the last character is no digit. -/
def deNumber (s : Str) : Py (Str × Option Str) :=
  match s.reverse with
  | [] => .error .indexError
  | c :: rest =>
    if !c.isDigit then .ok (s, none)
    else do
      let (suffix, left) ← deNumberLoop [] (c :: rest)
      match left with
      | '-' :: l => pure (l.reverse, some suffix)
      | l => pure (l.reverse, some suffix)

end Str

end Verif
