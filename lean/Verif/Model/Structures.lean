import Verif.Model.Strings

/-!
# Directory names of parameter structures (datasets.py:34-131, 222-271, 349-450, 534-768, 1041-1080; helpers.py:171-256, 432-481)

A `Structure` class is the list of its `_fields`; an instance is the list of the values of these fields, in the same order.

Simplifications.
* Fields have different names, and `constant`, `default`, `constructor`, `choices` and `nargs` are not used.
* Values are strings; a value that is not set is the marker `empty`.
* `params_from_dir_string` is modelled with `deep_eval=False`, its default.
* `ast.literal_eval` is a parameter `lit`.  Strings that `clean_string` returns have no quotes and no brackets, so the literals are
  numbers, `True`, `False` and `None`, which cannot be indexed.
* The functions of `os.path` are those of `posixpath`.
-/

namespace Verif

namespace Str

/-- What follows the last `c`; all of it if there is no `c`. -/
def afterLast (c : Char) (s : Str) : Str := (s.reverse.takeWhile (· ≠ c)).reverse

/-- `s.rstrip(c)`. -/
def rstrip (c : Char) (s : Str) : Str := (s.reverse.dropWhile (· = c)).reverse

/-- `os.path.join(a, b)`. -/
def pathJoin2 (a b : Str) : Str :=
  if b.head? = some '/' then b
  else if a = [] ∨ a.getLast? = some '/' then a ++ b
  else a ++ '/' :: b

/-- `os.path.join(*args)`. -/
def pathJoin : List Str → Str
  | [] => []
  | a :: as => as.foldl pathJoin2 a

/-- `os.path.split(p)`. -/
def pathSplit (p : Str) : Str × Str :=
  let tail := afterLast '/' p
  let head := p.take (p.length - tail.length)
  if head.all (· = '/') then (head, tail) else (rstrip '/' head, tail)

/-- The loop of `os.path.normpath` over the components; the result is reversed. -/
def normLoop (rooted : Bool) : List Str → List Str → List Str
  | acc, [] => acc
  | acc, c :: cs =>
    if c = [] ∨ c = ['.'] then normLoop rooted acc cs
    else if c ≠ ['.', '.'] ∨ (rooted = false ∧ acc = []) ∨ acc.head? = some ['.', '.'] then normLoop rooted (c :: acc) cs
    else normLoop rooted acc.tail cs

/-- `os.path.normpath(p)`. -/
def normpath (p : Str) : Str :=
  if p = [] then ['.']
  else
    let slashes := if p.head? = some '/' then (if p.take 2 = ['/', '/'] ∧ p.take 3 ≠ ['/', '/', '/'] then 2 else 1) else 0
    let q := List.replicate slashes '/' ++ join '/' (normLoop (slashes ≠ 0) [] (split '/' p)).reverse
    if q = [] then ['.'] else q

/-- `os.path.splitext(p)[1]`. -/
def extension (p : Str) : Str :=
  let f := afterLast '/' p
  let e := afterLast '.' f
  let stem := f.take (f.length - e.length - 1)
  if '.' ∈ f ∧ stem.any (· ≠ '.') then '.' :: e else []

/-- `s.isnumeric()`, for ASCII. -/
def isNumeric (s : Str) : Bool := s ≠ [] && s.all Char.isDigit

end Str

open Str

/-- What `de_string` makes of a part without separators. -/
inductive Atom (L : Type) | str (s : Str) | lit (x : L) | int (n : ℕ)
  deriving DecidableEq

/-- `a == s` for a string `s`. -/
def Atom.isStr {L : Type} : Atom L → Str → Bool
  | .str t, s => t = s
  | _, _ => false

/-- A value that `de_string` returns: an atom, or a list of atoms. -/
inductive Flat (L : Type) | atom (a : Atom L) | list (l : List (Atom L))
  deriving DecidableEq

/-- A value that `de_string` returns: as before, or a dictionary. -/
inductive Deep (L : Type) | flat (v : Flat L) | dict (d : PyDict Str (Option (Flat L)))
  deriving DecidableEq

section DeString

variable {L : Type} (lit : Str → Option L)

/-- `de_string` on a part without `_` and `-` (helpers.py:240-256). -/
def deAtom (s : Str) : Atom L :=
  match lit s with
  | some x => .lit x
  | none => if isNumeric s then .int (Nat.ofDigitChars 10 s 0) else .str s

/-- `de_string` on a string without `_`, and on the list of its parts (helpers.py:240-256). -/
def deFlat (s : Str) : Flat L :=
  match lit s with
  | some x => .atom (.lit x)
  | none =>
    if isNumeric s then .atom (.int (Nat.ofDigitChars 10 s 0))
    else if '-' ∈ s ∧ 1 < s.length then .list ((split '-' s).map (deAtom lit))
    else .atom (.str s)

/-- The value of one parameter in `split_params` with `deep_eval=True` (helpers.py:466-479), given the parts after the key. -/
def deValue : List Str → Flat L
  | [v] => deFlat lit v
  | v :: vs => if v = [] then deFlat lit (join '-' (v :: vs)) else .list ((v :: vs).map (deAtom lit))
  | [] => .list []

/-- The loop of `split_params` with `deep_eval=True` (helpers.py:461-480). -/
def splitParamsDeepLoop : List Str → PyDict Str (Option (Flat L)) → Py (PyDict Str (Option (Flat L)))
  | [], d => .ok d
  | [p], d =>
    match split '-' p with
    | k :: v :: vs => .ok (d.set k (some (deValue lit (v :: vs))))
    | _ => .error .indexError
  | p :: q :: rest, d =>
    match split '-' p with
    | k :: v :: vs => splitParamsDeepLoop (q :: rest) (d.set k (some (deValue lit (v :: vs))))
    | _ => splitParamsDeepLoop ((p ++ '_' :: q) :: rest) d
termination_by l => l.length

/-- `split_params` with `deep_eval=True` (helpers.py:432-481). -/
def splitParamsDeep (s : Str) : Py (PyDict Str (Option (Flat L))) :=
  match split '_' s with
  | [p] => if '-' ∈ p then splitParamsDeepLoop lit [p] [] else .ok [(p, none)]
  | ps => splitParamsDeepLoop lit ps []

/-- `de_string` on a string (helpers.py:194-256). -/
def deString (s : Str) : Py (Deep L) :=
  match lit s with
  | some x => pure (.flat (.atom (.lit x)))
  | none =>
    if '_' ∈ s then do
      let d ← splitParamsDeep lit s
      pure (.dict d)
    else pure (.flat (deFlat lit s))

end DeString

/-- The flags of a `Parsable` (datasets.py:61-86). -/
structure Par where
  name : Str
  required : Bool
  positional : Bool
  keyword : Bool
  transient : Bool

/-- An element of `_fields`: a plain `Parsable`, or a `Struct` with the fields of its constructor. -/
inductive Fld
  | par (p : Par)
  | struct (p : Par) (fields : List Fld)

/-- The value of a field. -/
inductive Val
  | unset
  | str (s : Str)
  | obj (vs : List Val)

namespace Structures

/-- `Parsable.stringify` of a string with code `-` (datasets.py:114-129, helpers.py:171-192, 380-402). -/
def parString (p : Par) (s : Str) : Str :=
  if p.keyword ∧ p.name ≠ [] then p.name ++ '-' :: s.filter keepH else s.filter keepH

/-- The loop of `get_nonpos_string` (datasets.py:700-715): the strings of the keyword parameters, and that of the other one. -/
def nonposArgs : List Fld → List Val → Option Str → Py (List Str × Option Str)
  | .struct _ _ :: fs, _ :: vs, n => nonposArgs fs vs n
  | .par p :: fs, v :: vs, n =>
    if p.transient ∨ p.positional then nonposArgs fs vs n
    else
      match v with
      | .unset => if p.required then .error .typeError else nonposArgs fs vs n
      | .obj _ => .error .typeError -- values are strings
      | .str s =>
        if p.keyword then do
          let (l, n') ← nonposArgs fs vs n
          pure (parString p s :: l, n')
        else if n.isSome then .error .typeError
        else nonposArgs fs vs (some (parString p s))
  | _, _, n => pure ([], n)

/-- `sorted` of strings. -/
def sortStr (l : List Str) : List Str := l.mergeSort (· ≤ ·)

/-- `get_nonpos_string` (datasets.py:697-723). -/
def nonposString (fs : List Fld) (vs : List Val) : Py Str := do
  let (l, n) ← nonposArgs fs vs none
  match n with
  | none => pure (join '_' (sortStr l))
  | some s => pure (join '_' (s :: sortStr l))

/-- The end of `get_dir_string` (datasets.py:757-763). -/
def joinDirs (fs : List Fld) (vs : List Val) (args : List Str) : Py Str := do
  let key ← nonposString fs vs
  pure (pathJoin (if key = [] then args else args ++ [key]))

mutual

/-- One turn of the loop of `get_dir_string` (datasets.py:727-749), with `Struct.stringify` (datasets.py:1064-1075). -/
def fldArgs : Fld → Val → Py (List Str)
  | .par p, v =>
    if p.transient ∨ !p.positional then pure []
    else
      match v with
      | .unset => if p.required then .error .typeError else pure []
      | .obj _ => .error .typeError -- values are strings
      | .str s => pure [parString p s]
  | .struct p g, v =>
    if p.transient then pure []
    else
      match v with
      | .unset => if p.required then .error .typeError else pure []
      | .str s => pure [if p.keyword then pathJoin2 p.name s else s]
      | .obj ws => do
        let args ← dirArgs g ws
        let s ← joinDirs g ws args
        pure [if p.keyword then pathJoin2 p.name s else s]

/-- The loop of `get_dir_string` (datasets.py:727-755). -/
def dirArgs : List Fld → List Val → Py (List Str)
  | f :: fs, v :: vs => do
    let a ← fldArgs f v
    let l ← dirArgs fs vs
    pure (a ++ l)
  | _, _ => pure []

end

/-- `get_dir_string` (datasets.py:725-765). -/
def dirString (fs : List Fld) (vs : List Val) : Py Str := do
  let args ← dirArgs fs vs
  joinDirs fs vs args

/-- A value in the result of `params_from_dir_string`. -/
inductive PV (L : Type) | none | atom (a : Atom L)
  deriving DecidableEq

/-- `_has_keyword` (datasets.py:535-538). -/
def hasKeyword (fs : List Fld) : Bool :=
  fs.any fun f => match f with
    | .par p => p.keyword && !p.transient
    | .struct _ _ => false

def Fld.flags : Fld → Par
  | .par p => p
  | .struct p _ => p

/-- `has_nonpos_nonkey` (datasets.py:349-356). -/
def npnkOf (fs : List Fld) : Py (Option Str) :=
  match fs.filter fun f => !(Fld.flags f).positional && !(Fld.flags f).keyword && !(Fld.flags f).transient with
  | [] => pure none
  | [f] => pure (some (Fld.flags f).name)
  | _ => .error .typeError

/-- The local variables of `params_from_dir_string`. -/
structure St (L : Type) where
  dir : Str
  params : PyDict Str (PV L)
  keyworded : List Str
  npnk : Option Str
  deriving DecidableEq

/-- `d.update(e)`. -/
def updateAll {L : Type} (d e : PyDict Str (PV L)) : PyDict Str (PV L) := e.foldl (fun d kv => d.set kv.1 kv.2) d

section Parse

variable {L : Type} (lit : Str → Option L) (repr : L → Str)

/-- The first part of `params_from_dir_string` (datasets.py:589-611). -/
def parseHead (fs : List Fld) (d : Str) : Py (St L) := do
  let d := normpath (if "txt".toList <:+: extension d then (pathSplit d).1 else d)
  let n ← npnkOf fs
  if hasKeyword fs then do
    let (d', k) := pathSplit d
    let k := match n with
      | some name => name ++ '-' :: k
      | none => k
    let ps ← splitParams k
    pure ⟨d', ps.map fun kv => (kv.1, match kv.2 with
      | some s => .atom (.str s)
      | none => .none), ps.map Prod.fst, none⟩
  else
    match n with
    | some name =>
      let (d', k) := pathSplit d
      pure ⟨d', [(name, .atom (.str k))], [], none⟩
    | none => pure ⟨d, [], [], none⟩

/-- `clean_string` of an item of a list (helpers.py:188-192). -/
def atomStr : Atom L → Str
  | .str s => s.filter keepH
  | .lit x => (repr x).filter keepH
  | .int n => ofNat n

/-- `Parsable.stringify` of a list of atoms (datasets.py:114-129): the list becomes a string and gets the name again. -/
def listString (p : Par) (l : List (Atom L)) : Str := parString p (join '-' (l.map (atomStr repr)))

/-- A positional parameter with keyword (datasets.py:627-643): indexing what `de_string` returns. -/
def positionalValue (p : Par) (comp : Str) : Py (Option (PV L)) := do
  let v ← deString lit comp
  let other : Py (Option (PV L)) := if p.required then .error .valueError else pure none
  match v with
  | .dict _ => .error .keyError
  | .flat (.atom (.lit _)) => .error .typeError
  | .flat (.atom (.int _)) => .error .typeError
  | .flat (.atom (.str [])) => .error .indexError
  | .flat (.atom (.str (c :: cs))) =>
    if [c] ≠ p.name then other
    else
      match cs with
      | [] => .error .indexError
      | [x] => pure (some (.atom (.str [x])))
      | _ => pure (some (.atom (.str (parString p cs))))
  | .flat (.list []) => .error .indexError
  | .flat (.list (a :: as)) =>
    if a.isStr p.name = false then other
    else
      match as with
      | [] => .error .indexError
      | [x] => pure (some (.atom x))
      | _ => pure (some (.atom (.str (listString repr p as))))

/-- The last part of `params_from_dir_string` (datasets.py:657-676).  With no fields the loop variable is not defined. -/
def parseTail (fs : List Fld) (s : St L) : Py (PyDict Str (PV L) × Str) :=
  if fs.isEmpty then .error .nameError
  else
    match s.npnk with
    | none => pure (s.params, s.dir)
    | some n =>
      if (s.params.get? n).isSome then pure (s.params, s.dir)
      else
        match s.keyworded with
        | [k] => do
          let v ← s.params.getE k
          pure ((s.params.erase k).set n v, s.dir)
        | _ => .error .valueError

mutual

/-- One turn of the loop over the fields (datasets.py:614-656). -/
def parseFld : Fld → St L → Py (St L)
  | .struct p g, s =>
    if p.transient then pure s
    else
      let r : Py (PyDict Str (PV L) × Str) := do
        let t ← parseHead g s.dir
        let t ← parseFlds g t
        parseTail g t
      match r with
      | .error .valueError => if p.required then .error .valueError else pure s
      | .error e => .error e
      | .ok (ps, d) => pure { s with dir := d, params := updateAll s.params ps }
  | .par p, s =>
    if p.transient then pure s
    else if p.positional then
      let (d, comp) := pathSplit s.dir
      if p.keyword then do
        let v ← positionalValue lit repr p comp
        match v with
        | none => pure { s with dir := pathJoin2 d comp }
        | some v => pure { s with dir := d, params := s.params.set p.name v }
      else pure { s with dir := d, params := s.params.set p.name (.atom (.str comp)) }
    else if p.keyword then
      if p.name ∈ s.keyworded then pure { s with keyworded := s.keyworded.erase p.name }
      else if p.required ∧ (s.params.get? p.name).isNone then .error .valueError
      else pure s
    else pure { s with npnk := some p.name }

/-- The loop over the fields from the last to the first (datasets.py:613-656). -/
def parseFlds : List Fld → St L → Py (St L)
  | [], s => pure s
  | f :: fs, s => do
    let t ← parseFlds fs s
    parseFld f t

end

/-- `params_from_dir_string` (datasets.py:583-676): the parameters, and the remaining directory `base_dir`. -/
def paramsFromDirString (fs : List Fld) (d : Str) : Py (PyDict Str (PV L) × Str) := do
  let t ← parseHead fs d
  let t ← parseFlds lit repr fs t
  parseTail fs t

end Parse

end Structures

end Verif
