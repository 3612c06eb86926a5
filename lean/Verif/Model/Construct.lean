import Verif.Dict
import Verif.Model.Strings

/-!
# Construction of structures from keywords (datasets.py:34-345, 400-431, 545-559, 1041-1083; helpers.py:139-156)

Simplifications.
* Only keyword arguments.  None of them is called `kwargs`, `self`, `instance` or `complain`.
* Lists and tuples are the same.  A value of another type than those below cannot be iterated over.
* The constructors of the expected types (`int`, `float`, ...), `==`, `Listable.de_string`, `split_params` and the construction of a structure from
  anything but a dictionary are arbitrary functions.
* A parameter has an expected type or is a `Struct` with a class of structures as constructor, not both.  An instance of the class is exactly of
  this class.
-/

namespace Verif.Construct

/-- A Python value.  `empty` is the marker of datasets.py:28; an instance of a structure has the number of its class and its attributes. -/
inductive V
  | none | empty
  | bool (b : Bool) | int (n : ℤ) | float (x : ℚ) | str (s : Str)
  | list (l : List V) | dict (d : List (Str × V))
  | obj (cls : ℕ) (attrs : List (Str × V))

/-- The expected types (datasets.py:222-241, 315). -/
inductive Ty | int | float | str | bool | dict
  deriving DecidableEq

/-- `isinstance(val, ty)`. -/
def inst : Ty → V → Bool
  | .int, .int _ => true
  | .int, .bool _ => true
  | .float, .float _ => true
  | .str, .str _ => true
  | .bool, .bool _ => true
  | .dict, .dict _ => true
  | _, _ => false

/-- The external functions: the constructors of types (`none` if they raise), `a == b`, `Listable.de_string`, `split_params`, and `from_wildcard` on
anything but a dictionary. -/
structure Ext where
  conv : Ty → V → Option V
  eq : V → V → Bool
  listDe : Str → Py (List V)
  keyedDe : Str → Py (List (Str × V))
  fromOther : ℕ → V → Py V

/-- `nargs`: a number or one of `+`, `*`, `?`. -/
inductive Nargs | num (n : ℕ) | plus | other

/-- The attributes of a `Parsable` used here (datasets.py:61-86). -/
structure Par where
  name : Str
  required : Bool
  default : Option V
  choices : List V
  nargs : Option Nargs

/-- A `Parsable` (with the expected type, if any), a `Listable` (and whether its constructor is `str`), a `Keyed`, or a `Struct` with its
class, the fields of the class and the inherited names. -/
inductive Fld
  | plain (p : Par) (ty : Option Ty)
  | listable (p : Par) (isStr : Bool)
  | keyed (p : Par)
  | struct (p : Par) (cls : ℕ) (fields : List Fld) (inherited : List Str)

/-- The parameters of a field. -/
def Fld.par : Fld → Par
  | .plain p _ => p
  | .listable p _ => p
  | .keyed p => p
  | .struct p _ _ _ => p

/-- `if self.nargs` (datasets.py:78, 206): the number 0 counts as no `nargs`. -/
def nargsOf (p : Par) : Option Nargs :=
  match p.nargs with
  | some (.num 0) => Option.none
  | n => n

/-- The attribute `required` (datasets.py:68, 77-82). -/
def isRequired (p : Par) : Bool :=
  match nargsOf p with
  | Option.none => p.required
  | some .plus => true
  | some _ => false

/-- `listify` (helpers.py:139-156). -/
def listify : V → V
  | .none => .list []
  | .list l => .list l
  | .dict d => .dict d
  | v => .list [v]

/-- The elements a loop over `listify(val)` runs through; over a dictionary its keys. -/
def elems : V → List V
  | .none => []
  | .list l => l
  | .dict d => d.map fun kv => V.str kv.1
  | v => [v]

/-- The conversion in `convert_val` with an expected type (datasets.py:159-163). -/
def convertTo (E : Ext) (ty : Option Ty) (v : V) : Py V :=
  match ty with
  | Option.none => .ok v
  | some t =>
    if inst t v then .ok v
    else
      match E.conv t v with
      | some w => .ok w
      | Option.none => .error .typeError

/-- The end of `convert_val` (datasets.py:174-176). -/
def checkChoice (E : Ext) (p : Par) (w : V) : Py V :=
  if p.choices ≠ [] ∧ p.choices.any (E.eq w) = false then .error .typeError else .ok w

/-- `convert_val` with an expected type and no constructor (datasets.py:158-176). -/
def convertVal (E : Ext) (p : Par) (ty : Option Ty) (v : V) : Py V := do
  let w ← convertTo E ty v
  checkChoice E p w

/-- The conversion in `convert_val` with a class of structures (datasets.py:164-165, 545-559); `build` is the constructor of the class. -/
def toObj (E : Ext) (cls : ℕ) (build : PyDict Str V → Py (PyDict Str V)) : V → Py V
  | .obj c a => if c = cls then .ok (.obj c a) else E.fromOther cls (.obj c a)
  | .dict d => V.obj cls <$> build d
  | v => E.fromOther cls v

/-- `val` cut to `nargs` values (datasets.py:212-217). -/
def cut (n : Nargs) (l : List V) : Py V :=
  match n with
  | .num n => if l.length < n then .error .typeError else .ok (.list (l.take n))
  | _ => .ok (.list l)

/-- The end of `set_self` (datasets.py:206-219); `conv` is `self.convert_val`. -/
def finish (p : Par) (conv : V → Py V) (v : V) : Py V :=
  match nargsOf p with
  | Option.none => conv v
  | some n => do
    let l ← (elems v).mapM conv
    cut n l

/-- The value from the default (datasets.py:199-204); `none` if the attribute is not set. -/
def fromDefault (p : Par) (conv : V → Py V) : Py (Option V) :=
  match p.default with
  | some v => some <$> finish p conv v
  | Option.none => if isRequired p then .error .typeError else .ok Option.none

/-- `set_self` of a plain `Parsable` (datasets.py:178-219); `none` if the attribute is not set. -/
def setPlain (E : Ext) (p : Par) (ty : Option Ty) (kw : PyDict Str V) : Py (Option V) :=
  match PyDict.get? kw p.name with
  | some v => some <$> finish p (convertVal E p ty) v
  | Option.none => fromDefault p (convertVal E p ty)

/-- The value given, the default or the marker (datasets.py:290-297, 331-338). -/
def given (p : Par) (kw : PyDict Str V) : Py V :=
  match PyDict.get? kw p.name with
  | some v => .ok v
  | Option.none =>
    match p.default with
    | some v => .ok v
    | Option.none => if isRequired p then .error .valueError else .ok .empty

/-- The value of a `Listable` (datasets.py:298-302). -/
def listVal (E : Ext) (isStr : Bool) (v : V) : Py V :=
  match v, isStr with
  | .str s, false => V.list <$> E.listDe s
  | v, _ => .ok (listify v)

/-- The text of a string. -/
def strOf? : V → Option Str
  | .str s => some s
  | _ => Option.none

/-- `'_'.join(val)` (datasets.py:344); `none` if it raises TypeError. -/
def joinStrs : V → Option Str
  | .list l => (l.mapM strOf?).map (Str.join '_')
  | _ => Option.none

/-- The value of a `Keyed` (datasets.py:340-345). -/
def keyedVal (E : Ext) : V → Py V
  | .str s => V.dict <$> E.keyedDe s
  | .dict d => .ok (.dict d)
  | .empty => .ok .empty
  | v =>
    match joinStrs v with
    | Option.none => .ok v
    | some s =>
      match E.keyedDe s with
      | .error .typeError => .ok v
      | .error e => .error e
      | .ok d => .ok (.dict d)

/-- The keywords that are not fields, `bargs['kwargs']` (datasets.py:406). -/
def extras (names : List Str) (kw : PyDict Str V) : PyDict Str V := kw.filter fun kv => decide (kv.1 ∉ names)

/-- `set_inherited(complain=False, **kwargs)` (datasets.py:415-431). -/
def setInherited (inh : List Str) (kw : PyDict Str V) (attrs : PyDict Str V) : PyDict Str V :=
  inh.foldl (fun a n => match PyDict.get? kw n with
    | some v => PyDict.set a n v
    | Option.none => a) attrs

/-- `set_self` of a `Struct` (datasets.py:178-219); `build` is the constructor of its class and `ex` the keywords that are not fields of the outer
structure. -/
def setStruct (E : Ext) (p : Par) (cls : ℕ) (build : PyDict Str V → Py (PyDict Str V)) (ex kw : PyDict Str V) : Py (Option V) :=
  let conv : V → Py V := fun v => do
    let w ← toObj E cls build v
    checkChoice E p w
  match PyDict.get? kw p.name with
  | some v => some <$> finish p conv v
  | Option.none =>
    if ex ≠ [] then
      match build ex with
      | .ok a => some <$> finish p conv (.obj cls a)
      | .error .typeError => if isRequired p then .error .typeError else .ok Option.none
      | .error e => .error e
    else fromDefault p conv

mutual

/-- `value.set_self(self, bargs)` (datasets.py:178-219, 288-302, 330-345); `names` are the fields of the structure. -/
def setFld (E : Ext) (names : List Str) (kw : PyDict Str V) : Fld → Py (Option V)
  | .plain p ty => setPlain E p ty kw
  | .listable p b => do
    let v ← given p kw
    let w ← listVal E b v
    pure (some w)
  | .keyed p => do
    let v ← given p kw
    let w ← keyedVal E v
    pure (some w)
  | .struct p cls fs inh =>
    setStruct E p cls (fun d => setInherited inh d <$> setFlds E (fs.map fun f => f.par.name) d fs) (extras names kw) kw

/-- The loop of `__init__` (datasets.py:407-411). -/
def setFlds (E : Ext) (names : List Str) (kw : PyDict Str V) : List Fld → Py (PyDict Str V)
  | [] => pure []
  | f :: fs => do
    let v ← setFld E names kw f
    let a ← setFlds E names kw fs
    pure ((v.map fun v => (f.par.name, v)).toList ++ a)

end

/-- `Structure.__init__(**kw)` (datasets.py:400-413): the attributes of the instance. -/
def construct (E : Ext) (fs : List Fld) (inh : List Str) (kw : PyDict Str V) : Py (PyDict Str V) :=
  setInherited inh kw <$> setFlds E (fs.map fun f => f.par.name) kw fs

/-- `(v, getattr(self, v))` (datasets.py:921). -/
def item (attrs : PyDict Str V) (f : Fld) : Py (Str × V) :=
  match PyDict.get? attrs f.par.name with
  | some v => .ok (f.par.name, v)
  | Option.none => .error .attributeError

/-- `items()` (datasets.py:919-921): the fields with their values; a field that is not set raises AttributeError. -/
def items (fs : List Fld) (attrs : PyDict Str V) : Py (PyDict Str V) := fs.mapM (item attrs)

end Verif.Construct
