import Verif.Model.Construct

/-!
# Records of structures (datasets.py:809-817, 844-872, 909-917)

Simplifications.
* Whether a parameter is transient is an arbitrary function of the parameter, and `stringify(value, remove_name=True)` and `matches` of a nested
  structure are arbitrary functions.
* A `Series` is the dictionary it is made of.
* The options `drop_vals` and `assert_vals` are dictionaries with lists of strings, as after `listify`.
-/

namespace Verif.Construct

/-- The condition `not v.transient`. -/
def kept (tr : Par → Bool) (f : Fld) : Bool := !tr f.par

/-- `get_record` (datasets.py:809-817); the names of the fields are distinct since they are those of a `Signature` (datasets.py:362-366). -/
def record (tr : Par → Bool) (fs : List Fld) (attrs : PyDict Str V) : Py (PyDict Str V) := (fs.filter (kept tr)).mapM (item attrs)

mutual

/-- `_iter_base_params` (datasets.py:846-852) for one field. -/
def baseOf (tr : Par → Bool) : Fld → List Fld
  | .struct _ _ fs _ => baseParams tr fs
  | f => if kept tr f then [f] else []

/-- `_iter_base_params` (datasets.py:846-852). -/
def baseParams (tr : Par → Bool) : List Fld → List Fld
  | [] => []
  | f :: fs => baseOf tr f ++ baseParams tr fs

end

/-- `isinstance(v, Keyed) or isinstance(v, Listable)` (datasets.py:912). -/
def isColl : Fld → Bool
  | .listable _ _ => true
  | .keyed _ => true
  | _ => false

/-- The value in a flat record (datasets.py:912-915). -/
def flatVal (str : Fld → V → Py Str) (coll : Bool) (attrs : PyDict Str V) (f : Fld) : Py V :=
  match PyDict.get? attrs f.par.name with
  | Option.none => .error .attributeError
  | some v => if coll && isColl f then V.str <$> str f v else .ok v

/-- The loop of `get_flat_record` (datasets.py:911-916). -/
def flatLoop (str : Fld → V → Py Str) (coll : Bool) (attrs : PyDict Str V) : List Fld → PyDict Str V → Py (PyDict Str V)
  | [], d => .ok d
  | f :: fs, d => do
    let v ← flatVal str coll attrs f
    flatLoop str coll attrs fs (PyDict.set d f.par.name v)

/-- `get_flat_record` (datasets.py:909-917). -/
def flatRecord (tr : Par → Bool) (str : Fld → V → Py Str) (coll : Bool) (fs : List Fld) (attrs : PyDict Str V) : Py (PyDict Str V) :=
  flatLoop str coll attrs (baseParams tr fs) []

/-- The end of `matches_param` (datasets.py:869-872); a value without a method `matches` raises AttributeError. -/
def matchesInside (nested : PyDict Str V → Py Bool) (f : Fld) (v : V) : Py Bool :=
  match f, v with
  | .struct _ _ _ _, .obj _ a => nested a
  | .struct _ _ _ _, _ => .error .attributeError
  | _, _ => .ok true

/-- `matches_param` (datasets.py:854-872). -/
def matchesParam (str : Fld → V → Py Str) (nested : PyDict Str V → Py Bool) (attrs : PyDict Str V) (drop assert : PyDict Str (List Str)) (f : Fld) :
    Py Bool :=
  match PyDict.get? attrs f.par.name with
  | Option.none => .error .attributeError
  | some v => do
    let s ← str f v
    if ∃ l, PyDict.get? drop f.par.name = some l ∧ s ∈ l then .ok false
    else if ∃ l, PyDict.get? assert f.par.name = some l ∧ s ∉ l then .ok false
    else matchesInside nested f v

end Verif.Construct
