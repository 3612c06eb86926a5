import Verif.Model.Strings

/-!
# Sets of parameters (helpers.py:114-131, 576-629, utilities.py:26-68, 406-435, 600-731, 809-985, 1399-1584)

Simplifications.
* Dictionaries are association lists; a `set` of keys is a list in which only membership is used.
* Keys have a linear order, that of `sort`.  Values are of a type `V` with equality; `str(v)` and `join_items(v)` are functions.
* Numbers are exact reals in `approx`; `np.spacing(1)` is a parameter.
* `float(s)` is a parameter of `split_params`.
* The attributes of an object are a dictionary.
-/

namespace Verif

namespace Params

/-! ### Combinations -/

/-- `itertools.product(*ls)`: the last list varies fastest. -/
def product {V : Type} : List (List V) → List (List V)
  | [] => [[]]
  | l :: ls => l.flatMap fun x => (product ls).map (x :: ·)

/-- `unique_dict_sets` (helpers.py:114-120). -/
def uniqueDictSets {K V : Type} (d : PyDict K (List V)) : List (PyDict K V) :=
  (product d.values).map fun x => d.keys.zip x

/-- What iterating over `get_all_combinations` gives (utilities.py:1399-1420): for no parameters it returns an empty
dictionary. -/
def getAllCombinations {K V : Type} (d : PyDict K (List V)) : List (PyDict K V) :=
  if d = [] then [] else uniqueDictSets d

/-! ### Keys and values that parameter sets share -/

section Keys
variable {K V : Type} [LinearOrder K] [DecidableEq V]

/-- `list.sort()` on keys. -/
def sortKeys (l : List K) : List K := l.mergeSort (· ≤ ·)

/-- `get_shared_keys` (utilities.py:1422-1439). -/
def getSharedKeys : List (PyDict K V) → Option (List K)
  | [] => none
  | p :: ps => some (sortKeys (ps.foldl (fun keys q => keys.filter (· ∈ q.keys)) p.keys))

/-- The counting loop of `get_unique_keys` (utilities.py:1455-1457). -/
def countKeys (ps : List (PyDict K V)) : PyDict K ℕ :=
  ps.foldl (fun counts p => p.keys.foldl (fun counts k => counts.set k (1 + (counts.get? k).getD 0)) counts) []

/-- `get_unique_keys` (utilities.py:1441-1464). -/
def getUniqueKeys (ps : List (PyDict K V)) : Option (List K) :=
  if ps = [] then none
  else some (sortKeys (((countKeys ps).filter fun kc => kc.2 < ps.length).map Prod.fst))

/-- The loops of `get_shared_values` that remove keys (utilities.py:1486-1489). -/
def popUnequal (shared : PyDict K V) (p : PyDict K V) : PyDict K V :=
  p.foldl (fun sh kv =>
    match sh.get? kv.1 with
    | some v => if v ≠ kv.2 then sh.erase kv.1 else sh
    | none => sh) shared

/-- `get_shared_values` (utilities.py:1466-1490). -/
def getSharedValues : List (PyDict K V) → Option (PyDict K V)
  | [] => none
  | p :: ps => some ((p :: ps).foldl popUnequal (p.filter fun kv => ps.all fun q => kv.1 ∈ q.keys))

/-! ### Grouping -/

/-- `group[k].append(p)`, or a new list. -/
def appendTo {L P : Type} [DecidableEq L] (g : PyDict L (List P)) (k : L) (p : P) : PyDict L (List P) :=
  match g.get? k with
  | some l => g.set k (l ++ [p])
  | none => g.set k [p]

/-- `group_by_key` (utilities.py:1547-1583). -/
def groupByKey (str : V → Str) (ps : List (PyDict K V)) (key : K) : PyDict Str (List (PyDict K V)) :=
  ps.foldl (fun g p =>
    match p.get? key with
    | some v => appendTo g (str v) p
    | none => appendTo g "None".toList p) [("None".toList, [])]

end Keys

/-- `join_params(**params)` (utilities.py:418-435): `items` is `join_items`. -/
def joinParams {V : Type} (items : V → Str) (d : PyDict Str V) : Str :=
  join' (((d.map Prod.fst).mergeSort (fun a b => decide (a ≤ b))).filterMap fun k =>
    (d.get? k).map fun v => k ++ '-' :: items v)
where
  join' := Str.join '_'

/-- `group_by_keys` (utilities.py:1493-1545); `None` is the value of missing keys. -/
def groupByKeys {V : Type} (items : Option V → Str) (ps : List (PyDict Str V)) (keys : List Str) :
    PyDict Str (List (PyDict Str V)) :=
  ps.foldl (fun g p =>
    let key := if keys.length > 0 then
        joinParams items (keys.foldl (fun (d : PyDict Str (Option V)) k => d.set k (p.get? k)) []) else []
    appendTo g key p) []

/-! ### Setting attributes -/

/-- The errors of `set_attributes`. -/
inductive AttrErr (K : Type) | missing (k : K) | isNone (k : K)

section Attributes
variable {K V : Type} [DecidableEq K]

/-- The first loop (utilities.py:894-900): attributes of the object complete the parameters. -/
def completeParams (obj : PyDict K (Option V)) : List K → PyDict K (Option V) → Except (AttrErr K) (PyDict K (Option V))
  | [], params => .ok params
  | k :: ks, params =>
    match params.get? k with
    | some _ => completeParams obj ks params
    | none =>
      match obj.get? k with
      | none => .error (.missing k)
      | some v => completeParams obj ks (params.set k v)

/-- The second loop (utilities.py:903-917): the object as the loop leaves it, and the error, if any. -/
def setLoop (includeAll validate : Bool) (valid : List K) : PyDict K (Option V) → PyDict K (Option V) →
    PyDict K (Option V) × Option (AttrErr K)
  | [], obj => (obj, none)
  | (k, v) :: rest, obj =>
    if !includeAll && (valid.isEmpty || decide (k ∉ valid)) then setLoop includeAll validate valid rest obj
    else if (validate && (valid.isEmpty || decide (k ∈ valid))) && v.isNone then (obj, some (.isNone k))
    else setLoop includeAll validate valid rest (obj.set k v)

/-- `set_attributes` (utilities.py:809-918): the object afterwards and the error, if any.  `valid_params` of `None` and the empty
list are treated alike by the code. -/
def setAttributes (obj : PyDict K (Option V)) (includeAll validate : Bool) (valid : List K)
    (params : PyDict K (Option V)) : PyDict K (Option V) × Option (AttrErr K) :=
  match completeParams obj valid params with
  | .error e => (obj, some e)
  | .ok params => setLoop includeAll validate valid params obj

end Attributes

/-! ### Parameter strings of utilities.py -/

/-- The items of `split_items`. -/
inductive Item (F : Type) | int (n : ℕ) | none | float (x : F) | str (s : Str)
  deriving DecidableEq

/-- The values of `split_params`: an item, minus an item, or a list of items. -/
inductive PVal (F : Type) | one (i : Item F) | neg (i : Item F) | many (l : List (Item F))
  deriving DecidableEq

/-- One turn of the loop of `split_items` (utilities.py:329-339); `str.isnumeric` for ASCII. -/
def toItem {F : Type} (pyFloat : Str → Option F) (v : Str) : Item F :=
  if v ≠ [] ∧ v.all Char.isDigit then .int (Nat.ofDigitChars 10 v 0)
  else if v = "None".toList then .none
  else match pyFloat v with
    | some x => .float x
    | Option.none => .str v

/-- `split_items` (utilities.py:308-341). -/
def splitItems {F : Type} (pyFloat : Str → Option F) (s : Str) : List (Item F) := (Str.split '-' s).map (toItem pyFloat)

/-- The branches of the loop of `split_params` for a part with at least two items (utilities.py:641-648): `len` of a number
and the negation of a string raise TypeError. -/
def paramValue {F : Type} : List (Item F) → Py (PVal F)
  | [x] => .ok (.one x)
  | [x, y] =>
    match x with
    | .str s =>
      if s.length = 0 then
        match y with
        | .int n => .ok (.neg (.int n))
        | .float x => .ok (.neg (.float x))
        | _ => .error .typeError
      else .ok (.many [x, y])
    | _ => .error .typeError
  | l => .ok (.many l)

/-- The loop of `split_params` (utilities.py:632-648), as in `Str.splitParamsLoop`; a last part without value is dropped. -/
def splitParamsULoop {F : Type} [DecidableEq F] (pyFloat : Str → Option F) :
    List Str → PyDict (Item F) (PVal F) → Py (PyDict (Item F) (PVal F))
  | [], d => .ok d
  | [p], d =>
    match splitItems pyFloat p with
    | k :: v :: vs => do
      let x ← paramValue (v :: vs)
      pure (d.set k x)
    | _ => .ok d
  | p :: q :: rest, d =>
    match splitItems pyFloat p with
    | k :: v :: vs => do
      let x ← paramValue (v :: vs)
      splitParamsULoop pyFloat (q :: rest) (d.set k x)
    | _ => splitParamsULoop pyFloat ((p ++ '_' :: q) :: rest) d
termination_by l => l.length

/-- `split_params` of utilities.py (utilities.py:600-649). -/
def splitParamsU {F : Type} [DecidableEq F] (pyFloat : Str → Option F) (s : Str) : Py (PyDict (Item F) (PVal F)) :=
  splitParamsULoop pyFloat (Str.split '_' s) []

/-! ### Modifiers -/

/-- `split_modifiers` (utilities.py:666-703). -/
def splitModifiers (s : Str) (modSet : Option (List Str)) : Str × List Str :=
  match Str.split '_' s with
  | [] => ([], [])
  | p :: ps =>
    match modSet with
    | none => (p, ps)
    | some ms => (Str.join '_' (p :: ps.filter (· ∉ ms)), ps.filter (· ∈ ms))

/-- `remove_modifiers` without sorting (utilities.py:705-731). -/
def removeModifiers (values : List Str) (modSet : Option (List Str)) : List Str :=
  values.foldl (fun fs f =>
    let name := (splitModifiers f modSet).1
    if name ∈ fs then fs else fs ++ [name]) []

/-- `add_modifiers` (utilities.py:651-664); `m in h` is the substring test. -/
def addModifiers (headers mods : List Str) (keep : Bool) : List Str :=
  headers.flatMap fun h => (if keep then [h] else []) ++ (mods.filter fun m => !decide (m <:+: h)).map fun m => h ++ '_' :: m

/-! ### Approximate equality -/

/-- `approx` of helpers.py (helpers.py:576-595): a precision of zero counts as none. -/
noncomputable def approxH (spacing a b : ℝ) (m : ℝ) (precision : Option ℤ) : Prop :=
  match precision with
  | some p => if p ≠ 0 then |a - b| < (10 : ℝ) ^ (-p) else |a - b| ≤ m * spacing
  | none => |a - b| ≤ m * spacing

/-- `approx` of utilities.py (utilities.py:26-39). -/
noncomputable def approxU (spacing a b : ℝ) (m : ℝ) (precision : Option ℤ) : Prop :=
  match precision with
  | some p => if p ≠ 0 then |a - b| ≤ (10 : ℝ) ^ p else |a - b| ≤ m * spacing
  | none => |a - b| ≤ m * spacing

/-- The loop of `all_approx` (helpers.py:617-621, utilities.py:64-67). -/
noncomputable def allApproxLoop (near : ℝ → ℝ → Prop) [∀ a b, Decidable (near a b)] : List ℝ → List ℝ → Bool
  | a :: as, b :: bs => if near a b then allApproxLoop near as bs else false
  | _, _ => true

/-- `all_approx` (helpers.py:597-622, utilities.py:43-68). -/
noncomputable def allApprox (near : ℝ → ℝ → Prop) [∀ a b, Decidable (near a b)] (l1 l2 : List ℝ) : Bool :=
  if l1.length = l2.length then allApproxLoop near l1 l2 else false

/-- `dicts_exact_match` (helpers.py:624-629). -/
def dictsExactMatch {K V : Type} [DecidableEq K] [DecidableEq V] (d1 d2 : PyDict K V) : Bool :=
  (d1.filter (· ∉ d2)).length == 0

end Params

end Verif
