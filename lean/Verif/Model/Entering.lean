import Verif.Model.Structures

/-!
# Entering and leaving an experiment (datasets.py:410-442, 942-990)

Simplifications.
* The attributes of an object are a function from names to values.  `hasattr` and `getattr` have no other effects.
* A part is the value of a `Struct` field that is set.  Its directory string is given and may raise an exception.  Its `__enter__` is an arbitrary
  function of its attributes: the attributes after it, and whether it raises.  A part without `__enter__` raises `AttributeError`.
* Fields that are not `Struct`s, and those that are not set, are skipped by `__enter__` and are left out there.
* The values of the parts themselves are not changed by the assignments to the attributes of the experiment.
* What the `__exit__` of the fields does is given by its outcome, in the order of the fields; `AttributeError` if there is none.
-/

namespace Verif.Entering

open Str

/-- A value of an attribute. -/
inductive AVal (V : Type) | none | str (s : Str) | other (v : V)
  deriving DecidableEq

/-- The attributes of an object. -/
abbrev Attrs (V : Type) := Str → Option (AVal V)

/-- `base_dir`, `input_dim` and `output_dim`. -/
def baseDir : Str := "base_dir".toList
def inputDim : Str := "input_dim".toList
def outputDim : Str := "output_dim".toList

/-- A `Struct` field with its value: the name, `keyword` and `broadcast` of the field (datasets.py:1041-1062); `_inherited`, the attributes, `log_dir`
and `__enter__` of the value. -/
structure Child (V : Type) where
  name : Str
  keyword : Bool
  broadcast : List Str
  inherited : List Str
  attrs : Attrs V
  logDir : Py Str
  enter : Attrs V → Attrs V × Py Unit

variable {V : Type}

/-- `set_inherited(base_dir=base, instance=self)` (datasets.py:416-431). -/
def setInherited (self : Attrs V) (base : Str) : List Str → Attrs V → Attrs V × Py Unit
  | [], a => (a, .ok ())
  | n :: ns, a =>
    if n = baseDir then setInherited self base ns (Function.update a n (some (.str base)))
    else
      match self n with
      | none => (a, .error .attributeError)
      | some v => setInherited self base ns (Function.update a n (some v))

/-- `log_path` (datasets.py:440-442). -/
def logPath (a : Attrs V) (logDir : Py Str) : Py Str :=
  match a baseDir with
  | none => .error .attributeError
  | some b =>
    match logDir with
    | .error e => .error e
    | .ok d =>
      match b with
      | .str b => .ok (pathJoin2 b d)
      | _ => .error .typeError

/-- `get_inherited` with `complain=True` (datasets.py:972-984). -/
def getInherited (a : Attrs V) : List Str → Attrs V → Attrs V × Py Unit
  | [], self => (self, .ok ())
  | n :: ns, self =>
    match a n with
    | none => (self, .error .attributeError)
    | some v => getInherited a ns (Function.update self n (some v))

/-- `with suppress(AttributeError): self.input_dim = child.output_dim` (datasets.py:955-956). -/
def takeDim (a self : Attrs V) : Attrs V :=
  match a outputDim with
  | none => self
  | some v => Function.update self inputDim (some v)

/-- `with suppress(AttributeError): ...`. -/
def suppressed : Py Unit → Py Unit
  | .error .attributeError => .ok ()
  | r => r

/-- One turn of the loop of `__enter__` (datasets.py:949-957): the attributes of the experiment and of the part, and the next `base_path`. -/
def enterPart (self : Attrs V) (base : Str) (p : Child V) : Attrs V × Attrs V × Py Str :=
  let base := if p.keyword then normpath (pathJoin2 base p.name) else base
  match setInherited self base p.inherited p.attrs with
  | (a, .error e) => (self, a, .error e)
  | (a, .ok _) =>
    match p.enter a with
    | (a, r) =>
      match suppressed r with
      | .error e => (self, a, .error e)
      | .ok _ =>
        match logPath a p.logDir with
        | .error e => (self, a, .error e)
        | .ok base =>
          match getInherited a p.broadcast (takeDim a self) with
          | (self, .error e) => (self, a, .error e)
          | (self, .ok _) => (self, a, .ok base)

/-- The loop of `__enter__` (datasets.py:947-957). -/
def enterLoop : Attrs V → Str → List (Child V) → Attrs V × List (Attrs V) × Py Str
  | self, base, [] => (self, [], .ok base)
  | self, base, p :: ps =>
    match enterPart self base p with
    | (self, a, .error e) => (self, a :: ps.map Child.attrs, .error e)
    | (self, a, .ok base) =>
      match enterLoop self base ps with
      | (self, as, r) => (self, a :: as, r)

/-- `Experiment.__enter__` (datasets.py:942-963); `nonpos` is what `get_nonpos_string` gives.  The attributes of the experiment and of the parts
afterwards, and the last `base_path`. -/
def enter (self : Attrs V) (nonpos : Py Str) (ps : List (Child V)) : Attrs V × List (Attrs V) × Py Str :=
  match logPath self nonpos with
  | .error e => (self, ps.map Child.attrs, .error e)
  | .ok b => enterLoop (Function.update self inputDim (some .none)) (normpath b) ps

/-- The loop of `__exit__` (datasets.py:966-968): how many fields it reaches. -/
def exitLoop : List (Py Unit) → ℕ × Py Unit
  | [] => (0, .ok ())
  | r :: rs =>
    match suppressed r with
    | .error e => (1, .error e)
    | .ok _ =>
      match exitLoop rs with
      | (n, r) => (n + 1, r)

/-- `Experiment.__exit__` (datasets.py:965-970): how many fields are left, whether the model is saved, and the outcome; `save` is that of
`save_model`. -/
def exit (exits : List (Py Unit)) (logModel : Bool) (save : Py Unit) : ℕ × Bool × Py Unit :=
  match exitLoop exits with
  | (n, .error e) => (n, false, .error e)
  | (n, .ok _) => if logModel then (n, true, save) else (n, false, .ok ())

/-- `run` (datasets.py:988-990): the attributes of the experiment and the parts after entering, how many fields are left, whether the model is saved, and the outcome. -/
def run {R : Type} (self : Attrs V) (nonpos : Py Str) (ps : List (Child V)) (body : Attrs V → List (Attrs V) → Py R)
    (exits : List (Py Unit)) (logModel : Bool) (save : Py Unit) : ℕ × Bool × Py R :=
  match enter self nonpos ps with
  | (_, _, .error e) => (0, false, .error e)
  | (self, as, .ok _) =>
    let r := body self as
    match exit exits logModel save with
    | (n, s, .error e) => (n, s, .error e)
    | (n, s, .ok _) => (n, s, r)

end Verif.Entering
