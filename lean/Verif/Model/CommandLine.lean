import Verif.Model.Strings

/-!
# Structures on the command line (datasets.py:94-113, 137-147, 156-165, 172-236, 250-265, 561-577, 823-838, 923-925)

Simplifications.
* Classes have parameters without choices, `nargs` and nested structures: `Parsable`, `String`, `Integer` and `Boolean`.
* Values are `None`, strings, Booleans, integers and the marker class `empty`.
* Of `argparse` the following is modelled: a token that does not begin with a hyphen is a value; a token that is an option is this option; what becomes of
  other tokens that begin with a hyphen (abbreviations, `--name=value`, negative numbers, `--`) is given by an arbitrary function.  Values that do not belong
  to an option and options that are not known are passed over.  The construction of the parser succeeds.
* `int(s)` as in `Verif/Model/Strings.lean`.
-/

namespace Verif.CommandLine

open Str

/-- A value of a parameter; `marker` is the class `empty` (datasets.py:28-29). -/
inductive PV | none | str (s : Str) | bool (b : Bool) | int (n : ℤ) | marker
  deriving DecidableEq

inductive Kind | plain | string | integer | boolean
  deriving DecidableEq

/-- A parameter of a class. -/
structure Par where
  name : Str
  kind : Kind
  required : Bool
  default : Option PV

/-- `str(value)`. -/
def strOf : PV → Str
  | .none => "None".toList
  | .str s => s
  | .bool b => if b then "True".toList else "False".toList
  | .int n => ofInt n
  | .marker => "<class 'datasets.empty'>".toList

/-- `bool(value)`. -/
def truthy : PV → Bool
  | .none => false
  | .str s => s ≠ []
  | .bool b => b
  | .int n => n ≠ 0
  | .marker => true

/-- The option of a parameter. -/
def Par.opt (p : Par) : Str := '-' :: '-' :: p.name

/-- The option that sets a Boolean to false (datasets.py:255). -/
def Par.off (p : Par) : Str := '-' :: '-' :: p.name ++ "_off".toList

/-- The value on the command line (datasets.py:145-147): strings are not cleaned. -/
def argText : PV → Str
  | .str s => s
  | v => (strOf v).filter keepH

/-- `Parsable.get_arg_string` (datasets.py:137-147) and `Boolean.get_arg_string` (datasets.py:260-265). -/
def parArg (p : Par) (v : Option PV) : Py Str :=
  match p.kind, v with
  | .boolean, none => .error .attributeError
  | .boolean, some w => .ok (if truthy w then p.opt else p.off)
  | _, none => .ok []
  | _, some .marker => .ok []
  | _, some w => .ok (p.opt ++ ' ' :: argText w)

/-- The list of `get_arg_string` of all fields. -/
def parArgs : List (Par × Option PV) → Py (List Str)
  | [] => .ok []
  | pv :: l => do
    let s ← parArg pv.1 pv.2
    let r ← parArgs l
    .ok (s :: r)

/-- `Structure.get_arg_string` (datasets.py:923-925). -/
def argString (l : List (Par × Option PV)) : Py Str := do
  let r ← parArgs l
  .ok (join ' ' r)

/-- How parsing stops: `argparse` exits, or an exception is raised. -/
inductive Stop | exit | raised (e : PyErr)
  deriving DecidableEq

/-- What a token is for `argparse`. -/
inductive Cls | value | known (opt : Str) (arg : Option Str) | unknown
  deriving DecidableEq

/-- The options of a parameter (datasets.py:94-113, 250-258): with the constant that is stored, or none if a value follows. -/
def Par.options (p : Par) : List (Str × Par × Option Bool) :=
  match p.kind with
  | .boolean => [(p.off, p, some false), (p.opt, p, some true)]
  | _ => [(p.opt, p, none)]

def options (ps : List Par) : List (Str × Par × Option Bool) := ps.flatMap Par.options

variable (other : Str → Cls)

/-- The class of a token. -/
def classify (opts : List Str) (t : Str) : Cls :=
  if t.head? ≠ some '-' then .value else if t ∈ opts then .known t none else other t

/-- The value of an option that takes one (`type` of datasets.py:112). -/
def convertArg (p : Par) (a : Str) : Except Stop PV :=
  match p.kind with
  | .integer =>
    match pyInt a with
    | .ok n => .ok (.int n)
    | .error _ => .error .exit
  | _ => .ok (.str a)

/-- The group of the two options of a Boolean is mutually exclusive (datasets.py:254). -/
def conflict (p : Par) (o : Str) (seen : List Str) : Bool := seen.any fun s => s ≠ o && (s = p.opt || s = p.off)

/-- `parser.parse_known_args` (datasets.py:568): the values found so far, and the flags seen so far. -/
def parseArgs (ps : List Par) : List Str → PyDict Str PV → List Str → Except Stop (PyDict Str PV)
  | [], d, _ => .ok d
  | t :: ts, d, seen =>
    match classify other ((options ps).map Prod.fst) t with
    | .value => parseArgs ps ts d seen
    | .unknown => parseArgs ps ts d seen
    | .known o arg =>
      match (options ps).find? fun x => x.1 = o with
      | none => .error .exit
      | some (_, p, some b) =>
        if arg.isSome || conflict p o seen then .error .exit else parseArgs ps ts (d.set p.name (.bool b)) (o :: seen)
      | some (_, p, none) =>
        match arg with
        | some a =>
          match convertArg p a with
          | .error e => .error e
          | .ok v => parseArgs ps ts (d.set p.name v) seen
        | none =>
          match ts with
          | [] => .error .exit
          | u :: us =>
            if classify other ((options ps).map Prod.fst) u = .value then
              match convertArg p u with
              | .error e => .error e
              | .ok v => parseArgs ps us (d.set p.name v) seen
            else .error .exit
termination_by l => l.length

/-- What the namespace holds for an option that was not given. -/
def defaultOf (p : Par) : Except Stop PV :=
  match p.kind, p.default with
  | .boolean, none => .ok .marker
  | .boolean, some v => .ok v
  | _, none => .ok .none
  | _, some (.str s) => convertArg p s
  | _, some v => .ok v

/-- The entry of the namespace for one parameter. -/
def entry (d : PyDict Str PV) (p : Par) : Except Stop PV :=
  match d.get? p.name with
  | some v => .ok v
  | none => if p.required = true ∧ p.kind ≠ .boolean then .error .exit else defaultOf p

/-- `convert_val` (datasets.py:156-165). -/
def convertVal (p : Par) (v : PV) : Except Stop PV :=
  match p.kind with
  | .plain => .ok v
  | .string => .ok (.str (strOf v))
  | .boolean => .ok (.bool (truthy v))
  | .integer =>
    match v with
    | .int n => .ok (.int n)
    | .bool b => .ok (.bool b)
    | .str s =>
      match pyInt s with
      | .ok n => .ok (.int n)
      | .error _ => .error (.raised .typeError)
    | _ => .error (.raised .typeError)

/-- The entries of all parameters: `argparse` is done with all of them before the structure is constructed. -/
def entries (d : PyDict Str PV) : List Par → Except Stop (List PV)
  | [] => .ok []
  | p :: ps => do
    let v ← entry d p
    let r ← entries d ps
    .ok (v :: r)

/-- `cls(**vars(ns))` (datasets.py:575-577). -/
def fromEntries : List (Par × PV) → Except Stop (List PV)
  | [] => .ok []
  | pv :: l => do
    let v ← convertVal pv.1 pv.2
    let r ← fromEntries l
    .ok (v :: r)

/-- `from_args` (datasets.py:561-569): the attributes of the object. -/
def fromArgs (ps : List Par) (ts : List Str) : Except Stop (List PV) := do
  let d ← parseArgs other ps ts [] []
  let vs ← entries d ps
  fromEntries (ps.zip vs)

/-- `from_string` (datasets.py:571-573). -/
def fromString (ps : List Par) (s : Str) : Except Stop (List PV) := fromArgs other ps (split ' ' s)

end Verif.CommandLine
