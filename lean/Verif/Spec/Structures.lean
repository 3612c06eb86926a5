import Verif.Model.Structures

/-!
# What a directory name should record
-/

namespace Verif

open Str

namespace Structures

/-- A path with `k` leading slashes and the given components. -/
def pathStr (k : ℕ) (cs : List Str) : Str := List.replicate k '/' ++ join '/' cs

/-- A component of a path in normal form. -/
def GoodComp (c : Str) : Prop := c ≠ [] ∧ '/' ∉ c ∧ c ≠ ['.'] ∧ c ≠ ['.', '.']

instance (c : Str) : Decidable (GoodComp c) := by unfold GoodComp; infer_instance

/-- A path in normal form. -/
def IsPath (b : Str) : Prop := ∃ k cs, k ≤ 2 ∧ (∀ c ∈ cs, GoodComp c) ∧ b = pathStr k cs

mutual

/-- The parameters of an instance, those of nested structures included, without the transient ones and those not set. -/
def fldItems : Fld → Val → List (Str × Str)
  | .par p, .str s => if p.transient then [] else [(p.name, s)]
  | .struct p g, .obj ws => if p.transient then [] else items g ws
  | _, _ => []

def items : List Fld → List Val → List (Str × Str)
  | f :: fs, v :: vs => fldItems f v ++ items fs vs
  | _, _ => []

end

/-- A parameter that is neither positional nor transient. -/
def Par.Loose (p : Par) : Prop := p.positional = false ∧ p.transient = false

instance (p : Par) : Decidable (Par.Loose p) := by unfold Par.Loose; infer_instance

/-- Names and values that a directory name can hold: non-empty, of letters, digits, `_`, `.` and `-`, names without `-`, values other
than `.` and `..`. -/
def Clean (p : Par) (s : Str) : Prop :=
  p.name ≠ [] ∧ '-' ∉ p.name ∧ (∀ c ∈ p.name, keepH c = true) ∧
  s ≠ [] ∧ (∀ c ∈ s, keepH c = true) ∧ s ≠ ['.'] ∧ s ≠ ['.', '.']

instance (p : Par) (s : Str) : Decidable (Clean p s) := by unfold Clean; infer_instance

/-- Python reads the string neither as a literal nor as a number. -/
def Plain {L : Type} (lit : Str → Option L) (s : Str) : Prop := lit s = none ∧ isNumeric s = false

instance {L : Type} (lit : Str → Option L) (s : Str) : Decidable (Plain lit s) :=
  if h : (lit s).isNone = true ∧ isNumeric s = false then isTrue ⟨Option.isNone_iff_eq_none.1 h.1, h.2⟩
  else isFalse fun e => h ⟨Option.isNone_iff_eq_none.2 e.1, e.2⟩

/-- A parameter and a value that can be recovered. -/
def ParGood {L : Type} (lit : Str → Option L) (p : Par) (s : Str) : Prop :=
  Clean p s ∧
  (p.positional = false → '_' ∉ s) ∧
  (p.positional = true → p.keyword = true →
    '_' ∉ p.name ∧ '_' ∉ s ∧ '-' ∉ s ∧ Plain lit p.name ∧ Plain lit s ∧ lit (p.name ++ '-' :: s) = none)

/-- The fields of a structure have at most one loose parameter without keyword, and if there is a parameter with keyword then a loose
parameter is set; the structure has a parameter that is recorded; the names of the parameters are distinct. -/
def ClassGood (fs : List Fld) (vs : List Val) : Prop :=
  npnkOf fs ≠ .error .typeError ∧
  (hasKeyword fs = true → ∃ fv ∈ fs.zip vs, ∃ p s, fv = (.par p, .str s) ∧ Par.Loose p) ∧
  items fs vs ≠ [] ∧
  ((items fs vs).map Prod.fst).Nodup

/-- What a positional parameter is written as. -/
def component (p : Par) (s : Str) : Str := if p.keyword then p.name ++ '-' :: s else s

/-- The last component written after a field, if it is known: that of a positional parameter. -/
def lastWritten (prev : Option Str) : Fld → Val → Option Str
  | .par p, .str s => if p.transient = false ∧ p.positional = true then some (component p s) else prev
  | .par _, _ => prev
  | .struct p _, _ => if p.transient then prev else none

/-- A component that cannot be taken for the positional parameter `p` with keyword. -/
def Other {L : Type} (lit : Str → Option L) (p : Par) (c : Str) : Prop :=
  Plain lit c ∧ '_' ∉ c ∧ ¬ (p.name ++ ['-'] <+: c) ∧ ∀ x, p.name = [x] → c.head? ≠ some x

mutual

/-- An instance whose directory name can be read back: structures are positional without keyword and set; only parameters with
keyword may be unset, and a positional one only if the component before it cannot be taken for it.  `prev` is that component. -/
def FldGood {L : Type} (lit : Str → Option L) (prev : Option Str) : Fld → Val → Prop
  | .par p, v => p.transient = true ∨ match v with
    | .str s => ParGood lit p s
    | .unset => p.required = false ∧ p.keyword = true ∧ (p.positional = true → ∃ c, prev = some c ∧ Other lit p c)
    | .obj _ => False
  | .struct p g, v => p.transient = true ∨ (p.keyword = false ∧ p.positional = true ∧ match v with
    | .obj ws => FldsGood lit prev g ws ∧ ClassGood g ws
    | _ => False)

def FldsGood {L : Type} (lit : Str → Option L) (prev : Option Str) : List Fld → List Val → Prop
  | f :: fs, v :: vs => FldGood lit prev f v ∧ FldsGood lit (lastWritten prev f v) fs vs
  | [], [] => True
  | _, _ => False

end

end Structures

end Verif
