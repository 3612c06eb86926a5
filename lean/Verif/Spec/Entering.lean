import Verif.Model.Entering
import Verif.Spec.Structures

/-!
# What the parts of an experiment should find (specification of C111)
-/

namespace Verif.Entering

open Str Structures

variable {V : Type}

/-- The components that a part adds to a path: its name, if it is a keyword, and its directory. -/
def place (dir : Child V → List Str) (p : Child V) : List Str := (if p.keyword then [p.name] else []) ++ dir p

/-- The attribute `n` of an experiment with attributes `self` after it has entered some parts (with their attributes): what the last part shares
under this name, where `output_dim` is shared as `input_dim`. -/
def seen (self : Attrs V) (l : List (Child V × Attrs V)) (n : Str) : Option (AVal V) :=
  match l.reverse.find? fun q => n ∈ q.1.broadcast ∨ (n = "input_dim".toList ∧ (q.2 "output_dim".toList).isSome) with
  | some q => if n ∈ q.1.broadcast then q.2 n else q.2 "output_dim".toList
  | none => if n = "input_dim".toList then some .none else self n

/-- An outcome that leaving an experiment does not stop at. -/
def Harmless (r : Py Unit) : Prop := r = .ok () ∨ r = .error .attributeError

/-- The field of an experiment that a part belongs to, with its value. -/
def IsField (p : Child V) (f : Fld × Verif.Val) : Prop :=
  ∃ q g ws, f = (.struct q g, .obj ws) ∧ q.transient = false ∧ q.name = p.name ∧ q.keyword = p.keyword ∧ p.logDir = dirString g ws

end Verif.Entering
