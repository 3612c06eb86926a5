import Verif.Model.Literals

/-! The texts of nested lists. -/

namespace Verif

namespace Literals

variable {ν : Type}

/-- `str()` of a number or of a nested list of numbers. -/
def Lit.text (tx : ν → Str) : Lit ν → Str
  | .num x => tx x
  | .list l => '[' :: Format.joinWith [',', ' '] (l.map (Lit.text tx)) ++ [']']

/-- The number is somewhere in the nested list. -/
inductive Lit.Has (x : ν) : Lit ν → Prop
  | num : Lit.Has x (.num x)
  | list {l : List (Lit ν)} {v : Lit ν} : v ∈ l → Lit.Has x v → Lit.Has x (.list l)

/-- The text of a number: some characters, but no spaces, commas and brackets. -/
def Plain (s : Str) : Prop := s ≠ [] ∧ ∀ c ∈ s, c ≠ ' ' ∧ c ≠ ',' ∧ c ≠ '[' ∧ c ≠ ']'

end Literals

end Verif
