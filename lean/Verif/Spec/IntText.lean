import Verif.Spec.Logs

/-!
# Texts of integers

The grammar of what `int(s)` accepts, restricted to the ASCII digits: white space, a sign, groups of digits with single underscores
between them, white space.
-/

namespace Verif.IntText

/-- The number with these decimal digits. -/
def numeral (s : Str) : ℕ := s.foldl (fun n c => 10 * n + (c.toNat - 48)) 0

/-- White space. -/
def Blank (s : Str) : Prop := ∀ c ∈ s, c.toNat ∈ Logs.whiteSpace

/-- One or more groups of digits, each of at least one digit, with an underscore between any two of them. -/
inductive Groups : Str → Str → Prop
  | one (g : Str) : g ≠ [] → (∀ c ∈ g, 48 ≤ c.toNat ∧ c.toNat ≤ 57) → Groups g g
  | more (g s t : Str) : g ≠ [] → (∀ c ∈ g, 48 ≤ c.toNat ∧ c.toNat ≤ 57) → Groups s t → Groups (g ++ '_' :: s) (g ++ t)

/-- `s` is a text of the integer `z`. -/
def IsText (s : Str) (z : ℤ) : Prop :=
  ∃ pre sign body digits post : Str, s = pre ++ sign ++ body ++ post ∧ Blank pre ∧ Blank post ∧ Groups body digits ∧
    ((sign = ['-'] ∧ z = -(numeral digits : ℤ)) ∨ ((sign = [] ∨ sign = ['+']) ∧ z = numeral digits))

end Verif.IntText
