import Mathlib.Data.Real.Basic
import Mathlib.Algebra.Group.Even
import Mathlib.Algebra.BigOperators.Group.List.Basic

/-! The behaviour of the environments of pomdp.py in closed form. -/

namespace Verif

namespace Pomdp

/-- The direction after the given actions, where `false` is a rotation: it changes with every rotation. -/
def direction (d : Bool) (acts : List Bool) : Bool := if Even (acts.count false) then d else !d

/-- The distance after the given actions: steps forward in the direction at that time. -/
def distance (d : Bool) (x : ℤ) (acts : List Bool) : ℤ :=
  x + ((List.range acts.length).map fun j =>
    if acts[j]? = some true then (if direction d (acts.take (j + 1)) then 1 else -1) else 0).sum

/-- The number of turns up to and including `t` at which a `Switcher` chooses anew: those whose number, the first of the two
drawn in that turn, is below `q`. -/
noncomputable def switches (q : ℝ) (u : ℕ → ℝ) (t : ℕ) : ℕ := (List.range (t + 1)).countP fun j => u (2 * j) < q

end Pomdp

end Verif
