import Mathlib.Analysis.SpecialFunctions.Log.Basic

/-!
# Python primitives used by the translated code

Exceptions are values of `Except PyErr`; floating point numbers are exact reals.
-/

namespace Verif

/-- The Python exceptions that the translated code can raise. -/
inductive PyErr
  | keyError | indexError | valueError | zeroDivisionError | typeError
  | notImplementedError | nameError | attributeError | overflowError | stopIteration
  | assertionError | osError
  deriving DecidableEq, Repr

/-- The result of a Python call: a value or a raised exception. -/
abbrev Py := Except PyErr

/-- `math.log(x)`: raises `ValueError` unless `x > 0`.  Exact real logarithm. -/
noncomputable def pyLog (x : ℝ) : Py ℝ :=
  if 0 < x then .ok (Real.log x) else .error .valueError

/-- `a / b` on floats: raises `ZeroDivisionError` if `b == 0`. -/
noncomputable def pyDiv (a b : ℝ) : Py ℝ :=
  if b = 0 then .error .zeroDivisionError else .ok (a / b)

/-- `l[i]` for a non-negative `i`: raises `IndexError` past the end. -/
def pyGet {α : Type} (l : List α) (i : ℕ) : Py α :=
  match l[i]? with
  | some a => .ok a
  | none => .error .indexError

/-- `l[-n:]` as Python evaluates it: `-0` is `0`, so `l[-0:]` is all of `l`. -/
def pyTail {α : Type} (l : List α) (n : ℕ) : List α :=
  if n = 0 then l else l.drop (l.length - n)

/-- The list left after `del l[-n:]` (equivalently `l[-n:] = []`); `n = 0` deletes everything. -/
def pyDelTail {α : Type} (l : List α) (n : ℕ) : List α :=
  if n = 0 then [] else l.take (l.length - n)

theorem bind_eq_ok {ε α β : Type} {x : Except ε α} {f : α → Except ε β} {b : β} :
    (x >>= f) = .ok b ↔ ∃ a, x = .ok a ∧ f a = .ok b := by
  cases x with
  | error e => simp [bind, Except.bind]
  | ok a => simp [bind, Except.bind]

@[simp] theorem ok_bind {ε α β : Type} (a : α) (f : α → Except ε β) :
    ((Except.ok a : Except ε α) >>= f) = f a := rfl

@[simp] theorem error_bind {ε α β : Type} (e : ε) (f : α → Except ε β) :
    ((Except.error e : Except ε α) >>= f) = .error e := rfl

@[simp] theorem pure_eq_ok {ε α : Type} (a : α) :
    (pure a : Except ε α) = .ok a := rfl

@[simp] theorem map_ok {ε α β : Type} (f : α → β) (a : α) :
    (f <$> (Except.ok a : Except ε α)) = .ok (f a) := rfl

theorem pyLog_of_pos {x : ℝ} (h : 0 < x) : pyLog x = .ok (Real.log x) := by
  simp [pyLog, h]

theorem pyLog_of_nonpos {x : ℝ} (h : x ≤ 0) : pyLog x = .error .valueError := by
  simp [pyLog, not_lt.mpr h]

theorem pyLog_eq_ok {x r : ℝ} : pyLog x = .ok r ↔ 0 < x ∧ r = Real.log x := by
  unfold pyLog
  split_ifs with h
  · simp [h, eq_comm]
  · simp [h]

theorem pyDiv_of_ne {a b : ℝ} (h : b ≠ 0) : pyDiv a b = .ok (a / b) := by
  simp [pyDiv, h]

theorem pyDiv_eq_ok {a b r : ℝ} : pyDiv a b = .ok r ↔ b ≠ 0 ∧ r = a / b := by
  unfold pyDiv
  split_ifs with h
  · simp [h]
  · simp [h, eq_comm]

end Verif
