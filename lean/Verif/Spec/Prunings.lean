import Verif.Spec.CTW
import Verif.Spec.PTW
import Mathlib.Data.Fintype.Pi
import Mathlib.Data.Fintype.Option
import Mathlib.Data.Fintype.Prod

/-!
# All prunings of a context tree and all partitions in time

There are finitely many, so that one can sum over them.
-/

namespace Verif

namespace Pruning

variable {κ : Type}

/-- Without levels there is only the leaf. -/
def zeroEquiv : Pruning κ 0 ≃ Unit where
  toFun _ := ()
  invFun _ := leaf
  left_inv T := by cases T; rfl
  right_inv _ := rfl

/-- A pruning is the leaf, or a choice of one pruning for each symbol. -/
def succEquiv (d : ℕ) : Pruning κ (d + 1) ≃ Option (κ → Pruning κ d) where
  toFun
    | leaf => none
    | split f => some f
  invFun
    | none => leaf
    | some f => split f
  left_inv T := by cases T <;> rfl
  right_inv T := by cases T <;> rfl

/-- There are finitely many prunings. -/
noncomputable instance fintype [Fintype κ] [DecidableEq κ] : (d : ℕ) → Fintype (Pruning κ d)
  | 0 => Fintype.ofEquiv _ zeroEquiv.symm
  | d + 1 => by
    haveI := fintype d
    exact Fintype.ofEquiv _ (succEquiv d).symm

end Pruning

namespace TPart

/-- Without levels the block is whole. -/
def zeroEquiv : TPart 0 ≃ Unit where
  toFun _ := ()
  invFun _ := whole
  left_inv T := by cases T; rfl
  right_inv _ := rfl

/-- A block is whole, or there is a partition of each half. -/
def succEquiv (k : ℕ) : TPart (k + 1) ≃ Option (TPart k × TPart k) where
  toFun
    | whole => none
    | split l r => some (l, r)
  invFun
    | none => whole
    | some p => split p.1 p.2
  left_inv T := by cases T <;> rfl
  right_inv T := by cases T <;> rfl

/-- There are finitely many partitions. -/
noncomputable instance fintype : (k : ℕ) → Fintype (TPart k)
  | 0 => Fintype.ofEquiv _ zeroEquiv.symm
  | k + 1 => by
    haveI := fintype k
    exact Fintype.ofEquiv _ (succEquiv k).symm

end TPart

end Verif
