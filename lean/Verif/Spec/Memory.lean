import Verif.Model.FMN
import Mathlib.Data.Nat.Digits.Defs

/-! Which models are held at a time, and how many. -/

namespace Verif

namespace Memory

/-- The number of ones in binary notation. -/
def ones (n : ℕ) : ℕ := (Nat.digits 2 n).sum

/-- After `n` symbols, `st` is the beginning of the block of `2 ^ j` symbols that the last one belongs to, for some block that is not shorter than the
minimum `2 ^ m`. -/
def IsStart (m n st : ℕ) : Prop := ∃ j, m ≤ j ∧ st = 2 ^ j * ((n - 1) / 2 ^ j)

/-- The number of base models in the tree and in the store of an `FMN`. -/
noncomputable def held {S σ : Type} (St : Store S σ) (s : FMN S σ) : ℕ :=
  (s.ptw.tree.bases.map fun a => a.models.length).sum + (St.items s.store).length

end Memory

end Verif
