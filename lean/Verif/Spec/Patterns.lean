import Verif.Spec.Convergence

/-!
# Patterns in sequences
-/

namespace Verif

variable {α γ : Type}

/-- The last `d` symbols of a history, filled up with zeros before its start. -/
def lastBits (d : ℕ) (h : List Bool) : List Bool := (List.replicate d false ++ h).drop h.length

/-- What `c` gives for the histories before the symbols of a sequence that follows `h`. -/
def pasts (c : List α → γ) (h : List α) : List α → List γ
  | [] => []
  | x :: xs => c h :: pasts c (h ++ [x]) xs

/-- How often the rule `g`, which tells the next symbol from the history, is wrong. -/
def errors [DecidableEq α] (g : List α → α) (h : List α) : List α → ℕ
  | [] => 0
  | x :: xs => (if g h = x then 0 else 1) + errors g (h ++ [x]) xs

/-- Each symbol is the same as the one `p` before. -/
def Periodic (p : ℕ) (xs : List α) : Prop := ∀ i, i + p < xs.length → xs[i + p]? = xs[i]?

end Verif
