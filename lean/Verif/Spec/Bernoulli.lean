import Verif.Spec.CTW
import Verif.Spec.PTW
import Mathlib.Analysis.SpecialFunctions.Pow.NNReal

/-!
# Bernoulli sources, tree sources and piecewise stationary sources
-/

namespace Verif

/-- The probability that independent draws, with probability `θ` for a one, give the symbols of `xs`. -/
noncomputable def bernProb (θ : ℝ) (xs : List (Obs Bool)) : ℝ := (xs.map fun o => if o.sym then θ else 1 - θ).prod

/-- The price for not knowing the parameter of a source that produced `n` symbols: `2 sqrt n`, nothing for `n = 0`. -/
noncomputable def ktPrice (n : ℕ) : ℝ := max 1 (2 * Real.sqrt n)

/-- A tree source of depth at most `d`: the parameter depends on the context. -/
inductive TreeSource (κ : Type) : ℕ → Type
  | leaf {d : ℕ} (θ : ℝ) : TreeSource κ d
  | split {d : ℕ} : (κ → TreeSource κ d) → TreeSource κ (d + 1)

namespace TreeSource

variable {κ : Type} [Fintype κ] [DecidableEq κ]

/-- The parameters are probabilities. -/
def Valid : {d : ℕ} → TreeSource κ d → Prop
  | _, leaf θ => 0 ≤ θ ∧ θ ≤ 1
  | _, split f => ∀ c, (f c).Valid

/-- The probability of a sequence of observations with contexts. -/
noncomputable def prob : {d : ℕ} → TreeSource κ d → List (List κ × Obs Bool) → ℝ
  | _, leaf θ, S => bernProb θ (S.map Prod.snd)
  | _, split f, S => ∏ c : κ, (f c).prob (subCtx c S)

/-- The price for the parameters of all leaves. -/
noncomputable def price : {d : ℕ} → TreeSource κ d → List (List κ × Obs Bool) → ℝ
  | _, leaf _, S => ktPrice S.length
  | _, split f, S => ∏ c : κ, (f c).price (subCtx c S)

/-- The tree without the parameters. -/
def shape : {d : ℕ} → TreeSource κ d → Pruning κ d
  | _, leaf _ => .leaf
  | _, split f => .split fun c => (f c).shape

end TreeSource

/-- The probability of independent draws where the probability of a one at time `i` is `θ i`, from time `t` on. -/
noncomputable def pieceProb (θ : ℕ → ℝ) : ℕ → List (Obs Bool) → ℝ
  | _, [] => 1
  | t, o :: xs => (if o.sym then θ t else 1 - θ t) * pieceProb θ (t + 1) xs

/-- The times strictly inside `t, ..., t + n - 1` at which the label differs from the one before. -/
noncomputable def changeTimes {γ : Type} [DecidableEq γ] (θ : ℕ → γ) (t n : ℕ) : Finset ℕ :=
  (Finset.Ioo t (t + n)).filter fun i => θ i ≠ θ (i - 1)

end Verif
