import Verif.Spec.Bernoulli

/-!
# Sources over any alphabet: independent draws, tree sources, piecewise stationary sources
-/

namespace Verif

/-- The probabilities `q` of the symbols of `A` form a distribution. -/
def IsDist {α : Type} (A : List α) (q : α → ℝ) : Prop := (∀ a ∈ A, 0 ≤ q a) ∧ (A.map q).sum = 1

/-- The probability that independent draws, with probability `q a` for the symbol `a`, give the symbols of `xs`. -/
noncomputable def catProb {α : Type} (q : α → ℝ) (xs : List (Obs α)) : ℝ := (xs.map fun o => q o.sym).prod

/-- The price for not knowing the distribution of a source over `k` symbols that produced `n` of them:
`e (k/2)^k n^((k-1)/2)`, nothing for `n = 0`. -/
noncomputable def catPrice (k n : ℕ) : ℝ := max 1 (Real.exp 1 * ((k : ℝ) / 2) ^ k * Real.sqrt n ^ (k - 1))

/-- A tree source of depth at most `d`: the distribution of the symbol depends on the context. -/
inductive CatTree (α κ : Type) : ℕ → Type
  | leaf {d : ℕ} (q : α → ℝ) : CatTree α κ d
  | split {d : ℕ} : (κ → CatTree α κ d) → CatTree α κ (d + 1)

namespace CatTree

variable {α κ : Type} [Fintype κ] [DecidableEq κ]

/-- Every leaf has a distribution on the alphabet. -/
def Valid (A : List α) : {d : ℕ} → CatTree α κ d → Prop
  | _, leaf q => IsDist A q
  | _, split f => ∀ c, (f c).Valid A

/-- The probability of a sequence of observations with contexts. -/
noncomputable def prob : {d : ℕ} → CatTree α κ d → List (List κ × Obs α) → ℝ
  | _, leaf q, S => catProb q (S.map Prod.snd)
  | _, split f, S => ∏ c : κ, (f c).prob (subCtx c S)

/-- The price for the distributions of all leaves, over an alphabet of `k` symbols. -/
noncomputable def price (k : ℕ) : {d : ℕ} → CatTree α κ d → List (List κ × Obs α) → ℝ
  | _, leaf _, S => catPrice k S.length
  | _, split f, S => ∏ c : κ, (f c).price k (subCtx c S)

/-- The tree without the distributions. -/
def shape : {d : ℕ} → CatTree α κ d → Pruning κ d
  | _, leaf _ => .leaf
  | _, split f => .split fun c => (f c).shape

end CatTree

/-- The probability of independent draws where `q i` is the distribution at time `i`, from time `t` on. -/
noncomputable def catPieceProb {α : Type} (q : ℕ → α → ℝ) : ℕ → List (Obs α) → ℝ
  | _, [] => 1
  | t, o :: xs => q t o.sym * catPieceProb q (t + 1) xs

end Verif
