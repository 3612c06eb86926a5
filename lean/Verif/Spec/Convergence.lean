import Verif.Spec.Categorical
import Verif.Spec.Predictor

/-!
# Sources of random symbols, and how far predictions are from them
-/

namespace Verif

variable {σ α : Type}

/-- The calls of `update` for the symbols `xs`, each with all symbols before as its history, which is `h` at first. -/
def drawn (h : List α) : List α → List (Obs α)
  | [] => []
  | x :: xs => ⟨x, h, 1⟩ :: drawn (h ++ [x]) xs

/-- The probability of the symbols `xs` if `q h` is the distribution of the next symbol after the symbols `h`. -/
noncomputable def srcProb (q : List α → α → ℝ) (h : List α) : List α → ℝ
  | [] => 1
  | x :: xs => q h x * srcProb q (h ++ [x]) xs

/-- The expected value of `F` of the next `n` symbols of the source. -/
noncomputable def expect (A : List α) (q : List α → α → ℝ) : ℕ → List α → (List α → ℝ) → ℝ
  | 0, _, F => F []
  | n + 1, h, F => (A.map fun a => q h a * expect A q n (h ++ [a]) fun xs => F (a :: xs)).sum

/-- The distance of two distributions. -/
noncomputable def distance (A : List α) (p q : α → ℝ) : ℝ := (A.map fun a => |p a - q a|).sum

/-- The sum of `g` of the distances between the predictions of a model before each of the symbols and the distributions of the source. -/
noncomputable def Predictor.errors (P : Predictor σ α) (A : List α) (q : List α → α → ℝ) (g : ℝ → ℝ) (s : σ) (h : List α) : List α → ℝ
  | [] => 0
  | x :: xs => g (distance A (fun a => probOf (P.update s a h 1)) (q h)) +
      match P.update s x h 1 with
      | .ok (_, t) => errors P A q g t (h ++ [x]) xs
      | .error _ => 0

/-- The distribution at a leaf of a tree source. -/
noncomputable def CatTree.look {κ : Type} : {d : ℕ} → CatTree α κ d → List κ → α → ℝ
  | _, .leaf q, _ => q
  | _, .split _, [] => fun _ => 0
  | _, .split f, c :: cs => (f c).look cs

/-- The number of leaves. -/
def CatTree.leaves {κ : Type} [Fintype κ] : {d : ℕ} → CatTree α κ d → ℕ
  | _, .leaf _ => 1
  | _, .split f => ∑ c : κ, (f c).leaves

end Verif
