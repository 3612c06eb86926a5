import Verif.Spec.CTW

/-! # Context tree weighting over contexts of different lengths -/

namespace Verif

variable {κ β : Type} [DecidableEq κ]

open Classical in
/-- The context-tree mixture over the contexts `C`, most recent context symbol first, which are at most `d` symbols long: at the end of a
context the base probability, on the way to one half of it plus half the product over the next context symbols. -/
noncomputable def codeProb (base : List β → ℝ) : (List κ → Prop) → ℕ → List (List κ × β) → ℝ
  | _, 0, S => base (S.map Prod.snd)
  | C, d + 1, S => if C [] then base (S.map Prod.snd) else
      1/2 * base (S.map Prod.snd) + 1/2 * ∏ c ∈ heads S, codeProb base (fun l => C (c :: l)) d (subCtx c S)

/-- A pruning that splits only on the way to contexts of `C`. -/
def Pruning.Fits {κ : Type} : {d : ℕ} → (List κ → Prop) → Pruning κ d → Prop
  | _, _, leaf => True
  | _, C, split f => ¬ C [] ∧ ∀ c, (f c).Fits fun l => C (c :: l)

open Classical in
/-- The price in bits of a pruning among the contexts `C`: one for each split and one for each leaf that is not the end of a context. -/
noncomputable def Pruning.codeCost {κ : Type} [Fintype κ] : {d : ℕ} → (List κ → Prop) → Pruning κ d → ℕ
  | 0, _, leaf => 0
  | _ + 1, C, leaf => if C [] then 0 else 1
  | _, C, split f => 1 + ∑ c, (f c).codeCost fun l => C (c :: l)

end Verif
