import Verif.Spec.PTW
import Verif.Model.FMN

/-!
# Contracts of copyable models and of model stores
-/

namespace Verif

variable {S σ α : Type}

/-- `copy` succeeds on models satisfying `I` and gives a model satisfying `I` that assigns the same probability to every
sequence. -/
def Predictor.Copyable (P : Predictor σ α) (I : σ → Prop) : Prop :=
  ∀ s, I s → ∃ s', P.copy s = .ok s' ∧ I s' ∧ ∀ xs, P.seqProb s' xs = P.seqProb s xs

/-- A store that never invents models and, once `Keep s f` holds, never loses `f`. -/
structure Store.Lawful (St : Store S σ) (add : S → σ → S) (Keep : S → σ → Prop) : Prop where
  lazyAdd : ∀ s x, St.lazyAdd s (.ok x) = .ok (add s x)
  first : ∀ x, Keep (add St.empty x) x ∧ St.items (add St.empty x) = [x]
  keep : ∀ s f x, Keep s f → Keep (add s x) f
  mem : ∀ s f, Keep s f → f ∈ St.items s
  sub : ∀ s x y, y ∈ St.items (add s x) → y ∈ St.items s ∨ y = x

end Verif
