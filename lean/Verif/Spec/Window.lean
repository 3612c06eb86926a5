import Verif.Spec.Compose
import Verif.Model.FMN

/-!
# How far back a model looks
-/

namespace Verif

/-- The last `D` symbols of two histories are the same, where `zero` stands for the symbols before the first. -/
def SameWindow {α : Type} (zero : α) (D : ℕ) (h h' : List α) : Prop := ∀ i < D, (h.reverse[i]?).getD zero = (h'.reverse[i]?).getD zero

/-- What a model answers and its state after that do not tell histories in the relation `R` apart. -/
def Blind {σ α : Type} (P : Predictor σ α) (R : List α → List α → Prop) : Prop :=
  ∀ s a h h' w, R h h' → P.update s a h w = P.update s a h' w ∧ P.logPredict s a h = P.logPredict s a h'

/-- Models put together from the classes of model.py other than `Factored`, with context trees of depths of at most `D`. -/
inductive Window {α : Type} [DecidableEq α] (zero : α) : ℕ → (σ : Type) → Predictor σ α → Prop
  /-- A class of the user's own that looks at no more than `D` symbols. -/
  | user {D : ℕ} {σ : Type} {P : Predictor σ α} : Blind P (SameWindow zero D) → Window zero D σ P
  /-- `KT`. -/
  | kt {D : ℕ} : Window zero D (KT α) KT.predictor
  /-- `SAD`. -/
  | sad {D : ℕ} : Window zero D (SAD α) SAD.predictor
  /-- `Averager`. -/
  | averager {D : ℕ} {ι : Type} {σ : ι → Type} {P : ∀ i, Predictor (σ i) α} : (∀ i, Window zero D (σ i) (P i)) →
      Window zero D (Averager (Σ i, σ i)) (Averager.predictor (Predictor.either P))
  /-- `CTW`. -/
  | ctw {D depth : ℕ} {σ : Type} {P : Predictor σ α} (s : σ) : Window zero D σ P → depth ≠ 0 → depth ≤ D →
      Window zero D (CTWNode σ α) { CTW.predictor P s (CTW.mkcontext depth zero) with copy := CTW.copyDict P }
  /-- `CTW` whose contexts are bits. -/
  | ctwBits {D depth : ℕ} {σ : Type} {P : Predictor σ α} (s : σ) (bit : α → Bool) : Window zero D σ P → depth ≠ 0 → depth ≤ D →
      Window zero D (CTWNode σ Bool) (CTW.predictor P s fun h => (CTW.mkcontext depth zero h).map bit)
  /-- `PTW`. -/
  | ptw {D : ℕ} {σ : Type} {P : Predictor σ α} (s : σ) (m : ℕ) : Window zero D σ P → Window zero D (PTW σ) (PTW.predictor P s m)
  /-- `PTWFixedLength`. -/
  | ptwFixed {D : ℕ} {σ : Type} {P : Predictor σ α} (s : σ) (m height : ℕ) : Window zero D σ P →
      Window zero D (PTW σ) (PTWFixedLength.predictor P s m height)
  /-- `FMN` with any store. -/
  | fmn {D : ℕ} {S σ : Type} {P : Predictor σ α} (St : Store S σ) (m : ℕ) : Window zero D σ P →
      Window zero D (FMN S σ) (FMN.predictor St P m)

end Verif
