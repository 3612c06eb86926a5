import Verif.Spec.RoundingFMN
import Verif.Spec.Predictor

/-!
# `FMN` in exact arithmetic, up to near ties, with predictions

The runs of `Verif.Spec.RoundingFMN`, with calls of `log_predict` between the updates, and all the values that are returned.
-/

namespace Verif

namespace FMN

variable {S σ α : Type}

/-- Calls in exact arithmetic that store a model that is nearly the best one; the numbers are what the calls return. -/
inductive NearCalls (St : Store S σ) (P : Predictor σ α) (m : ℕ) (δ : ℝ) : FMN S σ → List (Predictor.Call α) → List ℝ → Prop
  | nil (s : FMN S σ) : NearCalls St P m δ s [] []
  | update {s s1 : FMN S σ} {a : α} {h : List α} {w r : ℝ} {cs : List (Predictor.Call α)} {rs : List ℝ} (h1 : NearStep St P m δ s ⟨a, h, w⟩ r s1)
    (h2 : NearCalls St P m δ s1 cs rs) : NearCalls St P m δ s (.update a h w :: cs) (r :: rs)
  | predict {s s1 : FMN S σ} {a : α} {h : List α} {r : ℝ} {cs : List (Predictor.Call α)} {rs : List ℝ} (h1 : logPredict P s a h = .ok (r, s1))
    (h2 : NearCalls St P m δ s1 cs rs) : NearCalls St P m δ s (.predict a h :: cs) (r :: rs)

/-- No comparison is a near tie, as `Decisive` for updates only. -/
def DecisiveCalls (St : Store S σ) (P : Predictor σ α) (m : ℕ) (δ : ℝ) : FMN S σ → List (Predictor.Call α) → Prop
  | _, [] => True
  | s, .update a h w :: cs =>
    (∀ r p, s.ptw.update (Averager.predictor P) (modelFactory P (St.items s.store)) m a h w = .ok (r, p) →
      (s.t + 1) % 2 ^ m = 0 → ∀ b, NearBest δ p b → P.copy b = best P p) ∧
    ∀ r s', FMN.update St P m s a h w = .ok (r, s') → DecisiveCalls St P m δ s' cs
  | s, .predict a h :: cs => ∀ r s', logPredict P s a h = .ok (r, s') → DecisiveCalls St P m δ s' cs

/-- Every call succeeds, and returns a number that differs from the given one by at most `δ`. -/
def Returns {τ : Type} (δ : ℝ) (Q : Predictor τ α) (s : τ) (cs : List (Predictor.Call α)) (rs : List ℝ) : Prop :=
  List.Forall₂ (fun o r => ∃ r', o = .ok r' ∧ |r' - r| ≤ δ) (Q.outputs s cs) rs

end FMN

end Verif
