import Verif.Model.FMN

/-!
# `FMN` in exact arithmetic, up to near ties

Which model `FMN` stores depends on comparisons of probabilities.  When two are nearly equal, rounding can decide.  The runs of this file are those of exact
arithmetic in which the model that is stored is only nearly the best one.
-/

namespace Verif

namespace FMN

variable {S σ α : Type}

/-- `x` is an element whose key is below the largest by at most `δ`. -/
def NearMax {τ : Type} (δ : ℝ) (l : List (τ × ℝ)) (x : τ) : Prop := ∃ k, (x, k) ∈ l ∧ ∀ y ∈ l, y.2 ≤ k + δ

/-- `b` is nearly what `self.map().map()` returns (model.py:833): a component, nearly of the largest weight, of a base model of nearly the largest key. -/
def NearBest (δ : ℝ) (p : PTW (Averager σ)) (b : σ) : Prop := ∃ a, NearMax δ (p.tree.mapNodes 0) a ∧ NearMax δ a.models b

/-- `FMN.update` (model.py:827-835) in exact arithmetic, storing any model that is nearly the best one. -/
def NearStep (St : Store S σ) (P : Predictor σ α) (m : ℕ) (δ : ℝ) (s : FMN S σ) (o : Obs α) (r : ℝ) (s' : FMN S σ) : Prop :=
  ∃ p, s.ptw.update (Averager.predictor P) (modelFactory P (St.items s.store)) m o.sym o.hist o.weight = .ok (r, p) ∧
    if (s.t + 1) % 2 ^ m = 0 then
      ∃ b c st, NearBest δ p b ∧ P.copy b = .ok c ∧ St.lazyAdd s.store (.ok c) = .ok st ∧ s' = ⟨p, st, s.t + 1⟩
    else s' = ⟨p, s.store, s.t + 1⟩

/-- A sequence of such updates; `r` is the sum of the values returned. -/
inductive NearRun (St : Store S σ) (P : Predictor σ α) (m : ℕ) (δ : ℝ) : FMN S σ → List (Obs α) → ℝ → FMN S σ → Prop
  | nil (s : FMN S σ) : NearRun St P m δ s [] 0 s
  | cons {s s1 s2 : FMN S σ} {o : Obs α} {xs : List (Obs α)} {r1 r2 : ℝ} (h1 : NearStep St P m δ s o r1 s1) (h2 : NearRun St P m δ s1 xs r2 s2) :
    NearRun St P m δ s (o :: xs) (r1 + r2) s2

/-- No comparison is a near tie when the models of the run in exact arithmetic are stored: whatever is nearly the best model has the copy that is stored. -/
def Decisive (St : Store S σ) (P : Predictor σ α) (m : ℕ) (δ : ℝ) : FMN S σ → List (Obs α) → Prop
  | _, [] => True
  | s, o :: xs =>
    (∀ r p, s.ptw.update (Averager.predictor P) (modelFactory P (St.items s.store)) m o.sym o.hist o.weight = .ok (r, p) →
      (s.t + 1) % 2 ^ m = 0 → ∀ b, NearBest δ p b → P.copy b = best P p) ∧
    ∀ r s', update St P m s o.sym o.hist o.weight = .ok (r, s') → Decisive St P m δ s' xs

end FMN

end Verif
