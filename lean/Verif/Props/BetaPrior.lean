import Verif.Props.BayesianMixtures
import Verif.Props.Histories
import Mathlib.Probability.Distributions.Beta

/-!
# C172: the KT estimator has the beta distribution as prior

The documentation of `KT` and `KTBinary` says "AKA Beta(0.5, 0.5) prior".
-/

open MeasureTheory ProbabilityTheory

namespace Verif

/-- The probability of a bit for a coin that shows 1 with probability `θ`. -/
def coin (θ : ℝ) (b : Bool) : ℝ := if b then θ else 1 - θ

namespace BetaPrior

theorem integral_beta (u v : ℝ) (hu : 0 < u) (hv : 0 < v) (f : ℝ → ℝ) : ∫ θ, f θ ∂betaMeasure u v = ∫ θ, betaPDFReal u v θ * f θ := by
  have hm : Measurable (betaPDF u v) := (measurable_betaPDFReal u v).ennreal_ofReal
  rw [betaMeasure, integral_withDensity_eq_integral_toReal_smul hm (by simp [betaPDF])]
  refine integral_congr_ae (.of_forall fun θ => ?_)
  have : 0 ≤ betaPDFReal u v θ := by
    by_cases h : 0 < θ ∧ θ < 1
    · exact (betaPDFReal_pos h.1 h.2 hu hv).le
    · rw [betaPDFReal, if_neg h]
  simp only [betaPDF, ENNReal.toReal_ofReal this, smul_eq_mul]

theorem beta_succ_left {u v : ℝ} (hu : 0 < u) (hv : 0 < v) : ProbabilityTheory.beta (u + 1) v = u / (u + v) * ProbabilityTheory.beta u v := by
  have huv : u + v ≠ 0 := by positivity
  have h3 := (Real.Gamma_pos_of_pos (add_pos hu hv)).ne'
  rw [ProbabilityTheory.beta, ProbabilityTheory.beta, Real.Gamma_add_one hu.ne', show u + 1 + v = u + v + 1 by ring, Real.Gamma_add_one huv]
  field_simp

theorem beta_comm (u v : ℝ) : ProbabilityTheory.beta u v = ProbabilityTheory.beta v u := by
  rw [ProbabilityTheory.beta, ProbabilityTheory.beta, mul_comm, add_comm]

theorem pdf_left {u v : ℝ} (hu : 0 < u) (hv : 0 < v) (θ : ℝ) : betaPDFReal u v θ * θ = u / (u + v) * betaPDFReal (u + 1) v θ := by
  unfold betaPDFReal
  split_ifs with h
  · have hb := (beta_pos hu hv).ne'
    rw [beta_succ_left hu hv, show u + 1 - 1 = (u - 1) + 1 by ring, Real.rpow_add_one h.1.ne']
    have : u + v ≠ 0 := by positivity
    field_simp
  · simp

theorem pdf_right {u v : ℝ} (hu : 0 < u) (hv : 0 < v) (θ : ℝ) : betaPDFReal u v θ * (1 - θ) = v / (u + v) * betaPDFReal u (v + 1) θ := by
  unfold betaPDFReal
  split_ifs with h
  · have hb := (beta_pos hu hv).ne'
    have h1 : 1 - θ ≠ 0 := by linarith [h.2]
    rw [beta_comm u (v + 1), beta_succ_left hv hu, beta_comm v u, add_comm v u, show v + 1 - 1 = (v - 1) + 1 by ring, Real.rpow_add_one h1]
    have : u + v ≠ 0 := by positivity
    field_simp
  · simp

/-- One bit. -/
theorem step {c0 c1 : ℝ} (h0 : 0 < c0) (h1 : 0 < c1) (b : Bool) (f : ℝ → ℝ) :
    ∫ θ, f θ * coin θ b ∂betaMeasure c1 c0 =
      (if b then c1 else c0) / (c0 + c1) * ∫ θ, f θ ∂betaMeasure (KTBinary.bump ⟨c0, c1⟩ b 1).c1 (KTBinary.bump ⟨c0, c1⟩ b 1).c0 := by
  cases b
  · change ∫ θ, f θ * (1 - θ) ∂betaMeasure c1 c0 = c0 / (c0 + c1) * ∫ θ, f θ ∂betaMeasure c1 (c0 + 1)
    rw [integral_beta c1 c0 h1 h0, integral_beta c1 (c0 + 1) h1 (by linarith), ← integral_const_mul]
    refine integral_congr_ae (.of_forall fun θ => ?_)
    have := pdf_right h1 h0 θ
    rw [add_comm c1 c0] at this
    simp only
    linear_combination f θ * this
  · change ∫ θ, f θ * θ ∂betaMeasure c1 c0 = c1 / (c0 + c1) * ∫ θ, f θ ∂betaMeasure (c1 + 1) c0
    rw [integral_beta c1 c0 h1 h0, integral_beta (c1 + 1) c0 (by linarith) h0, ← integral_const_mul]
    refine integral_congr_ae (.of_forall fun θ => ?_)
    have := pdf_left h1 h0 θ
    rw [add_comm c1 c0] at this
    simp only
    linear_combination f θ * this

theorem prob_congr {κ β : Type} [Fintype κ] [DecidableEq κ] {V : β → Prop} {f g : List β → ℝ} (h : ∀ l, (∀ x ∈ l, V x) → f l = g l) :
    ∀ {d : ℕ} (T : Pruning κ d) (S : List (List κ × β)), (∀ p ∈ S, V p.2) → T.prob f S = T.prob g S
  | _, .leaf, S, hS => h _ fun x hx => by
      obtain ⟨p, hp, rfl⟩ := List.mem_map.mp hx
      exact hS p hp
  | _, .split c, S, hS => Finset.prod_congr rfl fun k _ => prob_congr h (c k) (subCtx k S) fun p hp => by
      obtain ⟨q, hq, e⟩ := TreeSource.subCtx_mem hp
      exact e ▸ hS q hq

end BetaPrior

open BetaPrior

/-- **C172 (posterior).** Take the coins with the beta distribution of parameters `c1` and `c0` as prior.  Whatever unit-weight updates a `KTBinary` with the
initial counts `c0` and `c1` gets, the expectation under the prior of any function times the likelihood is the probability it has reported times the
expectation under the beta distribution with its current counts: these are the parameters of the posterior. -/
theorem C172_posterior (c0 c1 : ℝ) (h0 : 0 < c0) (h1 : 0 < c1) (xs : List (Obs Bool)) (hw : ∀ o ∈ xs, o.weight = 1) :
    ∃ r t, KTBinary.predictor.run ⟨c0, c1⟩ xs = .ok (r, t) ∧ 0 < t.c0 ∧ 0 < t.c1 ∧
      ∀ f : ℝ → ℝ, ∫ θ, f θ * (xs.map fun o => coin θ o.sym).prod ∂betaMeasure c1 c0 = Real.exp r * ∫ θ, f θ ∂betaMeasure t.c1 t.c0 := by
  induction xs generalizing c0 c1 with
  | nil => exact ⟨0, ⟨c0, c1⟩, rfl, h0, h1, fun f => by simp⟩
  | cons o os ih =>
    have hpos : 0 < (KTBinary.bump ⟨c0, c1⟩ o.sym 1).c0 ∧ 0 < (KTBinary.bump ⟨c0, c1⟩ o.sym 1).c1 := by
      cases o.sym
      · exact ⟨by change 0 < c0 + 1; linarith, h1⟩
      · exact ⟨h0, by change 0 < c1 + 1; linarith⟩
    obtain ⟨r, t, hr, g0, g1, hf⟩ := ih _ _ hpos.1 hpos.2 fun o ho => hw o (List.mem_cons_of_mem _ ho)
    have hu := Histories.kt_up h0 h1 o.sym o.hist o.weight
    rw [hw o List.mem_cons_self] at hu
    refine ⟨Real.log ((if o.sym then c1 else c0) / (c0 + c1)) + r, t,
      Predictor.run_cons_ok.mpr ⟨_, _, _, ?_, hr, rfl⟩, g0, g1, fun f => ?_⟩
    · rw [hw o List.mem_cons_self]
      exact hu
    · have hq : 0 < (if o.sym then c1 else c0) / (c0 + c1) := by cases o.sym <;> simp <;> positivity
      rw [Real.exp_add, Real.exp_log hq, mul_assoc, ← hf f, ← step h0 h1]
      simp only [List.map_cons, List.prod_cons]
      refine integral_congr_ae (.of_forall fun θ => ?_)
      simp only
      ring

/-- **C172 (probability).** The probability that a `KTBinary` reports for a sequence of bits is that of a coin drawn from the beta distribution with the
initial counts as parameters. -/
theorem C172_probability (c0 c1 : ℝ) (h0 : 0 < c0) (h1 : 0 < c1) (xs : List (Obs Bool)) (hw : ∀ o ∈ xs, o.weight = 1) :
    ∃ r t, KTBinary.predictor.run ⟨c0, c1⟩ xs = .ok (r, t) ∧ Real.exp r = ∫ θ, (xs.map fun o => coin θ o.sym).prod ∂betaMeasure c1 c0 := by
  obtain ⟨r, t, hr, g0, g1, hf⟩ := C172_posterior c0 c1 h0 h1 xs hw
  have := isProbabilityMeasureBeta g1 g0
  refine ⟨r, t, hr, ?_⟩
  have h := hf fun _ => 1
  simp only [one_mul, integral_const, probReal_univ, smul_eq_mul, mul_one] at h
  exact h.symm

/-- **C172 (prediction).** What it predicts is the posterior mean. -/
theorem C172_prediction (c0 c1 : ℝ) (h0 : 0 < c0) (h1 : 0 < c1) (b : Bool) (h : List Bool) :
    ∃ r, KTBinary.predictor.logPredict ⟨c0, c1⟩ b h = .ok (r, ⟨c0, c1⟩) ∧ Real.exp r = ∫ θ, coin θ b ∂betaMeasure c1 c0 := by
  have hq : 0 < (if b then c1 else c0) / (c0 + c1) := by cases b <;> simp <;> positivity
  refine ⟨_, Histories.kt_lp h0 h1 b h, ?_⟩
  have hs := step h0 h1 b fun _ => 1
  have hpos : 0 < (KTBinary.bump ⟨c0, c1⟩ b 1).c0 ∧ 0 < (KTBinary.bump ⟨c0, c1⟩ b 1).c1 := by
    cases b
    · exact ⟨by change 0 < c0 + 1; linarith, h1⟩
    · exact ⟨h0, by change 0 < c1 + 1; linarith⟩
  have := isProbabilityMeasureBeta hpos.2 hpos.1
  simp only [one_mul, integral_const, probReal_univ, smul_eq_mul, mul_one] at hs
  rw [hs, Real.exp_log hq]

/-- **C172 (KT).** With its default arguments `KT` has the prior Beta(0.5, 0.5). -/
theorem C172_KT (xs : List (Obs Bool)) (hw : ∀ o ∈ xs, o.weight = 1) : ∃ s r t, KT.init [false, true] none = .ok s ∧
    KT.predictor.run s xs = .ok (r, t) ∧ Real.exp r = ∫ θ, (xs.map fun o => coin θ o.sym).prod ∂betaMeasure (1 / 2) (1 / 2) := by
  have hi : KTBinary.init none = ⟨1 / 2, 1 / 2⟩ := by norm_num [KTBinary.init]
  obtain ⟨r, t, hr, e⟩ := C172_probability (1 / 2) (1 / 2) (by norm_num) (by norm_num) xs hw
  refine ⟨_, r, t.toKT, C04_KTBinary_eq_KT.1, ?_, e⟩
  rw [C04_KTBinary_runs, hi, hr]
  rfl

/-- **C172 (CTW).** So the probability that a `CTW` over `KTBinary` models reports is that of the following process: draw a pruning of the context tree
with the probability of C171, draw at each of its leaves a coin from the beta distribution, and toss for each bit the coin of the leaf its context leads to. -/
theorem C172_CTW (c0 c1 : ℝ) (h0 : 0 < c0) (h1 : 0 < c1) (d : ℕ) (ctx : List Bool → List Bool) (hc : ∀ h, (ctx h).length = d)
    (xs : List (Obs Bool)) (hw : ∀ o ∈ xs, o.weight = 1) (r : ℝ) (n : CTWNode KTBinary Bool)
    (hr : (CTW.predictor KTBinary.predictor ⟨c0, c1⟩ ctx).run (CTW.init ⟨c0, c1⟩) xs = .ok (r, n)) :
    Real.exp r = ∑ T : Pruning Bool d, (1 / 2 : ℝ) ^ T.cost *
      T.prob (fun l => ∫ θ, (l.map fun o => coin θ o.sym).prod ∂betaMeasure c1 c0) (withCtx ctx xs) := by
  rw [C171_CTW _ _ ctx d xs (fun o _ => hc o.hist) r n hr]
  refine Finset.sum_congr rfl fun T _ => ?_
  rw [prob_congr (V := fun o : Obs Bool => o.weight = 1) ?_ T (withCtx ctx xs) ?_]
  · intro l hl
    obtain ⟨r, t, h, e⟩ := C172_probability c0 c1 h0 h1 l hl
    rw [← e]
    exact Predictor.seqProb_of_run h
  · intro p hp
    obtain ⟨o, ho, rfl⟩ := List.mem_map.mp hp
    exact hw o ho

/-- Beside C172: with the default counts the prior is Beta(1/2, 1/2) (the arcsine distribution), the bits 1, 0 have the probability 1/8 and the
expectation of θ(1 - θ) under the prior is the same. -/
example : KTBinary.init none = ⟨1 / 2, 1 / 2⟩ ∧ ∃ r t, KTBinary.predictor.run (KTBinary.init none) [⟨true, [], 1⟩, ⟨false, [true], 1⟩] = .ok (r, t) ∧
    Real.exp r = ∫ θ, θ * (1 - θ) ∂betaMeasure (1 / 2) (1 / 2) ∧ Real.exp r = 1 / 8 := by
  have hi : KTBinary.init none = ⟨1 / 2, 1 / 2⟩ := by norm_num [KTBinary.init]
  obtain ⟨r, t, hr, e⟩ := C172_probability (1 / 2) (1 / 2) (by norm_num) (by norm_num) [⟨true, [], 1⟩, ⟨false, [true], 1⟩] (by simp)
  refine ⟨hi, r, t, hi ▸ hr, ?_, ?_⟩
  · simpa [coin] using e
  · obtain ⟨r1, s1, r2, h1, h2, rfl⟩ := Predictor.run_cons_ok.mp hr
    obtain ⟨r3, s2, r4, h3, h4, rfl⟩ := Predictor.run_cons_ok.mp h2
    rw [Histories.kt_up (by norm_num) (by norm_num)] at h1
    cases h1
    change KTBinary.predictor.update ⟨1 / 2, 1 / 2 + 1⟩ false _ 1 = _ at h3
    rw [Histories.kt_up (by norm_num) (by norm_num)] at h3
    cases h3
    cases h4
    simp only [if_true, Bool.false_eq_true, if_false]
    rw [Real.exp_add, Real.exp_add, Real.exp_log (by norm_num), Real.exp_log (by norm_num)]
    norm_num

end Verif
