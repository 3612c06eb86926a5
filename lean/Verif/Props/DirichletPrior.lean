import Verif.Props.BetaPrior
import Verif.Spec.Dirichlet

/-!
# C172, for more than two symbols: `KT` has the Dirichlet distribution as prior
-/

open MeasureTheory ProbabilityTheory
open scoped ENNReal

namespace Verif

variable {α : Type} [DecidableEq α]

namespace DirichletPrior

theorem pdf_nonneg {u v : ℝ} (hu : 0 < u) (hv : 0 < v) (θ : ℝ) : 0 ≤ betaPDFReal u v θ := by
  by_cases h : 0 < θ ∧ θ < 1
  · exact (betaPDFReal_pos h.1 h.2 hu hv).le
  · rw [betaPDFReal, if_neg h]

theorem meas (u v : ℝ) : Measurable (betaPDF u v) := (measurable_betaPDFReal u v).ennreal_ofReal

theorem ae_unit (u v : ℝ) : ∀ᵐ θ ∂betaMeasure u v, 0 < θ ∧ θ < 1 := by
  rw [betaMeasure, ae_withDensity_iff (meas u v)]
  refine .of_forall fun θ h => ?_
  by_contra hn
  exact h (by rw [betaPDF, betaPDFReal, if_neg hn, ENNReal.ofReal_zero])

theorem beta_left {u v : ℝ} (hu : 0 < u) (hv : 0 < v) {g : ℝ → ℝ≥0∞} (hg : Measurable g) :
    ∫⁻ θ, g θ * ENNReal.ofReal θ ∂betaMeasure u v = ENNReal.ofReal (u / (u + v)) * ∫⁻ θ, g θ ∂betaMeasure (u + 1) v := by
  have e := lintegral_withDensity_eq_lintegral_mul volume (meas u v) (g := fun θ => g θ * ENNReal.ofReal θ) (hg.mul ENNReal.measurable_ofReal)
  rw [betaMeasure, betaMeasure, e,
    lintegral_withDensity_eq_lintegral_mul _ (meas _ v) hg, ← lintegral_const_mul _ ((meas _ v).mul hg)]
  refine lintegral_congr fun θ => ?_
  have h := congrArg ENNReal.ofReal (BetaPrior.pdf_left hu hv θ)
  rw [ENNReal.ofReal_mul (pdf_nonneg hu hv θ), ENNReal.ofReal_mul (by positivity)] at h
  simp only [Pi.mul_apply, betaPDF]
  rw [mul_left_comm, h]
  ring

theorem beta_right {u v : ℝ} (hu : 0 < u) (hv : 0 < v) {g : ℝ → ℝ≥0∞} (hg : Measurable g) :
    ∫⁻ θ, g θ * ENNReal.ofReal (1 - θ) ∂betaMeasure u v = ENNReal.ofReal (v / (u + v)) * ∫⁻ θ, g θ ∂betaMeasure u (v + 1) := by
  have hm : Measurable fun θ : ℝ => ENNReal.ofReal (1 - θ) := (measurable_const.sub measurable_id).ennreal_ofReal
  have e := lintegral_withDensity_eq_lintegral_mul volume (meas u v) (g := fun θ => g θ * ENNReal.ofReal (1 - θ)) (hg.mul hm)
  rw [betaMeasure, betaMeasure, e,
    lintegral_withDensity_eq_lintegral_mul _ (meas u _) hg, ← lintegral_const_mul _ ((meas u _).mul hg)]
  refine lintegral_congr fun θ => ?_
  have h := congrArg ENNReal.ofReal (BetaPrior.pdf_right hu hv θ)
  rw [ENNReal.ofReal_mul (pdf_nonneg hu hv θ), ENNReal.ofReal_mul (by positivity)] at h
  simp only [Pi.mul_apply, betaPDF]
  rw [mul_left_comm, h]
  ring

theorem measurable_break (a : α) : Measurable fun x : ℝ × (α → ℝ) => breakStick a x.1 x.2 := by
  refine measurable_pi_iff.mpr fun b => ?_
  by_cases h : b = a
  · simpa [breakStick, h] using measurable_fst
  · simp only [breakStick, h, if_false]
    exact (measurable_const.sub measurable_fst).mul ((measurable_pi_apply b).comp measurable_snd)

/-- Positive parameters. -/
def Pos (cs : List (α × ℝ)) : Prop := ∀ p ∈ cs, 0 < p.2

omit [DecidableEq α] in
theorem Pos.sum {p : α × ℝ} {cs : List (α × ℝ)} (h : Pos (p :: cs)) : 0 < ((p :: cs).map Prod.snd).sum := by
  apply List.sum_pos
  · intro x hx
    obtain ⟨q, hq, rfl⟩ := List.mem_map.mp hx
    exact h q hq
  · simp

theorem isProb : ∀ {cs : List (α × ℝ)}, Pos cs → IsProbabilityMeasure (dirichlet cs)
  | [], _ => by rw [dirichlet]; infer_instance
  | [(_, _)], _ => by rw [dirichlet]; infer_instance
  | (a, c) :: p :: cs, h => by
    have h' : Pos (p :: cs) := fun q hq => h q (List.mem_cons_of_mem _ hq)
    have := isProb h'
    have := isProbabilityMeasureBeta (h (a, c) List.mem_cons_self) h'.sum
    rw [dirichlet]
    exact Measure.isProbabilityMeasure_map (measurable_break a).aemeasurable

theorem ae_nonneg : ∀ {cs : List (α × ℝ)}, Pos cs → ∀ b, ∀ᵐ p ∂dirichlet cs, 0 ≤ p b
  | [], _, b => by
    rw [dirichlet, ae_dirac_iff (measurableSet_le measurable_const (measurable_pi_apply b))]
    rfl
  | [(a, _)], _, b => by
    rw [dirichlet, ae_dirac_iff (measurableSet_le measurable_const (measurable_pi_apply b))]
    split_ifs <;> norm_num
  | (a, c) :: p :: cs, h, b => by
    have h' : Pos (p :: cs) := fun q hq => h q (List.mem_cons_of_mem _ hq)
    have := isProb h'
    rw [dirichlet, ae_map_iff (measurable_break a).aemeasurable (measurableSet_le measurable_const (measurable_pi_apply b))]
    filter_upwards [Measure.quasiMeasurePreserving_fst.ae (ae_unit c ((p :: cs).map Prod.snd).sum),
      Measure.quasiMeasurePreserving_snd.ae (ae_nonneg h' b)] with x hx hq
    unfold breakStick
    split_ifs
    · exact hx.1.le
    · exact mul_nonneg (by linarith [hx.2]) hq

omit [DecidableEq α] in
theorem measurable_sum (l : List α) : Measurable fun p : α → ℝ => (l.map p).sum := by
  induction l with
  | nil => exact measurable_const
  | cons a l ih =>
    simp only [List.map_cons, List.sum_cons]
    exact (measurable_pi_apply a).add ih

theorem ae_sum : ∀ {cs : List (α × ℝ)}, cs ≠ [] → Pos cs → (cs.map Prod.fst).Nodup → ∀ᵐ p ∂dirichlet cs, ((cs.map Prod.fst).map p).sum = 1
  | [], h, _, _ => absurd rfl h
  | [(a, _)], _, _, _ => by
    rw [dirichlet, ae_dirac_iff (measurableSet_eq_fun (measurable_sum _) measurable_const)]
    simp
  | (a, c) :: p :: cs, _, h, hn => by
    have h' : Pos (p :: cs) := fun q hq => h q (List.mem_cons_of_mem _ hq)
    have := isProb h'
    rw [List.map_cons, List.nodup_cons] at hn
    rw [dirichlet, ae_map_iff (measurable_break a).aemeasurable (measurableSet_eq_fun (measurable_sum _) measurable_const)]
    filter_upwards [Measure.quasiMeasurePreserving_snd.ae (ae_sum (by simp) h' hn.2)] with x hq
    have e : ((p :: cs).map Prod.fst).map (breakStick a x.1 x.2) = (((p :: cs).map Prod.fst).map x.2).map ((1 - x.1) * ·) := by
      rw [List.map_map (l := (p :: cs).map Prod.fst)]
      refine List.map_congr_left fun b hb => ?_
      have : b ≠ a := fun e => hn.1 (e ▸ hb)
      simp [breakStick, this]
    rw [List.map_cons, List.map_cons, List.sum_cons, e, List.sum_map_mul_left, List.map_id', hq]
    simp [breakStick]

theorem expand {a : α} {c : ℝ} {p : α × ℝ} {cs : List (α × ℝ)} (h : Pos (p :: cs)) {f : (α → ℝ) → ℝ≥0∞} (hf : Measurable f) :
    ∫⁻ p, f p ∂dirichlet ((a, c) :: p :: cs) =
      ∫⁻ θ, ∫⁻ q, f (breakStick a θ q) ∂dirichlet (p :: cs) ∂betaMeasure c ((p :: cs).map Prod.snd).sum := by
  have := isProb h
  rw [dirichlet, lintegral_map hf (measurable_break a)]
  exact lintegral_prod _ (hf.comp (measurable_break a)).aemeasurable

theorem meas_inner {a : α} {f : (α → ℝ) → ℝ≥0∞} (hf : Measurable f) {cs : List (α × ℝ)} (h : Pos cs) :
    Measurable fun θ => ∫⁻ q, f (breakStick a θ q) ∂dirichlet cs := by
  have := isProb h
  exact (hf.comp (measurable_break a)).lintegral_prod_right'

theorem meas_q {a : α} {f : (α → ℝ) → ℝ≥0∞} (hf : Measurable f) (θ : ℝ) : Measurable fun q => f (breakStick a θ q) :=
  hf.comp ((measurable_break a).comp measurable_prodMk_left)

/-- One symbol. -/
theorem step : ∀ {cs : List (α × ℝ)}, Pos cs → ∀ {b : α} {c : ℝ}, PyDict.get? cs b = some c → ∀ {f : (α → ℝ) → ℝ≥0∞}, Measurable f →
    ∫⁻ p, f p * ENNReal.ofReal (p b) ∂dirichlet cs =
      ENNReal.ofReal (c / (cs.map Prod.snd).sum) * ∫⁻ p, f p ∂dirichlet (PyDict.set cs b (c + 1))
  | [], _, b, c, hc, f, hf => by simp [PyDict.get?] at hc
  | [(a, c')], h, b, c, hc, f, hf => by
    have hpos := h (a, c') List.mem_cons_self
    by_cases hab : a = b
    · simp only [PyDict.get?, hab, if_true, Option.some.injEq] at hc
      subst hc
      have hm : Measurable fun p : α → ℝ => f p * ENNReal.ofReal (p b) := hf.mul (measurable_pi_apply b).ennreal_ofReal
      simp only [PyDict.set, hab, if_true, dirichlet]
      rw [lintegral_dirac' _ hm, lintegral_dirac' _ hf]
      simp [div_self hpos.ne', mul_comm]
    · simp [PyDict.get?, hab] at hc
  | (a, c') :: p :: cs, h, b, c, hc, f, hf => by
    have hpos : 0 < c' := h (a, c') List.mem_cons_self
    have h' : Pos (p :: cs) := fun q hq => h q (List.mem_cons_of_mem _ hq)
    have hv := h'.sum
    have := isProb h'
    have hm : Measurable fun p : α → ℝ => f p * ENNReal.ofReal (p b) := hf.mul (measurable_pi_apply b).ennreal_ofReal
    rw [expand h' hm]
    by_cases hab : a = b
    · simp only [PyDict.get?, hab, if_true, Option.some.injEq] at hc
      subst hc
      simp only [PyDict.set, hab, if_true]
      subst hab
      rw [expand h' hf]
      have e : ∀ θ, ∫⁻ q, f (breakStick a θ q) * ENNReal.ofReal (breakStick a θ q a) ∂dirichlet (p :: cs) =
          (∫⁻ q, f (breakStick a θ q) ∂dirichlet (p :: cs)) * ENNReal.ofReal θ := by
        intro θ
        rw [← lintegral_mul_const _ (meas_q hf θ)]
        simp [breakStick]
      simp only [e]
      rw [beta_left hpos hv (meas_inner hf h')]
      simp
    · replace hc : PyDict.get? (p :: cs) b = some c := by
        rw [PyDict.get?, if_neg hab] at hc
        exact hc
      have es : PyDict.set ((a, c') :: p :: cs) b (c + 1) = (a, c') :: PyDict.set (p :: cs) b (c + 1) := by rw [PyDict.set, if_neg hab]
      rw [es]
      have ih := fun θ => step h' hc (f := fun q => f (breakStick a θ q)) (meas_q hf θ)
      have e : ∀ᵐ θ ∂betaMeasure c' ((p :: cs).map Prod.snd).sum,
          ∫⁻ q, f (breakStick a θ q) * ENNReal.ofReal (breakStick a θ q b) ∂dirichlet (p :: cs) =
          (ENNReal.ofReal (c / ((p :: cs).map Prod.snd).sum) * ∫⁻ q, f (breakStick a θ q) ∂dirichlet (PyDict.set (p :: cs) b (c + 1))) *
            ENNReal.ofReal (1 - θ) := by
        filter_upwards [ae_unit c' ((p :: cs).map Prod.snd).sum] with θ hθ
        have hm' : Measurable fun q : α → ℝ => f (breakStick a θ q) * ENNReal.ofReal (q b) := (meas_q hf θ).mul (measurable_pi_apply b).ennreal_ofReal
        rw [← ih θ, ← lintegral_mul_const _ hm']
        refine lintegral_congr fun q => ?_
        rw [breakStick, if_neg (Ne.symm hab), ENNReal.ofReal_mul (by linarith [hθ.2])]
        ring
      have hsum : ((PyDict.set (p :: cs) b (c + 1)).map Prod.snd).sum = ((p :: cs).map Prod.snd).sum + 1 := PyDict.sum_values_set hc 1
      have hset : Pos (PyDict.set (p :: cs) b (c + 1)) := by
        intro q hq
        rcases PyDict.mem_set hq with rfl | hq
        · have : 0 < c := h' _ (PyDict.mem_of_get? hc)
          simp only
          linarith
        · exact h' q hq
      obtain ⟨p', cs', e'⟩ : ∃ p' cs', PyDict.set (p :: cs) b (c + 1) = p' :: cs' := by
        obtain ⟨k, x⟩ := p
        simp only [PyDict.set]
        split_ifs <;> exact ⟨_, _, rfl⟩
      rw [lintegral_congr_ae e]
      rw [e'] at hsum hset ⊢
      have := isProb hset
      rw [expand hset hf, hsum]
      rw [beta_right hpos hv ((meas_inner hf hset).const_mul _), lintegral_const_mul _ (meas_inner hf hset),
        ← mul_assoc, ← ENNReal.ofReal_mul (by positivity)]
      congr 2
      rw [show (((a, c') :: p :: cs).map Prod.snd).sum = c' + ((p :: cs).map Prod.snd).sum from rfl]
      generalize ((p :: cs).map Prod.snd).sum = v at hv
      have : c' + v ≠ 0 := by positivity
      field_simp

end DirichletPrior

open DirichletPrior

/-- The Dirichlet distribution used below is a distribution over probability distributions on the given symbols. -/
theorem C172_dirichlet (cs : List (α × ℝ)) (hne : cs ≠ []) (hpos : ∀ p ∈ cs, 0 < p.2) (hn : (cs.map Prod.fst).Nodup) :
    IsProbabilityMeasure (dirichlet cs) ∧ ∀ᵐ p ∂dirichlet cs, (∀ b ∈ cs.map Prod.fst, 0 ≤ p b) ∧ ((cs.map Prod.fst).map p).sum = 1 := by
  refine ⟨isProb hpos, ?_⟩
  filter_upwards [(List.finite_toSet (cs.map Prod.fst)).eventually_all.mpr fun b _ => ae_nonneg hpos b, ae_sum hne hpos hn] with p h1 h2
  exact ⟨h1, h2⟩

/-- **C172 (posterior of KT).** Take the distributions on the alphabet with the Dirichlet distribution of the initial counts as prior.  Whatever unit-weight
updates `KT` gets, the expectation under the prior of any function times the likelihood is the probability it has reported times the expectation under the
Dirichlet distribution with its current counts. -/
theorem C172_KT_posterior (A : List α) (hA : A.Nodup) (hne : A ≠ []) (counts : Option (PyDict α ℝ)) (hc : CountsOk A counts) (xs : List (Obs α))
    (hx : ∀ o ∈ xs, o.sym ∈ A ∧ o.weight = 1) :
    ∃ s0 r s, KT.init A counts = .ok s0 ∧ KT.predictor.run s0 xs = .ok (r, s) ∧ s0.counts.keys = A ∧ (∀ p ∈ s0.counts, 0 < p.2) ∧
      ∀ f : (α → ℝ) → ℝ≥0∞, Measurable f →
        ∫⁻ p, f p * (xs.map fun o => ENNReal.ofReal (p o.sym)).prod ∂dirichlet s0.counts = ENNReal.ofReal (Real.exp r) * ∫⁻ p, f p ∂dirichlet s.counts := by
  obtain ⟨s0, h0, hg⟩ := kt_init_good hA hne hc
  have key : ∀ (xs : List (Obs α)) (s0 : KT α), KT.Good A s0 → (∀ o ∈ xs, o.sym ∈ A ∧ o.weight = 1) → ∃ r s, KT.predictor.run s0 xs = .ok (r, s) ∧
      ∀ f : (α → ℝ) → ℝ≥0∞, Measurable f →
        ∫⁻ p, f p * (xs.map fun o => ENNReal.ofReal (p o.sym)).prod ∂dirichlet s0.counts =
          ENNReal.ofReal (Real.exp r) * ∫⁻ p, f p ∂dirichlet s.counts := by
    intro xs
    induction xs with
    | nil => exact fun s0 _ _ => ⟨0, s0, rfl, fun f _ => by simp⟩
    | cons o os ih =>
      intro s0 hg hx
      obtain ⟨ho, hw⟩ := hx o List.mem_cons_self
      obtain ⟨c, hc, hc0⟩ := hg.get ho
      have hS := hg.sum_pos (List.ne_nil_of_mem ho)
      obtain ⟨r, s, hr, hf⟩ := ih _ (hg.step ho hc (w := 1) (by norm_num)) fun o h => hx o (List.mem_cons_of_mem _ h)
      refine ⟨Real.log (c / s0.sumCounts) + r, s, Predictor.run_cons_ok.mpr ⟨_, _, _, ?_, hr, rfl⟩, fun f hm => ?_⟩
      · rw [hw]
        exact hg.update ho hc 1
      · have hl : ∀ l : List (Obs α), Measurable fun p : α → ℝ => (l.map fun o => ENNReal.ofReal (p o.sym)).prod := by
          intro l
          induction l with
          | nil => exact measurable_const
          | cons x l ih =>
            simp only [List.map_cons, List.prod_cons]
            exact (measurable_pi_apply x.sym).ennreal_ofReal.mul ih
        have e := step (cs := s0.counts) hg.pos hc (f := fun p => f p * (os.map fun o => ENNReal.ofReal (p o.sym)).prod) (hm.mul (hl os))
        rw [hf f hm] at e
        have hsum : (s0.counts.map Prod.snd).sum = s0.sumCounts := hg.sum.symm
        rw [hsum] at e
        rw [Real.exp_add, Real.exp_log (by positivity), ENNReal.ofReal_mul (by positivity), mul_assoc, ← e]
        refine lintegral_congr fun p => ?_
        simp only [List.map_cons, List.prod_cons]
        ring
  obtain ⟨r, s, hr, hf⟩ := key xs s0 hg hx
  exact ⟨s0, r, s, h0, hr, hg.keys, hg.pos, hf⟩

/-- **C172 (probability of KT).** The probability that `KT` reports for a sequence is that of independent draws from a distribution which is itself drawn
from the Dirichlet distribution with the initial counts, by default one over the number of symbols. -/
theorem C172_KT_probability (A : List α) (hA : A.Nodup) (hne : A ≠ []) (counts : Option (PyDict α ℝ)) (hc : CountsOk A counts) (xs : List (Obs α))
    (hx : ∀ o ∈ xs, o.sym ∈ A ∧ o.weight = 1) :
    ∃ s0 r s, KT.init A counts = .ok s0 ∧ KT.predictor.run s0 xs = .ok (r, s) ∧
      Real.exp r = ∫ p, (xs.map fun o => p o.sym).prod ∂dirichlet s0.counts := by
  obtain ⟨s0, r, s, h0, hr, hk, hp, hf⟩ := C172_KT_posterior A hA hne counts hc xs hx
  refine ⟨s0, r, s, h0, hr, ?_⟩
  obtain ⟨s0', h0', hg⟩ := kt_init_good hA hne hc
  rw [h0] at h0'
  cases h0'
  have hgs : KT.Good A s := by
    obtain ⟨r', s', hr', hg'⟩ := (KT.lawful hA hne).run_ok hg (xs := xs) fun o ho => ⟨(hx o ho).1, by rw [(hx o ho).2]; norm_num⟩
    rw [hr] at hr'
    cases hr'
    exact hg'
  have := isProb (cs := s.counts) hgs.pos
  have h := hf (fun _ => 1) measurable_const
  simp only [one_mul, lintegral_const, measure_univ, mul_one] at h
  have hl : ∀ l : List (Obs α), Measurable fun p : α → ℝ => (l.map fun o => p o.sym).prod := by
    intro l
    induction l with
    | nil => exact measurable_const
    | cons x l ih =>
      simp only [List.map_cons, List.prod_cons]
      exact (measurable_pi_apply x.sym).mul ih
  have hae : ∀ᵐ p ∂dirichlet s0.counts, ∀ o ∈ xs, 0 ≤ p o.sym := by
    filter_upwards [(List.finite_toSet xs).eventually_all.mpr fun (o : Obs α) _ => ae_nonneg (cs := s0.counts) hp o.sym] with p h
    exact h
  have hprod : ∀ p : α → ℝ, ∀ l : List (Obs α), (∀ o ∈ l, 0 ≤ p o.sym) →
      0 ≤ (l.map fun o => p o.sym).prod ∧ ENNReal.ofReal (l.map fun o => p o.sym).prod = (l.map fun o => ENNReal.ofReal (p o.sym)).prod := by
    intro p l
    induction l with
    | nil => simp
    | cons x l ih =>
      intro h
      obtain ⟨i1, i2⟩ := ih fun o ho => h o (List.mem_cons_of_mem _ ho)
      have hx := h x List.mem_cons_self
      simp only [List.map_cons, List.prod_cons]
      exact ⟨mul_nonneg hx i1, by rw [ENNReal.ofReal_mul hx, i2]⟩
  rw [integral_eq_lintegral_of_nonneg_ae (hae.mono fun p h => (hprod p xs h).1) (hl xs).aestronglyMeasurable,
    lintegral_congr_ae (hae.mono fun p h => (hprod p xs h).2), h, ENNReal.toReal_ofReal (Real.exp_pos r).le]

/-- Beside C172: `KT` over three symbols gives 0, 1 the probability 1/18, the expectation of the product of two shares of a stick divided with the
parameters 1/3, 1/3 and 1/3. -/
example : ∃ s0 r s, KT.init [0, 1, (2 : ℕ)] none = .ok s0 ∧ KT.predictor.run s0 [⟨0, [], 1⟩, ⟨1, [0], 1⟩] = .ok (r, s) ∧ Real.exp r = 1 / 18 ∧
    s0.counts = [(0, 1 / 3), (1, 1 / 3), (2, 1 / 3)] ∧ ∫ p, p 0 * p 1 ∂dirichlet [(0, (1 / 3 : ℝ)), (1, 1 / 3), ((2 : ℕ), 1 / 3)] = 1 / 18 := by
  obtain ⟨s0, r, s, h0, hr, e⟩ := C172_KT_probability [0, 1, (2 : ℕ)] (by decide) (by simp) none trivial [⟨0, [], 1⟩, ⟨1, [0], 1⟩] (by simp)
  have hi := KT.init_default (A := [0, 1, (2 : ℕ)]) (by decide) (by simp)
  rw [h0] at hi
  have hs : s0.counts = [(0, 1 / 3), (1, 1 / 3), (2, 1 / 3)] := by
    cases hi
    norm_num
  have hg := KT.good_default (A := [0, 1, (2 : ℕ)]) (by simp)
  have hv : Real.exp r = 1 / 18 := by
    cases hi
    obtain ⟨r1, s1, r2, h1, h2, rfl⟩ := Predictor.run_cons_ok.mp hr
    obtain ⟨r3, s2, r4, h3, h4, rfl⟩ := Predictor.run_cons_ok.mp h2
    have u1 := hg.update (a := 0) (by simp) (c := 1 / 3) (by norm_num [PyDict.get?]) 1
    have g1 := hg.step (a := 0) (by simp) (c := 1 / 3) (by norm_num [PyDict.get?]) (w := 1) (by norm_num)
    change KT.update _ 0 1 = _ at h1
    rw [u1] at h1
    cases h1
    have u2 := g1.update (a := 1) (by simp) (c := 1 / 3) (by norm_num [PyDict.get?, PyDict.set]) 1
    change KT.update _ 1 1 = _ at h3
    rw [u2] at h3
    cases h3
    cases h4
    have e1 := hg.sum
    rw [Real.exp_add, Real.exp_add, Real.exp_log, Real.exp_log]
    all_goals norm_num [hg.sum]
  refine ⟨s0, r, s, h0, hr, hv, hs, ?_⟩
  rw [hs] at e
  rw [← hv, e]
  simp

end Verif
