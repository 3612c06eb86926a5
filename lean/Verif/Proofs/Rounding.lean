import Verif.Model.Rounding
import Verif.Proofs.LogSumExp
import Mathlib.Analysis.Complex.ExponentialBounds
import Mathlib.Algebra.BigOperators.Group.Finset.Basic
import Mathlib.Algebra.Order.BigOperators.Group.Finset
import Mathlib.Data.Fintype.BigOperators
import Mathlib.Tactic.Linarith
import Mathlib.Tactic.Positivity

/-! Lemmas about rounded arithmetic. -/

namespace Verif

namespace Arith

variable {R : Arith} {ε : ℝ}

/-! ### Positive numbers up to a factor -/

/-- `y` is `x` up to the factor `exp t`. -/
def Near (t y x : ℝ) : Prop := 0 < x ∧ x * Real.exp (-t) ≤ y ∧ y ≤ x * Real.exp t

theorem Near.pos {t y x : ℝ} (h : Near t y x) : 0 < y :=
  lt_of_lt_of_le (mul_pos h.1 (Real.exp_pos _)) h.2.1

theorem Near.refl {x : ℝ} (h : 0 < x) : Near 0 x x := by
  refine ⟨h, ?_, ?_⟩ <;> simp

theorem Near.mono {t t' y x : ℝ} (h : Near t y x) (ht : t ≤ t') : Near t' y x := by
  obtain ⟨h1, h2, h3⟩ := h
  refine ⟨h1, le_trans ?_ h2, le_trans h3 ?_⟩
  · exact mul_le_mul_of_nonneg_left (Real.exp_le_exp.mpr (by linarith)) h1.le
  · exact mul_le_mul_of_nonneg_left (Real.exp_le_exp.mpr ht) h1.le

theorem Near.add {t y x y' x' : ℝ} (h : Near t y x) (h' : Near t y' x') : Near t (y + y') (x + x') := by
  obtain ⟨h1, h2, h3⟩ := h
  obtain ⟨h1', h2', h3'⟩ := h'
  refine ⟨by linarith, ?_, ?_⟩
  · rw [add_mul]; linarith
  · rw [add_mul]; linarith

theorem Near.div {t s y x y' x' : ℝ} (h : Near t y x) (h' : Near s y' x') : Near (t + s) (y / y') (x / x') := by
  have hy := h.pos
  have hy' := h'.pos
  obtain ⟨h1, h2, h3⟩ := h
  obtain ⟨h1', h2', h3'⟩ := h'
  refine ⟨div_pos h1 h1', ?_, ?_⟩
  · rw [div_mul_eq_mul_div, div_le_div_iff₀ h1' hy', neg_add, Real.exp_add]
    calc x * (Real.exp (-t) * Real.exp (-s)) * y' = (x * Real.exp (-t)) * (y' * Real.exp (-s)) := by ring
      _ ≤ y * x' := by
        refine mul_le_mul h2 ?_ (by positivity) hy.le
        calc y' * Real.exp (-s) ≤ x' * Real.exp s * Real.exp (-s) := mul_le_mul_of_nonneg_right h3' (Real.exp_pos _).le
          _ = x' := by rw [mul_assoc, ← Real.exp_add, add_neg_cancel, Real.exp_zero, mul_one]
  · rw [div_mul_eq_mul_div, div_le_div_iff₀ hy' h1', Real.exp_add]
    calc y * x' ≤ (x * Real.exp t) * (y' * Real.exp s) := by
          refine mul_le_mul h3 ?_ h1'.le (by positivity)
          calc x' = x' * Real.exp (-s) * Real.exp s := by
                rw [mul_assoc, ← Real.exp_add, neg_add_cancel, Real.exp_zero, mul_one]
            _ ≤ y' * Real.exp s := mul_le_mul_of_nonneg_right h2' (Real.exp_pos _).le
      _ = x * (Real.exp t * Real.exp s) * y' := by ring

theorem exp_neg_two_le {ε : ℝ} (h0 : 0 ≤ ε) (h1 : ε ≤ 1 / 16) : Real.exp (-(2 * ε)) ≤ 1 - ε := by
  have hp : 0 < 1 - ε := by linarith
  rw [← Real.log_le_log_iff (Real.exp_pos _) hp, Real.log_exp]
  have := Real.one_sub_inv_le_log_of_pos hp
  refine le_trans ?_ this
  rw [show (1 : ℝ) - (1 - ε)⁻¹ = -(ε / (1 - ε)) by field_simp; ring, neg_le_neg_iff, div_le_iff₀ hp]
  nlinarith

theorem le_exp_two {ε : ℝ} (h0 : 0 ≤ ε) : 1 + ε ≤ Real.exp (2 * ε) := by
  have := Real.add_one_le_exp (2 * ε)
  linarith

/-- One rounding. -/
theorem Near.round (hR : R.Accurate ε) {t y x z : ℝ} (h : Near t y x) (hz : |z - y| ≤ ε * |y|) : Near (t + 2 * ε) z x := by
  have hy := h.pos
  rw [abs_of_pos hy, abs_le] at hz
  obtain ⟨h1, h2, h3⟩ := h
  have e1 := exp_neg_two_le hR.nonneg hR.small
  have e2 := le_exp_two hR.nonneg
  refine ⟨h1, ?_, ?_⟩
  · rw [neg_add, Real.exp_add, ← mul_assoc]
    calc x * Real.exp (-t) * Real.exp (-(2 * ε)) ≤ y * (1 - ε) := mul_le_mul h2 e1 (Real.exp_pos _).le hy.le
      _ ≤ z := by linarith [hz.1]
  · rw [Real.exp_add, ← mul_assoc]
    calc z ≤ y * (1 + ε) := by linarith [hz.2]
      _ ≤ x * Real.exp t * Real.exp (2 * ε) := mul_le_mul h3 e2 (by linarith [hR.nonneg]) (by positivity)

theorem Near.log {t y x : ℝ} (h : Near t y x) : |Real.log y - Real.log x| ≤ t := by
  have hy := h.pos
  obtain ⟨h1, h2, h3⟩ := h
  rw [abs_le]
  constructor
  · have := Real.log_le_log (by positivity) h2
    rw [Real.log_mul h1.ne' (Real.exp_pos _).ne', Real.log_exp] at this
    linarith
  · have := Real.log_le_log hy h3
    rw [Real.log_mul h1.ne' (Real.exp_pos _).ne', Real.log_exp] at this
    linarith

/-- Two numbers which are not small have near logarithms. -/
theorem abs_log_sub_le {x y c : ℝ} (hc : 0 < c) (hx : c ≤ x) (hy : c ≤ y) : |Real.log x - Real.log y| ≤ |x - y| / c := by
  have key : ∀ x y : ℝ, c ≤ x → c ≤ y → Real.log x - Real.log y ≤ |x - y| / c := by
    intro x y hx hy
    have hx0 : 0 < x := lt_of_lt_of_le hc hx
    have hy0 : 0 < y := lt_of_lt_of_le hc hy
    rw [← Real.log_div hx0.ne' hy0.ne']
    calc Real.log (x / y) ≤ x / y - 1 := Real.log_le_sub_one_of_pos (div_pos hx0 hy0)
      _ = (x - y) / y := by field_simp
      _ ≤ |x - y| / y := div_le_div_of_nonneg_right (le_abs_self _) hy0.le
      _ ≤ |x - y| / c := div_le_div_of_nonneg_left (abs_nonneg _) hc hy
  rw [abs_le]
  constructor
  · have := key y x hy hx
    rw [abs_sub_comm] at this
    linarith
  · exact key x y hx hy

theorem abs_exp_sub_le {a b m : ℝ} (ha : a ≤ m) (hb : b ≤ m) : |Real.exp a - Real.exp b| ≤ |a - b| * Real.exp m := by
  have key : ∀ a b : ℝ, a ≤ m → Real.exp a - Real.exp b ≤ |a - b| * Real.exp m := by
    intro a b ha
    have h1 := Real.add_one_le_exp (b - a)
    have h2 : Real.exp b = Real.exp a * Real.exp (b - a) := by rw [← Real.exp_add]; ring_nf
    have h3 := Real.exp_pos a
    calc Real.exp a - Real.exp b = Real.exp a * (1 - Real.exp (b - a)) := by rw [h2]; ring
      _ ≤ Real.exp a * |a - b| := mul_le_mul_of_nonneg_left (by have := le_abs_self (a - b); linarith) h3.le
      _ ≤ Real.exp m * |a - b| := mul_le_mul_of_nonneg_right (Real.exp_le_exp.mpr ha) (abs_nonneg _)
      _ = |a - b| * Real.exp m := mul_comm _ _
  rw [abs_le]
  constructor
  · have := key b a hb
    rw [abs_sub_comm] at this
    linarith
  · exact key a b ha

/-! ### `logsumexp2` -/

theorem log_two_le : Real.log 2 ≤ 7 / 10 := by
  have := Real.log_two_lt_d9
  linarith

/-- The logarithm in `logsumexp2`. -/
theorem softplus (hR : R.Accurate ε) {d : ℝ} (hd : d ≤ 0) {d' : ℝ} (hd' : |d' - d| ≤ ε * |d|) :
    ∃ l, R.pyLog (R.add 1 (R.exp d')) = .ok l ∧ |l - Real.log (1 + Real.exp d)| ≤ 7 * ε := by
  have h0 := hR.nonneg
  have h1 := hR.small
  rw [abs_of_nonpos hd] at hd'
  have hdd := abs_le.mp hd'
  have hm : d' ≤ d * (1 - ε) := by nlinarith [hdd.2]
  have hm0 : d * (1 - ε) ≤ 0 := mul_nonpos_of_nonpos_of_nonneg hd (by linarith)
  have hd0 : d' ≤ 0 := le_trans hm hm0
  obtain ⟨he0, he⟩ := hR.exp d' hd0
  have hexp : |Real.exp d' - Real.exp d| ≤ 16 / 15 * ε := by
    refine le_trans (abs_exp_sub_le hm (by nlinarith : d ≤ d * (1 - ε))) ?_
    refine le_trans (mul_le_mul_of_nonneg_right hd' (Real.exp_pos _).le) ?_
    have hz : 0 < 1 + -(d * (1 - ε)) := by linarith
    have h2 : Real.exp (d * (1 - ε)) ≤ 1 / (1 + -(d * (1 - ε))) := by
      rw [le_div_iff₀ hz]
      have h3 := Real.add_one_le_exp (-(d * (1 - ε)))
      have h4 : Real.exp (d * (1 - ε)) * Real.exp (-(d * (1 - ε))) = 1 := by rw [← Real.exp_add]; simp
      nlinarith [Real.exp_pos (d * (1 - ε))]
    refine le_trans (mul_le_mul_of_nonneg_left h2 (by nlinarith)) ?_
    rw [mul_one_div, div_le_iff₀ hz]
    nlinarith [mul_nonneg h0 (neg_nonneg.mpr hd)]
  have he1 : Real.exp d' ≤ 1 := Real.exp_le_one_iff.mpr hd0
  have he2 : Real.exp d ≤ 1 := Real.exp_le_one_iff.mpr hd
  have hed := Real.exp_pos d
  have hA : |R.exp d' - Real.exp d| ≤ 46 / 15 * ε := by
    have : |R.exp d' - Real.exp d'| ≤ 2 * ε := le_trans he (by nlinarith [Real.exp_pos d'])
    calc |R.exp d' - Real.exp d| = |(R.exp d' - Real.exp d') + (Real.exp d' - Real.exp d)| := by ring_nf
      _ ≤ _ := abs_add_le _ _
      _ ≤ 46 / 15 * ε := by linarith
  have hAA := abs_le.mp hA
  have hs := hR.add 1 (R.exp d')
  rw [abs_of_nonneg (by linarith : (0 : ℝ) ≤ 1 + R.exp d')] at hs
  have hss := abs_le.mp hs
  have hS : |R.add 1 (R.exp d') - (1 + Real.exp d)| ≤ 53 / 10 * ε := by
    have h5 : ε * (1 + R.exp d') ≤ 11 / 5 * ε := by nlinarith
    calc |R.add 1 (R.exp d') - (1 + Real.exp d)| = |(R.add 1 (R.exp d') - (1 + R.exp d')) + (R.exp d' - Real.exp d)| := by ring_nf
      _ ≤ _ := abs_add_le _ _
      _ ≤ 53 / 10 * ε := by linarith
  have hlow : 15 / 16 ≤ R.add 1 (R.exp d') := by nlinarith [hss.1]
  have hpos : 0 < R.add 1 (R.exp d') := by linarith
  refine ⟨R.log (R.add 1 (R.exp d')), by rw [Arith.pyLog, if_pos hpos], ?_⟩
  have hlog := abs_log_sub_le (by norm_num : (0 : ℝ) < 15 / 16) hlow (by linarith : 15 / 16 ≤ 1 + Real.exp d)
  have hlog' : |Real.log (R.add 1 (R.exp d')) - Real.log (1 + Real.exp d)| ≤ 57 / 10 * ε := by
    refine le_trans hlog ?_
    rw [div_le_iff₀ (by norm_num)]
    linarith
  have hl2 : |Real.log (1 + Real.exp d)| ≤ 7 / 10 := by
    rw [abs_of_nonneg (Real.log_nonneg (by linarith))]
    exact le_trans (Real.log_le_log (by linarith) (by linarith : 1 + Real.exp d ≤ 2)) log_two_le
  have hb : |Real.log (R.add 1 (R.exp d'))| ≤ 11 / 10 := by
    calc |Real.log (R.add 1 (R.exp d'))| =
          |(Real.log (R.add 1 (R.exp d')) - Real.log (1 + Real.exp d)) + Real.log (1 + Real.exp d)| := by ring_nf
      _ ≤ _ := abs_add_le _ _
      _ ≤ 11 / 10 := by linarith
  have := hR.log _ hpos
  calc |R.log (R.add 1 (R.exp d')) - Real.log (1 + Real.exp d)| =
        |(R.log (R.add 1 (R.exp d')) - Real.log (R.add 1 (R.exp d'))) +
          (Real.log (R.add 1 (R.exp d')) - Real.log (1 + Real.exp d))| := by ring_nf
    _ ≤ _ := abs_add_le _ _
    _ ≤ 7 * ε := by nlinarith

theorem logsumexp2_near (hR : R.Accurate ε) (v1 v2 : ℝ) :
    ∃ l, R.logsumexp2 v1 v2 = .ok l ∧ |l - Verif.logsumexp2 v1 v2| ≤ ε * |Verif.logsumexp2 v1 v2| + 8 * ε := by
  have h0 := hR.nonneg
  have h1 := hR.small
  have key : ∀ x y : ℝ, x ≤ y → ∃ l, R.pyLog (R.add 1 (R.exp (R.sub x y))) = .ok l ∧
      |R.add y l - (y + Real.log (1 + Real.exp (x - y)))| ≤ ε * |y + Real.log (1 + Real.exp (x - y))| + 8 * ε := by
    intro x y hxy
    obtain ⟨l, hl, hn⟩ := softplus hR (by linarith : x - y ≤ 0) (hR.sub x y)
    refine ⟨l, hl, ?_⟩
    generalize Real.log (1 + Real.exp (x - y)) = L at hn ⊢
    have ha := hR.add y l
    have hb : |y + l| ≤ |y + L| + 7 * ε := by
      calc |y + l| = |(y + L) + (l - L)| := by ring_nf
        _ ≤ _ := abs_add_le _ _
        _ ≤ _ := by linarith
    calc |R.add y l - (y + L)| = |(R.add y l - (y + l)) + (l - L)| := by ring_nf
      _ ≤ _ := abs_add_le _ _
      _ ≤ ε * |y + L| + 8 * ε := by nlinarith
  unfold Arith.logsumexp2 Verif.logsumexp2
  split_ifs with h
  · obtain ⟨l, hl, hn⟩ := key v1 v2 h.le
    exact ⟨_, by rw [hl]; rfl, hn⟩
  · obtain ⟨l, hl, hn⟩ := key v2 v1 (not_lt.mp h)
    exact ⟨_, by rw [hl]; rfl, hn⟩

theorem logsumexp2_le {a b a' b' t : ℝ} (ha : a ≤ a' + t) (hb : b ≤ b' + t) : Verif.logsumexp2 a b ≤ Verif.logsumexp2 a' b' + t := by
  rw [logsumexp2_eq, logsumexp2_eq, ← Real.log_exp t, ← Real.log_mul (by positivity) (by positivity)]
  apply Real.log_le_log (by positivity)
  rw [add_mul, ← Real.exp_add, ← Real.exp_add]
  exact add_le_add (Real.exp_le_exp.mpr ha) (Real.exp_le_exp.mpr hb)

/-- `logsumexp2` does not magnify errors. -/
theorem logsumexp2_lipschitz {a b a' b' t : ℝ} (ha : |a - a'| ≤ t) (hb : |b - b'| ≤ t) :
    |Verif.logsumexp2 a b - Verif.logsumexp2 a' b'| ≤ t := by
  rw [abs_le] at *
  constructor
  · have := logsumexp2_le (a := a') (b := b') (a' := a) (b' := b) (t := t) (by linarith [ha.1]) (by linarith [hb.1])
    linarith
  · have := logsumexp2_le (a := a) (b := b) (a' := a') (b' := b') (t := t) (by linarith [ha.2]) (by linarith [hb.2])
    linarith

/-- The weighted sum of two log probabilities is between them. -/
theorem half_bound {a b M : ℝ} (ha : |a| ≤ M) (hb : |b| ≤ M) : |log05 + Verif.logsumexp2 a b| ≤ M := by
  have h := logsumexp2_lipschitz (a := a) (b := b) (a' := 0) (b' := 0) (t := M) (by simpa using ha) (by simpa using hb)
  have h0 : log05 + Verif.logsumexp2 0 0 = 0 := logsumexp2_self 0
  rwa [show log05 + Verif.logsumexp2 a b = Verif.logsumexp2 a b - Verif.logsumexp2 0 0 by linarith]

theorem log05_abs : |log05| ≤ 7 / 10 := by
  have : log05 = -Real.log 2 := by rw [log05, one_div, Real.log_inv]
  rw [this, abs_neg, abs_of_pos (Real.log_pos (by norm_num))]
  exact log_two_le

/-- The step of a node. -/
theorem half_near (hR : R.Accurate ε) {b c b' c' t G : ℝ} (hb : |b' - b| ≤ t) (hc : |c' - c| ≤ t) (hbG : |b'| + 2 ≤ G)
    (hcG : |c'| + 2 ≤ G) :
    ∃ l, R.logsumexp2 b' c' = .ok l ∧ |R.add (R.log (1 / 2)) l - (log05 + Verif.logsumexp2 b c)| ≤ t + 8 * (ε * G) := by
  have h0 := hR.nonneg
  have h1 := hR.small
  obtain ⟨l, hl, hn⟩ := logsumexp2_near hR b' c'
  refine ⟨l, hl, ?_⟩
  have hlip := logsumexp2_lipschitz hb hc
  have hx : |log05 + Verif.logsumexp2 b' c'| ≤ G - 2 := half_bound (by linarith) (by linarith)
  have h5 := log05_abs
  have hlog : |R.log (1 / 2) - log05| ≤ 7 / 10 * ε := by
    have := hR.log (1 / 2) (by norm_num)
    rw [show Real.log (1 / 2) = log05 from rfl] at this
    nlinarith
  generalize R.log (1 / 2) = L at *
  generalize hX : Verif.logsumexp2 b' c' = X at *
  generalize Verif.logsumexp2 b c = Y at *
  have hXG : |X| ≤ G := by
    calc |X| = |(log05 + X) + -log05| := by ring_nf
      _ ≤ _ := abs_add_le _ _
      _ ≤ G := by rw [abs_neg]; linarith
  have hG : 2 ≤ G := by linarith [abs_nonneg b']
  have hl2 : |l - X| ≤ ε * G + 8 * ε := le_trans hn (by nlinarith)
  have hadd := hR.add L l
  have hs : |(L + l) - (log05 + X)| ≤ ε * G + 9 * ε := by
    calc |(L + l) - (log05 + X)| = |(L - log05) + (l - X)| := by ring_nf
      _ ≤ _ := abs_add_le _ _
      _ ≤ _ := by linarith
  have hLl : |L + l| ≤ 3 / 2 * G := by
    calc |L + l| = |((L + l) - (log05 + X)) + (log05 + X)| := by ring_nf
      _ ≤ _ := abs_add_le _ _
      _ ≤ 3 / 2 * G := by nlinarith
  calc |R.add L l - (log05 + Y)| = |(R.add L l - (L + l)) + (((L + l) - (log05 + X)) + (X - Y))| := by ring_nf
    _ ≤ |R.add L l - (L + l)| + |((L + l) - (log05 + X)) + (X - Y)| := abs_add_le _ _
    _ ≤ |R.add L l - (L + l)| + (|(L + l) - (log05 + X)| + |X - Y|) := by linarith [abs_add_le ((L + l) - (log05 + X)) (X - Y)]
    _ ≤ t + 8 * (ε * G) := by nlinarith

end Arith

end Verif
