import Verif.Proofs.KTRedundancy
import Mathlib.Analysis.Real.Pi.Bounds
import Mathlib.Analysis.Complex.ExponentialBounds

/-! The redundancy of the KT estimator from below. -/

namespace Verif

open Real Stirling

namespace Redundancy

theorem rise_le (a : ℕ) : rise a * √(3 * a + 1) ≤ (a.factorial : ℝ) := by
  induction a with
  | zero => simp [rise]
  | succ a ih =>
    rw [rise_succ, Nat.factorial_succ]
    push_cast
    have h1 : ((a : ℝ) + 1 / 2) * √(3 * (a + 1) + 1) ≤ (a + 1) * √(3 * a + 1) := by
      have ha : (0 : ℝ) ≤ a := by positivity
      have e1 := Real.sq_sqrt (show (0 : ℝ) ≤ 3 * (a + 1) + 1 by positivity)
      have e2 := Real.sq_sqrt (show (0 : ℝ) ≤ 3 * (a : ℝ) + 1 by positivity)
      refine (pow_le_pow_iff_left₀ (by positivity) (by positivity) two_ne_zero).mp ?_
      rw [mul_pow, mul_pow, e1, e2]
      nlinarith
    calc rise a * (a + 1 / 2) * √(3 * (a + 1) + 1) = rise a * ((a + 1 / 2) * √(3 * (a + 1) + 1)) := by ring
      _ ≤ rise a * ((a + 1) * √(3 * a + 1)) := mul_le_mul_of_nonneg_left h1 (rise_pos a).le
      _ = (a + 1) * (rise a * √(3 * a + 1)) := by ring
      _ ≤ (a + 1) * a.factorial := mul_le_mul_of_nonneg_left ih (by positivity)

theorem pow_self_pos (c : ℕ) : (0 : ℝ) < (c : ℝ) ^ c := by
  rcases Nat.eq_zero_or_pos c with rfl | hc
  · norm_num
  · have : (0 : ℝ) < c := by exact_mod_cast hc
    positivity

theorem ratio_le (a : ℕ) : ratio a * √3 ≤ exp 1 := by
  rcases Nat.eq_zero_or_pos a with rfl | ha
  · have h1 : √3 ≤ 2 := by
      rw [Real.sqrt_le_left (by norm_num)]
      norm_num
    have := two_le_e
    simp only [ratio, rise, Finset.range_zero, Finset.prod_empty]
    norm_num
    linarith
  · have ha' : (0 : ℝ) < a := by exact_mod_cast ha
    have h1 := (rise_le a).trans (factorial_le ha)
    have h2 : √3 * √a ≤ √(3 * a + 1) := by
      rw [← Real.sqrt_mul (by norm_num)]
      exact Real.sqrt_le_sqrt (by linarith)
    have h3 : rise a * (√3 * √a) ≤ exp 1 * √a * ((a : ℝ) / exp 1) ^ a := (mul_le_mul_of_nonneg_left h2 (rise_pos a).le).trans h1
    have hs : 0 < √(a : ℝ) := Real.sqrt_pos.mpr ha'
    have hE : (0 : ℝ) < exp 1 ^ a := by positivity
    rw [div_pow, mul_div_assoc', le_div_iff₀ hE] at h3
    unfold ratio
    rw [div_mul_eq_mul_div, div_le_iff₀ (pow_self_pos a)]
    refine le_of_mul_le_mul_right (a := √(a : ℝ)) ?_ hs
    linarith

theorem const_le : exp 1 * exp 1 ≤ 3 * √(2 * π) := by
  have h1 : exp 1 < 2.7182818286 := Real.exp_one_lt_d9
  have h2 : 3.14 < π := Real.pi_gt_d2
  have h3 : (2.5 : ℝ) ≤ √(2 * π) := by
    rw [Real.le_sqrt (by norm_num) (by positivity)]
    nlinarith
  have := Real.exp_pos 1
  nlinarith

/-- The KT estimator gives at most `1 / √n` of what the best coin gives. -/
theorem ktP_upper (a b : ℕ) :
    √((a + b : ℕ) : ℝ) * ktP a b * ((a + b : ℕ) : ℝ) ^ (a + b) ≤ (a : ℝ) ^ a * (b : ℝ) ^ b := by
  have hf := le_factorial_stirling (a + b)
  have hF : (0 : ℝ) < ((a + b).factorial : ℝ) := by positivity
  have hE : (0 : ℝ) < exp 1 ^ (a + b) := by positivity
  have h3 : (√3 : ℝ) * √3 = 3 := Real.mul_self_sqrt (by norm_num)
  have hr : ratio a * ratio b ≤ √(2 * π) := by
    have h1 := mul_le_mul (ratio_le a) (ratio_le b) (by have := one_le_ratio b; positivity) (Real.exp_pos 1).le
    have h2 : ratio a * √3 * (ratio b * √3) = 3 * (ratio a * ratio b) := by
      linear_combination (ratio a * ratio b) * h3
    rw [h2] at h1
    have := const_le
    linarith
  unfold ratio at hr
  rw [div_mul_div_comm, div_le_iff₀ (mul_pos (pow_self_pos a) (pow_self_pos b))] at hr
  rw [Real.sqrt_mul (by positivity), div_pow, mul_div_assoc', div_le_iff₀ hE] at hf
  unfold ktP
  rw [mul_div_assoc', div_mul_eq_mul_div, div_le_iff₀ hF]
  have hpi : 0 < √(2 * π) := by positivity
  refine le_of_mul_le_mul_left (a := √(2 * π)) ?_ hpi
  have h4 := mul_le_mul_of_nonneg_left hf (mul_pos (rise_pos a) (rise_pos b)).le
  have h5 := mul_le_mul_of_nonneg_right hr hF.le
  rw [pow_add (exp 1)] at h4
  nlinarith

theorem bern_best {a b : ℕ} (h : 1 ≤ a + b) :
    √((a + b : ℕ) : ℝ) * ktP a b ≤ (1 - (b : ℝ) / ((a + b : ℕ) : ℝ)) ^ a * ((b : ℝ) / ((a + b : ℕ) : ℝ)) ^ b := by
  have hn : (0 : ℝ) < ((a + b : ℕ) : ℝ) := by exact_mod_cast h
  have e : 1 - (b : ℝ) / ((a + b : ℕ) : ℝ) = a / ((a + b : ℕ) : ℝ) := by
    rw [eq_div_iff hn.ne', sub_mul, div_mul_cancel₀ _ hn.ne']
    push_cast
    ring
  rw [e, div_pow, div_pow, div_mul_div_comm, ← pow_add, le_div_iff₀ (by positivity)]
  exact ktP_upper a b

end Redundancy

end Verif
