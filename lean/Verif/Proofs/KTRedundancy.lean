import Verif.Spec.Bernoulli
import Verif.Proofs.CTWPure
import Verif.Proofs.KT
import Mathlib.Analysis.SpecialFunctions.Stirling
import Mathlib.Analysis.SpecialFunctions.Arsinh

/-! The redundancy of the KT estimator. -/

namespace Verif

open Real Stirling

namespace Redundancy

/-- `(1/2)(3/2)...(a - 1/2)`. -/
noncomputable def rise (a : ℕ) : ℝ := ∏ i ∈ Finset.range a, ((i : ℝ) + 1 / 2)

theorem rise_succ (a : ℕ) : rise (a + 1) = rise a * ((a : ℝ) + 1 / 2) := Finset.prod_range_succ _ _

theorem rise_pos (a : ℕ) : 0 < rise a := Finset.prod_pos fun i _ => by positivity

/-- `log u` is at most `(u - 1/u) / 2` for `u` at least one. -/
theorem log_le_half {u : ℝ} (hu : 1 ≤ u) : Real.log u ≤ (u - u⁻¹) / 2 := by
  have h0 : 0 ≤ Real.log u := Real.log_nonneg hu
  have := Real.self_le_sinh_iff.mpr h0
  rwa [Real.sinh_log (by linarith)] at this

theorem half_le_log {u : ℝ} (h0 : 0 < u) (hu : u ≤ 1) : (u - u⁻¹) / 2 ≤ Real.log u := by
  have h1 : Real.log u ≤ 0 := Real.log_nonpos h0.le hu
  have := Real.sinh_le_self_iff.mpr h1
  rwa [Real.sinh_log h0] at this

theorem step_bound {a : ℕ} (ha : 1 ≤ a) :
    ((a : ℝ) + 1) ^ (a + 1) ≤ ((a : ℝ) + 1 / 2) * Real.exp 1 * (a : ℝ) ^ a := by
  have ha' : (1 : ℝ) ≤ a := by exact_mod_cast ha
  have hm : (0 : ℝ) < (a : ℝ) + 1 / 2 := by linarith
  have h1 := log_le_half (u := ((a : ℝ) + 1) / (a + 1 / 2)) ((one_le_div hm).mpr (by linarith))
  have h2 := half_le_log (u := (a : ℝ) / (a + 1 / 2)) (by positivity) ((div_le_one hm).mpr (by linarith))
  rw [Real.log_div (by positivity) hm.ne', inv_div] at h1 h2
  have k1 : ((a : ℝ) + 1) * ((((a : ℝ) + 1) / (a + 1 / 2) - (a + 1 / 2) / ((a : ℝ) + 1)) / 2) =
      ((a : ℝ) + 3 / 4) / (2 * (a + 1 / 2)) := by
    field_simp
    ring
  have k2 : (a : ℝ) * (((a : ℝ) / (a + 1 / 2) - (a + 1 / 2) / (a : ℝ)) / 2) = - ((a : ℝ) + 1 / 4) / (2 * (a + 1 / 2)) := by
    field_simp
    ring
  have e1 := mul_le_mul_of_nonneg_left h1 (show (0 : ℝ) ≤ (a : ℝ) + 1 by positivity)
  have e2 := mul_le_mul_of_nonneg_left h2 (show (0 : ℝ) ≤ (a : ℝ) by positivity)
  rw [k1] at e1
  rw [k2] at e2
  have k3 : ((a : ℝ) + 3 / 4) / (2 * (a + 1 / 2)) - (- ((a : ℝ) + 1 / 4) / (2 * (a + 1 / 2))) = 1 := by
    field_simp
    ring
  have hp1 : (0 : ℝ) < ((a : ℝ) + 1) ^ (a + 1) := by positivity
  rw [← Real.log_le_log_iff hp1 (by positivity), Real.log_mul (by positivity) (by positivity),
    Real.log_mul hm.ne' (Real.exp_pos 1).ne', Real.log_exp, Real.log_pow, Real.log_pow]
  push_cast
  linarith

/-- `rise a (e/a)^a`, which increases. -/
noncomputable def ratio (a : ℕ) : ℝ := rise a * Real.exp 1 ^ a / (a : ℝ) ^ a

theorem two_le_e : (2 : ℝ) ≤ Real.exp 1 := by
  have := Real.add_one_le_exp (1 : ℝ)
  linarith

theorem ratio_step (a : ℕ) : ratio a ≤ ratio (a + 1) := by
  have hr := rise_pos a
  rcases Nat.eq_zero_or_pos a with rfl | ha
  · have := two_le_e
    simp only [ratio, rise, Finset.range_zero, Finset.prod_empty]
    norm_num
    linarith
  · have hb := step_bound ha
    have ha' : (0 : ℝ) < a := by exact_mod_cast ha
    unfold ratio
    rw [rise_succ, div_le_div_iff₀ (by positivity) (by positivity), pow_succ (Real.exp 1)]
    push_cast
    have : 0 ≤ rise a * Real.exp 1 ^ a := by positivity
    nlinarith [mul_le_mul_of_nonneg_left hb this]

theorem ratio_mono : Monotone ratio := monotone_nat_of_le_succ ratio_step

theorem one_le_ratio (a : ℕ) : 1 ≤ ratio a := by
  have := ratio_mono (Nat.zero_le a)
  simpa [ratio, rise] using this

theorem half_e_le_ratio {a : ℕ} (ha : 1 ≤ a) : Real.exp 1 / 2 ≤ ratio a := by
  have := ratio_mono ha
  simp only [ratio, rise, Finset.prod_range_one] at this
  norm_num at this
  norm_num [ratio, rise]
  linarith

theorem half_e_le {a b : ℕ} (h : 1 ≤ a + b) : Real.exp 1 / 2 ≤ ratio a * ratio b := by
  have ha := one_le_ratio a
  have hb := one_le_ratio b
  rcases Nat.eq_zero_or_pos a with rfl | h0
  · have := half_e_le_ratio (a := b) (by omega)
    nlinarith
  · have := half_e_le_ratio h0
    have := Real.exp_pos 1
    nlinarith

theorem factorial_le {n : ℕ} (hn : 1 ≤ n) :
    (n.factorial : ℝ) ≤ Real.exp 1 * Real.sqrt n * ((n : ℝ) / Real.exp 1) ^ n := by
  obtain ⟨k, rfl⟩ := Nat.exists_eq_add_of_le' hn
  have h := stirlingSeq'_antitone (Nat.zero_le k)
  simp only [Function.comp, Nat.succ_eq_add_one, zero_add, stirlingSeq_one] at h
  unfold stirlingSeq at h
  have hn' : (0 : ℝ) < ((k + 1 : ℕ) : ℝ) := by positivity
  have hD : 0 < Real.sqrt (2 * ((k + 1 : ℕ) : ℝ)) * (((k + 1 : ℕ) : ℝ) / Real.exp 1) ^ (k + 1) := by positivity
  rw [div_le_iff₀ hD] at h
  refine h.trans_eq ?_
  rw [Real.sqrt_mul (by norm_num)]
  have : Real.sqrt 2 ≠ 0 := by positivity
  field_simp

/-- The probability that the KT estimator gives to a sequence with `a` zeros and `b` ones. -/
noncomputable def ktP (a b : ℕ) : ℝ := rise a * rise b / ((a + b).factorial : ℝ)

theorem ktP_lower {a b : ℕ} (h : 1 ≤ a + b) :
    (a : ℝ) ^ a * (b : ℝ) ^ b ≤ 2 * Real.sqrt ((a + b : ℕ) : ℝ) * ((a + b : ℕ) : ℝ) ^ (a + b) * ktP a b := by
  have hf := factorial_le h
  have hn : (0 : ℝ) < ((a + b : ℕ) : ℝ) := by exact_mod_cast h
  have hs : 0 < Real.sqrt ((a + b : ℕ) : ℝ) := Real.sqrt_pos.mpr hn
  have hF : (0 : ℝ) < ((a + b).factorial : ℝ) := by positivity
  have hpow : ∀ c : ℕ, (0 : ℝ) < (c : ℝ) ^ c := by
    intro c
    rcases Nat.eq_zero_or_pos c with rfl | hc
    · norm_num
    · have : (0 : ℝ) < c := by exact_mod_cast hc
      positivity
  have hr := half_e_le h
  unfold ratio at hr
  rw [div_mul_div_comm, le_div_iff₀ (mul_pos (hpow a) (hpow b))] at hr
  unfold ktP
  rw [mul_div_assoc', le_div_iff₀ hF]
  have hE : (0 : ℝ) < Real.exp 1 ^ (a + b) := by positivity
  rw [div_pow] at hf
  have h1 : (a : ℝ) ^ a * (b : ℝ) ^ b * ((a + b).factorial : ℝ) ≤
      (a : ℝ) ^ a * (b : ℝ) ^ b * (Real.exp 1 * Real.sqrt ((a + b : ℕ) : ℝ) *
        (((a + b : ℕ) : ℝ) ^ (a + b) / Real.exp 1 ^ (a + b))) :=
    mul_le_mul_of_nonneg_left hf (mul_pos (hpow a) (hpow b)).le
  refine h1.trans ?_
  rw [mul_div_assoc', mul_div_assoc', div_le_iff₀ hE]
  have h2 := mul_le_mul_of_nonneg_left hr
    (show 0 ≤ 2 * Real.sqrt ((a + b : ℕ) : ℝ) * ((a + b : ℕ) : ℝ) ^ (a + b) by positivity)
  rw [pow_add (Real.exp 1)]
  linarith

theorem bern_le {a b : ℕ} {θ : ℝ} (h0 : 0 ≤ θ) (h1 : θ ≤ 1) :
    ((a + b : ℕ) : ℝ) ^ (a + b) * ((1 - θ) ^ a * θ ^ b) ≤ (a : ℝ) ^ a * (b : ℝ) ^ b := by
  have key : ∀ (c : ℕ) (x : ℝ), 0 ≤ x → x ^ c ≤ (c : ℝ) ^ c * Real.exp (x - c) := by
    intro c x hx
    rcases Nat.eq_zero_or_pos c with rfl | hc
    · simpa using Real.one_le_exp hx
    · have hc' : (0 : ℝ) < c := by exact_mod_cast hc
      have h := Real.add_one_le_exp (x / c - 1)
      rw [sub_add_cancel] at h
      have h2 := pow_le_pow_left₀ (by positivity) h c
      rw [div_pow, div_le_iff₀ (by positivity), ← Real.exp_nat_mul] at h2
      refine h2.trans_eq ?_
      rw [mul_comm]
      congr 2
      field_simp
  set n : ℝ := ((a + b : ℕ) : ℝ) with hn
  have hn0 : 0 ≤ n := by positivity
  have ka := key a (n * (1 - θ)) (mul_nonneg hn0 (by linarith))
  have kb := key b (n * θ) (mul_nonneg hn0 h0)
  calc n ^ (a + b) * ((1 - θ) ^ a * θ ^ b) = (n * (1 - θ)) ^ a * (n * θ) ^ b := by
        rw [mul_pow, mul_pow, pow_add]
        ring
    _ ≤ ((a : ℝ) ^ a * Real.exp (n * (1 - θ) - a)) * ((b : ℝ) ^ b * Real.exp (n * θ - b)) :=
        mul_le_mul ka kb (pow_nonneg (mul_nonneg hn0 h0) _) (mul_nonneg (by positivity) (Real.exp_pos _).le)
    _ = (a : ℝ) ^ a * (b : ℝ) ^ b * Real.exp ((n * (1 - θ) - a) + (n * θ - b)) := by
        rw [Real.exp_add]
        ring
    _ = (a : ℝ) ^ a * (b : ℝ) ^ b := by
        rw [show (n * (1 - θ) - a) + (n * θ - b) = 0 by rw [hn]; push_cast; ring, Real.exp_zero, mul_one]

theorem bern_le_ktP {a b : ℕ} (h : 1 ≤ a + b) {θ : ℝ} (h0 : 0 ≤ θ) (h1 : θ ≤ 1) :
    (1 - θ) ^ a * θ ^ b ≤ 2 * Real.sqrt ((a + b : ℕ) : ℝ) * ktP a b := by
  have hn : (0 : ℝ) < ((a + b : ℕ) : ℝ) ^ (a + b) := by
    have : (0 : ℝ) < ((a + b : ℕ) : ℝ) := by exact_mod_cast h
    positivity
  have := (bern_le (a := a) (b := b) h0 h1).trans (ktP_lower h)
  rw [← mul_le_mul_iff_right₀ hn]
  linarith

/-- Number of zeros and ones. -/
def zeros (xs : List (Obs Bool)) : ℕ := xs.countP fun o => !o.sym
def ones (xs : List (Obs Bool)) : ℕ := xs.countP fun o => o.sym

theorem zeros_add_ones (xs : List (Obs Bool)) : zeros xs + ones xs = xs.length := by
  induction xs with
  | nil => rfl
  | cons o xs ih =>
    obtain ⟨b, h, w⟩ := o
    cases b <;> simp [zeros, ones] at * <;> omega

theorem bernProb_eq (θ : ℝ) (xs : List (Obs Bool)) : bernProb θ xs = (1 - θ) ^ zeros xs * θ ^ ones xs := by
  induction xs with
  | nil => simp [bernProb, zeros, ones]
  | cons o xs ih =>
    obtain ⟨b, h, w⟩ := o
    unfold bernProb zeros ones at *
    cases b <;> simp [ih, pow_succ] <;> ring

theorem ktP_pos (a b : ℕ) : 0 < ktP a b := div_pos (mul_pos (rise_pos a) (rise_pos b)) (by positivity)

theorem run_ktP {xs : List (Obs Bool)} (hw : ∀ o ∈ xs, o.weight = 1) (a b : ℕ) :
    ∃ r s, KTBinary.predictor.run ⟨(a : ℝ) + 1 / 2, (b : ℝ) + 1 / 2⟩ xs = .ok (r, s) ∧
      Real.exp r * ktP a b = ktP (a + zeros xs) (b + ones xs) := by
  induction xs generalizing a b with
  | nil => exact ⟨0, _, rfl, by simp [zeros, ones]⟩
  | cons o xs ih =>
    obtain ⟨c, h, w⟩ := o
    have hw1 : w = 1 := hw ⟨c, h, w⟩ (by simp)
    subst hw1
    have hsum : (a : ℝ) + 1 / 2 + ((b : ℝ) + 1 / 2) ≠ 0 := by positivity
    cases c with
    | false =>
      obtain ⟨r, s, h1, h2⟩ := ih (fun o ho => hw o (by simp [ho])) (a + 1) b
      have hq : 0 < ((a : ℝ) + 1 / 2) / ((a : ℝ) + 1 / 2 + ((b : ℝ) + 1 / 2)) := by positivity
      refine ⟨Real.log (((a : ℝ) + 1 / 2) / ((a : ℝ) + 1 / 2 + ((b : ℝ) + 1 / 2))) + r, s, ?_, ?_⟩
      · have e : (⟨(a : ℝ) + 1 / 2 + 1, (b : ℝ) + 1 / 2⟩ : KTBinary) = ⟨((a + 1 : ℕ) : ℝ) + 1 / 2, (b : ℝ) + 1 / 2⟩ := by
          congr 1
          push_cast
          ring
        have hu : KTBinary.predictor.update ⟨(a : ℝ) + 1 / 2, (b : ℝ) + 1 / 2⟩ false h 1 =
            .ok (Real.log (((a : ℝ) + 1 / 2) / ((a : ℝ) + 1 / 2 + ((b : ℝ) + 1 / 2))), ⟨((a + 1 : ℕ) : ℝ) + 1 / 2, (b : ℝ) + 1 / 2⟩) := by
          simp only [KTBinary.predictor, KTBinary.update, KTBinary.logPredict, KTBinary.get, KTBinary.bump,
            Bool.false_eq_true, if_false, pyDiv_of_ne hsum, ok_bind, pyLog_of_pos hq, pure_eq_ok, e]
        simp only [Predictor.run, hu, ok_bind, h1, pure_eq_ok]
      · have e1 : zeros (⟨false, h, 1⟩ :: xs) = zeros xs + 1 := by simp [zeros]
        have e2 : ones (⟨false, h, 1⟩ :: xs) = ones xs := by simp [ones]
        rw [e1, e2, ← show a + 1 + zeros xs = a + (zeros xs + 1) by omega, ← h2, Real.exp_add, Real.exp_log hq]
        unfold ktP
        rw [rise_succ, show a + 1 + b = (a + b) + 1 by omega, Nat.factorial_succ]
        push_cast
        field_simp
        ring
    | true =>
      obtain ⟨r, s, h1, h2⟩ := ih (fun o ho => hw o (by simp [ho])) a (b + 1)
      have hq : 0 < ((b : ℝ) + 1 / 2) / ((a : ℝ) + 1 / 2 + ((b : ℝ) + 1 / 2)) := by positivity
      refine ⟨Real.log (((b : ℝ) + 1 / 2) / ((a : ℝ) + 1 / 2 + ((b : ℝ) + 1 / 2))) + r, s, ?_, ?_⟩
      · have e : (⟨(a : ℝ) + 1 / 2, (b : ℝ) + 1 / 2 + 1⟩ : KTBinary) = ⟨(a : ℝ) + 1 / 2, ((b + 1 : ℕ) : ℝ) + 1 / 2⟩ := by
          congr 1
          push_cast
          ring
        have hu : KTBinary.predictor.update ⟨(a : ℝ) + 1 / 2, (b : ℝ) + 1 / 2⟩ true h 1 =
            .ok (Real.log (((b : ℝ) + 1 / 2) / ((a : ℝ) + 1 / 2 + ((b : ℝ) + 1 / 2))), ⟨(a : ℝ) + 1 / 2, ((b + 1 : ℕ) : ℝ) + 1 / 2⟩) := by
          simp only [KTBinary.predictor, KTBinary.update, KTBinary.logPredict, KTBinary.get, KTBinary.bump,
            if_true, pyDiv_of_ne hsum, ok_bind, pyLog_of_pos hq, pure_eq_ok, e]
        simp only [Predictor.run, hu, ok_bind, h1, pure_eq_ok]
      · have e1 : zeros (⟨true, h, 1⟩ :: xs) = zeros xs := by simp [zeros]
        have e2 : ones (⟨true, h, 1⟩ :: xs) = ones xs + 1 := by simp [ones]
        rw [e1, e2, ← show b + 1 + ones xs = b + (ones xs + 1) by omega, ← h2, Real.exp_add, Real.exp_log hq]
        unfold ktP
        rw [rise_succ, show a + (b + 1) = (a + b) + 1 by omega, Nat.factorial_succ]
        push_cast
        field_simp
        ring

theorem seqProb_ktP {xs : List (Obs Bool)} (hw : ∀ o ∈ xs, o.weight = 1) :
    KTBinary.predictor.seqProb (KTBinary.init none) xs = ktP (zeros xs) (ones xs) := by
  obtain ⟨r, s, h1, h2⟩ := run_ktP hw 0 0
  have e : KTBinary.init none = ⟨((0 : ℕ) : ℝ) + 1 / 2, ((0 : ℕ) : ℝ) + 1 / 2⟩ := by simp [KTBinary.init]
  rw [Predictor.seqProb, e, h1]
  simpa [ktP, rise, Predictor.probOf] using h2

theorem bernProb_le {xs : List (Obs Bool)} (hw : ∀ o ∈ xs, o.weight = 1) {θ : ℝ} (h0 : 0 ≤ θ) (h1 : θ ≤ 1) :
    bernProb θ xs ≤ ktPrice xs.length * KTBinary.predictor.seqProb (KTBinary.init none) xs := by
  rw [seqProb_ktP hw, bernProb_eq]
  have hp := ktP_pos (zeros xs) (ones xs)
  rcases Nat.eq_zero_or_pos xs.length with hz | hn
  · have : xs = [] := List.length_eq_zero_iff.mp hz
    subst this
    simp [zeros, ones, ktP, rise, ktPrice]
  · rw [← zeros_add_ones] at hn ⊢
    refine (bern_le_ktP hn h0 h1).trans (mul_le_mul_of_nonneg_right ?_ hp.le)
    exact le_max_right _ _

theorem bernProb_nonneg {θ : ℝ} (h0 : 0 ≤ θ) (h1 : θ ≤ 1) (xs : List (Obs Bool)) : 0 ≤ bernProb θ xs := by
  rw [bernProb_eq]
  exact mul_nonneg (pow_nonneg (by linarith) _) (pow_nonneg h0 _)

theorem one_le_ktPrice (n : ℕ) : 1 ≤ ktPrice n := le_max_left _ _

theorem ktPrice_mono {n m : ℕ} (h : n ≤ m) : ktPrice n ≤ ktPrice m := by
  unfold ktPrice
  have : Real.sqrt n ≤ Real.sqrt m := Real.sqrt_le_sqrt (by exact_mod_cast h)
  exact max_le_max le_rfl (by linarith)

end Redundancy

end Verif
