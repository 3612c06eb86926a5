import Verif.Proofs.RoundingHeights
import Verif.Props.PTW

/-!
# C114: integers computed from logarithms in double precision
-/

namespace Verif

open Double

/-- **C114 (smallest partitions).** For lengths up to `2 ^ 40` the height of the smallest partitions in double precision is that of exact arithmetic. -/
theorem C114_min_height (n : ℕ) (hn : n ≤ 2 ^ 40) : Double.minHeight n = (PTW.minHeight n).map fun h => (h : ℤ) := by
  unfold Double.minHeight PTW.minHeight
  by_cases h0 : n = 0
  · rw [if_pos h0, if_pos h0]
    rfl
  rw [if_neg h0, if_neg h0]
  refine congrArg Except.ok ?_
  set k := Nat.log 2 n with hk
  have h1 : 2 ^ k ≤ n := Nat.pow_log_le_self 2 h0
  have h2 : n < 2 ^ (k + 1) := Nat.lt_pow_succ_log_self (by norm_num) n
  suffices h : (k : ℝ) ≤ logBase2 n ∧ logBase2 n < k + 1 by
    have hp : 0 ≤ logBase2 n := le_trans (by positivity) h.1
    rw [pyInt, if_pos hp, Int.floor_eq_iff]
    exact_mod_cast h
  rcases h1.eq_or_lt with e | hlt
  · rcases Nat.eq_zero_or_pos k with hk0 | hk1
    · rw [← e, hk0, pow_zero, logBase2_one]
      norm_num
    · have hk40 : k ≤ 40 := by
        rw [← e] at hn
        exact (Nat.pow_le_pow_iff_right (by norm_num)).1 hn
      obtain ⟨a, s, b, t, hr⟩ := exists_row hk1 hk40
      rw [← e, logBase2_pow hr hk1]
      obtain ⟨-, -, r1, r2, -⟩ := hr
      have q1 : (k : ℝ) * 2 ^ t ≤ b := by exact_mod_cast r1
      have q2 : (b : ℝ) < (k + 1) * 2 ^ t := by exact_mod_cast r2
      rw [le_div_iff₀ (by positivity), div_lt_iff₀ (by positivity)]
      exact ⟨q1, q2⟩
  · have hk40 : k < 40 := (Nat.pow_lt_pow_iff_right (by norm_num)).1 (hlt.trans_le hn)
    obtain ⟨z1, z2⟩ := logBase2_between hlt h2 hk40
    exact ⟨z1.le, z2⟩

/-- **C114 (fixed lengths).** For lengths up to `2 ^ 40` other than `2 ^ 29`, `2 ^ 31` and `2 ^ 39` the height of `PTWFixedLength` in double precision is that of exact
arithmetic. -/
theorem C114_height_partial (n : ℕ) (hn : n ≤ 2 ^ 40) (h29 : n ≠ 2 ^ 29) (h31 : n ≠ 2 ^ 31) (h39 : n ≠ 2 ^ 39) :
    Double.heightOf n = (PTWFixedLength.heightOf n).map fun h => (h : ℤ) := by
  unfold Double.heightOf PTWFixedLength.heightOf
  by_cases h0 : n = 0
  · rw [if_pos h0, if_pos h0]
    rfl
  rw [if_neg h0, if_neg h0]
  refine congrArg Except.ok ?_
  set k := Nat.log 2 n with hk
  have h1 : 2 ^ k ≤ n := Nat.pow_log_le_self 2 h0
  have h2 : n < 2 ^ (k + 1) := Nat.lt_pow_succ_log_self (by norm_num) n
  rcases h1.eq_or_lt with e | hlt
  · have hc : Nat.clog 2 n = k := by rw [← e, Nat.clog_pow 2 k (by norm_num)]
    rw [hc, Int.ceil_eq_iff]
    rcases Nat.eq_zero_or_pos k with hk0 | hk1
    · rw [← e, hk0, pow_zero, logBase2_one]
      norm_num
    · have hk40 : k ≤ 40 := by
        rw [← e] at hn
        exact (Nat.pow_le_pow_iff_right (by norm_num)).1 hn
      obtain ⟨a, s, b, t, hr⟩ := exists_row hk1 hk40
      rw [← e, logBase2_pow hr hk1]
      obtain ⟨-, -, -, -, r3⟩ := hr
      have hb : k ∉ bad := by
        intro hb
        simp only [bad, List.mem_cons, List.not_mem_nil, or_false] at hb
        rcases hb with hb | hb | hb <;> rw [hb] at e
        · exact h29 e.symm
        · exact h31 e.symm
        · exact h39 e.symm
      rw [r3.2 hb]
      push_cast
      rw [mul_div_cancel_right₀ _ (by positivity)]
      constructor <;> linarith
  · have hk40 : k < 40 := (Nat.pow_lt_pow_iff_right (by norm_num)).1 (hlt.trans_le hn)
    obtain ⟨z1, z2⟩ := logBase2_between hlt h2 hk40
    have hc : Nat.clog 2 n = k + 1 := by
      apply le_antisymm
      · exact (Nat.clog_le_iff_le_pow (by norm_num)).2 h2.le
      · by_contra hlt'
        have := (Nat.clog_le_iff_le_pow (b := 2) (by norm_num)).1 (by omega : Nat.clog 2 n ≤ k)
        omega
    rw [hc, Int.ceil_eq_iff]
    push_cast
    exact ⟨by linarith, z2.le⟩

/-- **C114 (wrong heights).** For these three lengths the height is one too large. -/
theorem C114_height_wrong (k : ℕ) (hk : k = 29 ∨ k = 31 ∨ k = 39) :
    Double.heightOf (2 ^ k) = .ok (k + 1) ∧ PTWFixedLength.heightOf (2 ^ k) = .ok k := by
  have hb : k ∈ bad := by simpa [bad] using hk
  have h0 : 2 ^ k ≠ 0 := by positivity
  obtain ⟨a, s, b, t, hr⟩ := exists_row (k := k) (by omega) (by omega)
  rw [Double.heightOf, if_neg h0, PTWFixedLength.heightOf, if_neg h0, Nat.clog_pow 2 k (by norm_num), logBase2_pow hr (by omega)]
  refine ⟨congrArg Except.ok ?_, rfl⟩
  obtain ⟨-, -, r1, r2, r3⟩ := hr
  have hne : b ≠ k * 2 ^ t := fun e => (r3.1 e) hb
  have q1 : (k : ℝ) * 2 ^ t < b := by exact_mod_cast lt_of_le_of_ne r1 hne.symm
  have q2 : (b : ℝ) < (k + 1) * 2 ^ t := by exact_mod_cast r2
  rw [Int.ceil_eq_iff]
  push_cast
  rw [lt_div_iff₀ (by positivity), div_le_iff₀ (by positivity)]
  constructor <;> linarith

/-- **C114 (what a wrong height costs).** With a height that is one too large, `PTWFixedLength` mixes the partition tree of the length once more with the base model: it gives a
sequence half the probability of the right tree and half that of the base model, and so loses at most one bit. -/
theorem C114_extra_level {σ α : Type} (P : Predictor σ α) (fresh : σ) (m k : ℕ) (hm : m ≤ k) (xs : List (Obs α)) (hl : xs.length ≤ 2 ^ k) (r : ℝ) (s : PTW σ)
    (hr : (PTWFixedLength.predictor P fresh m (k + 1)).run (PTW.init fresh m) xs = .ok (r, s)) :
    Real.exp r = 1 / 2 * P.seqProb fresh xs + 1 / 2 * ptwProb (fun _ => P.seqProb fresh) m (k - m) 0 xs := by
  rw [C24_PTWFixedLength_closed_form P fresh m (k + 1) xs (hl.trans (Nat.pow_le_pow_right (by norm_num) (by omega))) r s hr,
    show k + 1 - m = k - m + 1 by omega]
  exact ptwProb_succ_of_le (fun _ => by simp [Predictor.seqProb, Predictor.run, Predictor.probOf]) (by rwa [show m + (k - m) = k by omega])

/-- **C114 (`mscb` of utilities.py).** In double precision the index of the bit is right if it is at most 47, and one too large from 48 on. -/
theorem C114_mscb (t : ℕ) (ht : mscb t < 63) : Double.mscb t = if mscb t ≤ 47 then (mscb t : ℤ) else mscb t + 1 := by
  have hx : ((t ^^^ (t + 1) : ℕ) : ℝ) = 2 ^ (mscb t + 1) - 1 := by
    rw [xor_succ, Nat.cast_sub Nat.one_le_two_pow]
    push_cast
    rfl
  rw [Double.mscb, hx]
  split_ifs with h
  · have hfl : fl ((2 : ℝ) ^ (mscb t + 1) - 1) = 2 ^ (mscb t + 1) - 1 := by
      have hb : (2 : ℤ) ^ (mscb t + 1) ≤ 2 ^ 53 := pow_le_pow_right₀ (by norm_num) (by omega)
      have h1 : (1 : ℤ) ≤ 2 ^ (mscb t + 1) := one_le_pow₀ (by norm_num)
      have := fl_of_repr (2 ^ (mscb t + 1) - 1) 0 (by rw [abs_of_nonneg (by linarith)]; linarith)
      push_cast at this
      simpa using this
    obtain ⟨h1, h2⟩ := mscb_small (M := mscb t + 1) (by omega) (by omega)
    rw [Nat.add_sub_cancel] at h1
    rw [hfl, pyInt, if_pos (le_trans (by positivity) h1), Int.floor_eq_iff]
    push_cast at h2 ⊢
    exact ⟨h1, h2⟩
  · rw [mscb_large (by omega) (by omega), pyInt, if_pos (by positivity), Int.floor_natCast]
    push_cast
    rfl

/-- The first wrong index, with the right one of helpers.py. -/
example : Double.mscb (2 ^ 48 - 1) = 49 ∧ mscb (2 ^ 48 - 1) = 48 ∧ Double.mscb 7 = 3 := by
  have h1 : mscb (2 ^ 48 - 1) = 48 := by decide +kernel
  have h2 : mscb 7 = 3 := by decide +kernel
  refine ⟨?_, h1, ?_⟩
  · rw [C114_mscb _ (by omega), h1]
    rfl
  · rw [C114_mscb _ (by omega), h2]
    rfl

/-- `PTWFixedLength(1000)` has height 10, `PTWFixedLength(2 ** 29)` has height 30. -/
example : Double.heightOf 1000 = .ok 10 ∧ Double.heightOf (2 ^ 29) = .ok 30 ∧ Double.minHeight (2 ^ 29) = .ok 29 := by
  refine ⟨?_, (C114_height_wrong 29 (by simp)).1, ?_⟩
  · rw [C114_height_partial 1000 (by norm_num) (by norm_num) (by norm_num) (by norm_num)]
    have : Nat.clog 2 1000 = 10 := by
      apply le_antisymm
      · exact (Nat.clog_le_iff_le_pow (by norm_num)).2 (by norm_num)
      · by_contra h
        have := (Nat.clog_le_iff_le_pow (b := 2) (by norm_num)).1 (by omega : Nat.clog 2 1000 ≤ 9)
        norm_num at this
    simp [PTWFixedLength.heightOf, this, Except.map]
  · rw [C114_min_height _ (by norm_num), PTW.minHeight, if_neg (by positivity), Nat.log_pow (by norm_num)]
    rfl

end Verif
