import Verif.Model.Helpers
import Mathlib.Data.Nat.Log
import Mathlib.Tactic.Ring
import Mathlib.Tactic.NormNum

/-! Lemmas on partition arithmetic. -/

namespace Verif

theorem binaryBoundary_eq (t d : ℕ) : binaryBoundary t d = 2 ^ d * (t / 2 ^ d) := by
  unfold binaryBoundary
  rw [Nat.one_shiftLeft, Nat.and_two_pow_sub_one_eq_mod]
  have := Nat.div_add_mod t (2 ^ d)
  omega

theorem atPartitionStart_iff (t d : ℕ) : atPartitionStart t d = true ↔ 2 ^ d ∣ t := by
  unfold atPartitionStart
  rw [Nat.one_shiftLeft, Nat.and_two_pow_sub_one_eq_mod, decide_eq_true_eq, Nat.dvd_iff_mod_eq_zero]

theorem mscb_even (m : ℕ) : mscb (2 * m) = 0 := by
  have h : (2 * m) ^^^ (2 * m + 1) = 1 := by
    have h1 : 2 * m = Nat.bit false m := by simp [Nat.bit_val]
    have h2 : 2 * m + 1 = Nat.bit true m := by simp [Nat.bit_val]
    rw [h2, h1, Nat.xor_bit, Nat.xor_self]
    rfl
  rw [mscb, h]
  rfl

theorem xor_succ_ne (m : ℕ) : m ^^^ (m + 1) ≠ 0 := by
  intro h
  have := Nat.xor_eq_zero_iff.mp h
  omega

theorem mscb_odd (m : ℕ) : mscb (2 * m + 1) = mscb m + 1 := by
  have h : (2 * m + 1) ^^^ (2 * m + 1 + 1) = Nat.bit true (m ^^^ (m + 1)) := by
    have h1 : 2 * m + 1 + 1 = Nat.bit false (m + 1) := by simp [Nat.bit_val]; ring
    have h2 : 2 * m + 1 = Nat.bit true m := by simp [Nat.bit_val]
    rw [h1, h2, Nat.xor_bit]
    rfl
  have hs : 0 < (m ^^^ (m + 1)).size := Nat.size_pos.mpr (Nat.pos_of_ne_zero (xor_succ_ne m))
  rw [mscb, h, Nat.size_bit (by simp [Nat.bit_val]), mscb]
  omega

theorem mscb_spec (t : ℕ) : 2 ^ mscb t ∣ t + 1 ∧ ¬ 2 ^ (mscb t + 1) ∣ t + 1 := by
  induction t using Nat.strong_induction_on with
  | _ t ih =>
    rcases Nat.even_or_odd' t with ⟨m, rfl | rfl⟩
    · rw [mscb_even]
      constructor
      · simp
      · intro h
        rw [zero_add, pow_one] at h
        omega
    · rw [mscb_odd]
      obtain ⟨h1, h2⟩ := ih m (by omega)
      have e : 2 * m + 1 + 1 = 2 * (m + 1) := by ring
      rw [e, pow_succ', pow_succ' 2 (mscb m + 1)]
      exact ⟨Nat.mul_dvd_mul_left 2 h1, fun h => h2 (Nat.dvd_of_mul_dvd_mul_left (by norm_num) h)⟩

theorem mscb_testBit (t : ℕ) : (∀ i < mscb t, t.testBit i = true) ∧ t.testBit (mscb t) = false := by
  induction t using Nat.strong_induction_on with
  | _ t ih =>
    rcases Nat.even_or_odd' t with ⟨m, rfl | rfl⟩
    · rw [mscb_even]
      simp
    · rw [mscb_odd]
      obtain ⟨h1, h2⟩ := ih m (by omega)
      have hdiv : (2 * m + 1) / 2 = m := by omega
      constructor
      · intro i hi
        cases i with
        | zero => simp
        | succ i => rw [Nat.testBit_succ, hdiv]; exact h1 i (by omega)
      · rw [Nat.testBit_succ, hdiv]; exact h2

theorem mscb_le {t d : ℕ} (h : t < 2 ^ d) : mscb t ≤ d := by
  have h1 := Nat.le_of_dvd (by omega) (mscb_spec t).1
  by_contra hlt
  have : 2 ^ (d + 1) ≤ 2 ^ mscb t := Nat.pow_le_pow_right (by norm_num) (by omega)
  rw [pow_succ] at this
  omega

end Verif
