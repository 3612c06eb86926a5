import Verif.Model.RoundingHeights
import Verif.Proofs.RoundingAC
import Verif.Proofs.Helpers
import Mathlib.Analysis.SpecialFunctions.Log.Deriv
import Mathlib.Analysis.Complex.ExponentialBounds

/-! Logarithms of powers of two in double precision. -/

namespace Verif.Double

/-- Rounding to the nearest, if it is known between which powers of two. -/
theorem fl_eq {x : ℝ} {n : ℤ} {s : ℕ} (h1 : 2 ^ 52 ≤ x * 2 ^ s) (h2 : x * 2 ^ s < 2 ^ 53) (h3 : |x * 2 ^ s - n| < 1 / 2) : fl x = n / 2 ^ s := by
  have hs : (0 : ℝ) < 2 ^ s := by positivity
  have hx : 0 < x := by
    have : 0 < x * 2 ^ s := lt_of_lt_of_le (by positivity) h1
    exact pos_of_mul_pos_left this hs.le
  have hlog : Int.log 2 |x| = 52 - s := by
    rw [abs_of_pos hx]
    apply le_antisymm
    · have : Int.log 2 x < 53 - s := by
        rw [← Int.lt_zpow_iff_log_lt (by norm_num) hx]
        push_cast
        rw [zpow_sub₀ (by norm_num), zpow_natCast, lt_div_iff₀ hs]
        exact_mod_cast h2
      omega
    · rw [← Int.zpow_le_iff_le_log (by norm_num) hx]
      push_cast
      rw [zpow_sub₀ (by norm_num), zpow_natCast, div_le_iff₀ hs]
      exact_mod_cast h1
  have hu : ulp x = (2 ^ s)⁻¹ := by
    rw [ulp, hlog, show (52 : ℤ) - s - 52 = -s by ring, zpow_neg, zpow_natCast]
  have hr : roundEven (x / ulp x) = n := by
    rw [hu, div_inv_eq_mul]
    have h := roundEven_near (x * 2 ^ s)
    have h4 := abs_sub_le (roundEven (x * 2 ^ s) : ℝ) (x * 2 ^ s) n
    have h5 : |((roundEven (x * 2 ^ s) - n : ℤ) : ℝ)| < 1 := by
      push_cast
      linarith
    have h6 : |roundEven (x * 2 ^ s) - n| < 1 := by exact_mod_cast h5
    have h7 := Int.abs_lt_one_iff.1 h6
    omega
  rw [fl, hr, hu, div_eq_mul_inv]

/-- Rounding is monotonic at integers. -/
theorem le_roundEven {x : ℝ} {n : ℤ} (h : (n : ℝ) ≤ x) : n ≤ roundEven x := by
  have h1 : n ≤ ⌊x⌋ := Int.le_floor.2 h
  unfold roundEven
  split_ifs <;> omega

theorem roundEven_lt {x : ℝ} {n : ℤ} (h : x < n - 1 / 2) : roundEven x < n := by
  have h1 := roundEven_near x
  rw [abs_le] at h1
  have : (roundEven x : ℝ) < n := by linarith
  exact_mod_cast this

/-- A sum for the logarithm of two. -/
def logSum : ℕ → ℚ
  | 0 => 0
  | n + 1 => logSum n + 1 / ((n + 1) * 2 ^ (n + 1))

theorem logSum_eq (n : ℕ) : (logSum n : ℝ) = ∑ i ∈ Finset.range n, (1 / 2 : ℝ) ^ (i + 1) / (i + 1) := by
  induction n with
  | zero => simp [logSum]
  | succ n ih =>
    rw [logSum, Finset.sum_range_succ, ← ih]
    push_cast
    congr 1
    rw [one_div_pow, div_div, mul_comm]

/-- `log 2 * 2 ^ 90`, rounded down. -/
def lg : ℕ := 858074647932929271111585486

theorem log_two_bounds : (lg : ℝ) < Real.log 2 * 2 ^ 90 ∧ Real.log 2 * 2 ^ 90 < lg + 1 := by
  have h := Real.abs_log_sub_add_sum_range_le (x := (1 / 2 : ℝ)) (by rw [abs_of_pos] <;> norm_num) 100
  rw [← logSum_eq, show (1 : ℝ) - 1 / 2 = 2⁻¹ by norm_num, Real.log_inv, abs_of_pos (by norm_num : (0 : ℝ) < 1 / 2)] at h
  have hq : (lg : ℚ) / 2 ^ 90 + 1 / 2 ^ 99 < logSum 100 ∧ logSum 100 + 1 / 2 ^ 99 < (lg + 1) / 2 ^ 90 := by decide +kernel
  have hr1 : (lg : ℝ) / 2 ^ 90 + 1 / 2 ^ 99 < logSum 100 := by
    have := (Rat.cast_lt (K := ℝ)).2 hq.1
    push_cast at this
    exact this
  have hr2 : (logSum 100 : ℝ) + 1 / 2 ^ 99 < (lg + 1) / 2 ^ 90 := by
    have := (Rat.cast_lt (K := ℝ)).2 hq.2
    push_cast at this
    exact this
  generalize (logSum 100 : ℝ) = S at *
  have he : (1 / 2 : ℝ) ^ (100 + 1) / (1 - 1 / 2) ≤ 1 / 2 ^ 99 := by norm_num
  rw [abs_le] at h
  have k1 : (lg : ℝ) / 2 ^ 90 < Real.log 2 := by linarith
  have k2 : Real.log 2 < (lg + 1) / 2 ^ 90 := by linarith
  rw [div_lt_iff₀ (by positivity)] at k1
  rw [lt_div_iff₀ (by positivity)] at k2
  exact ⟨k1, k2⟩

/-- For `k` from 1 to 40: the double nearest to `k * log 2` and that nearest to its quotient by the double nearest to `log 2`, each with its exponent. -/
def table : List (ℕ × ℕ × ℕ × ℕ × ℕ) :=
  [(1, 6243314768165359, 53, 4503599627370496, 52), (2, 6243314768165359, 52, 4503599627370496, 51), (3, 4682486076124019, 51, 6755399441055744, 51),
   (4, 6243314768165359, 51, 4503599627370496, 50), (5, 7804143460206699, 51, 5629499534213120, 50), (6, 4682486076124019, 50, 6755399441055744, 50),
   (7, 5462900422144689, 50, 7881299347898368, 50), (8, 6243314768165359, 50, 4503599627370496, 49), (9, 7023729114186029, 50, 5066549580791808, 49),
   (10, 7804143460206699, 50, 5629499534213120, 49), (11, 8584557806227369, 50, 6192449487634432, 49), (12, 4682486076124019, 49, 6755399441055744, 49),
   (13, 5072693249134354, 49, 7318349394477056, 49), (14, 5462900422144689, 49, 7881299347898368, 49), (15, 5853107595155024, 49, 8444249301319680, 49),
   (16, 6243314768165359, 49, 4503599627370496, 48), (17, 6633521941175694, 49, 4785074604081152, 48), (18, 7023729114186029, 49, 5066549580791808, 48),
   (19, 7413936287196364, 49, 5348024557502464, 48), (20, 7804143460206699, 49, 5629499534213120, 48), (21, 8194350633217034, 49, 5910974510923776, 48),
   (22, 8584557806227369, 49, 6192449487634432, 48), (23, 8974764979237704, 49, 6473924464345088, 48), (24, 4682486076124019, 48, 6755399441055744, 48),
   (25, 4877589662629187, 48, 7036874417766400, 48), (26, 5072693249134354, 48, 7318349394477056, 48), (27, 5267796835639522, 48, 7599824371187712, 48),
   (28, 5462900422144689, 48, 7881299347898368, 48), (29, 5658004008649857, 48, 8162774324609025, 48), (30, 5853107595155024, 48, 8444249301319680, 48),
   (31, 6048211181660192, 48, 8725724278030337, 48), (32, 6243314768165359, 48, 4503599627370496, 47), (33, 6438418354670527, 48, 4644337115725824, 47),
   (34, 6633521941175694, 48, 4785074604081152, 47), (35, 6828625527680862, 48, 4925812092436480, 47), (36, 7023729114186029, 48, 5066549580791808, 47),
   (37, 7218832700691197, 48, 5207287069147136, 47), (38, 7413936287196364, 48, 5348024557502464, 47), (39, 7609039873701532, 48, 5488762045857793, 47),
   (40, 7804143460206699, 48, 5629499534213120, 47)]

/-- The heights that come out one too large. -/
def bad : List ℕ := [29, 31, 39]

/-- What is to be checked for a row. -/
def Row (r : ℕ × ℕ × ℕ × ℕ × ℕ) : Prop :=
  let (k, a, s, b, t) := r
  (2 ^ 52 * 2 ^ 90 ≤ k * lg * 2 ^ s ∧ k * (lg + 1) * 2 ^ s ≤ 2 ^ 53 * 2 ^ 90 ∧
    2 * (k * (lg + 1) * 2 ^ s) ≤ (2 * a + 1) * 2 ^ 90 ∧ 2 * a * 2 ^ 90 ≤ 2 * (k * lg * 2 ^ s) + 2 ^ 90) ∧
  (2 ^ 52 * (6243314768165359 * 2 ^ s) ≤ a * 2 ^ 53 * 2 ^ t ∧ a * 2 ^ 53 * 2 ^ t < 2 ^ 53 * (6243314768165359 * 2 ^ s) ∧
    2 * (a * 2 ^ 53 * 2 ^ t) < (2 * b + 1) * (6243314768165359 * 2 ^ s) ∧ 2 * b * (6243314768165359 * 2 ^ s) < 2 * (a * 2 ^ 53 * 2 ^ t) + 6243314768165359 * 2 ^ s) ∧
  k * 2 ^ t ≤ b ∧ b < (k + 1) * 2 ^ t ∧ (b = k * 2 ^ t ↔ k ∉ bad)

instance (r : ℕ × ℕ × ℕ × ℕ × ℕ) : Decidable (Row r) := by
  obtain ⟨k, a, s, b, t⟩ := r
  unfold Row
  infer_instance

theorem table_rows : ∀ r ∈ table, Row r := by decide +kernel

theorem table_keys : table.map Prod.fst = List.range' 1 40 := by decide +kernel

theorem exists_row {k : ℕ} (h1 : 1 ≤ k) (h2 : k ≤ 40) : ∃ a s b t, Row (k, a, s, b, t) := by
  have : k ∈ table.map Prod.fst := by
    rw [table_keys, List.mem_range'_1]
    omega
  obtain ⟨⟨k', a, s, b, t⟩, hr, rfl⟩ := List.mem_map.1 this
  exact ⟨a, s, b, t, table_rows _ hr⟩

/-- The double nearest to a multiple of `log 2`. -/
theorem fl_log {k a s b t : ℕ} (h : Row (k, a, s, b, t)) (hk : 1 ≤ k) : fl (k * Real.log 2) = a / 2 ^ s := by
  obtain ⟨⟨h1, h2, h3, h4⟩, -⟩ := h
  obtain ⟨l1, l2⟩ := log_two_bounds
  have r1 : (2 : ℝ) ^ 52 * 2 ^ 90 ≤ k * lg * 2 ^ s := by exact_mod_cast h1
  have r2 : (k : ℝ) * (lg + 1) * 2 ^ s ≤ 2 ^ 53 * 2 ^ 90 := by exact_mod_cast h2
  have r3 : 2 * ((k : ℝ) * (lg + 1) * 2 ^ s) ≤ (2 * a + 1) * 2 ^ 90 := by exact_mod_cast h3
  have r4 : 2 * (a : ℝ) * 2 ^ 90 ≤ 2 * (k * lg * 2 ^ s) + 2 ^ 90 := by exact_mod_cast h4
  have hk0 : (0 : ℝ) < k := by exact_mod_cast hk
  have hs : (0 : ℝ) < k * 2 ^ s := by positivity
  have e1 := mul_lt_mul_of_pos_left l1 hs
  have e2 := mul_lt_mul_of_pos_left l2 hs
  have f1 : (k : ℝ) * lg * 2 ^ s < k * Real.log 2 * 2 ^ s * 2 ^ 90 := by linarith
  have f2 : (k : ℝ) * Real.log 2 * 2 ^ s * 2 ^ 90 < k * (lg + 1) * 2 ^ s := by linarith
  have hp : (0 : ℝ) < 2 ^ 90 := by positivity
  have := fl_eq (x := k * Real.log 2) (n := a) (s := s) (by nlinarith) (by nlinarith) (by
    rw [abs_lt]
    push_cast
    constructor <;> nlinarith)
  simpa using this

theorem fl_log_two : fl (Real.log 2) = 6243314768165359 / 2 ^ 53 := by
  have h := fl_log (table_rows (1, 6243314768165359, 53, 4503599627370496, 52) (by simp [table])) le_rfl
  simpa using h

/-- Powers of two. -/
theorem logBase2_pow {k a s b t : ℕ} (h : Row (k, a, s, b, t)) (hk : 1 ≤ k) : logBase2 (2 ^ k) = b / 2 ^ t := by
  have hfl : fl (((2 ^ k : ℕ) : ℝ)) = 2 ^ k := by
    have := fl_of_repr 1 k (by norm_num)
    push_cast at this ⊢
    rwa [one_mul, zpow_natCast] at this
  rw [logBase2, hfl, Real.log_pow, fl_log h hk, fl_log_two]
  obtain ⟨-, ⟨h1, h2, h3, h4⟩, -⟩ := h
  have r1 : (2 : ℝ) ^ 52 * (6243314768165359 * 2 ^ s) ≤ a * 2 ^ 53 * 2 ^ t := by exact_mod_cast h1
  have r2 : (a : ℝ) * 2 ^ 53 * 2 ^ t < 2 ^ 53 * (6243314768165359 * 2 ^ s) := by exact_mod_cast h2
  have r3 : 2 * ((a : ℝ) * 2 ^ 53 * 2 ^ t) < (2 * b + 1) * (6243314768165359 * 2 ^ s) := by exact_mod_cast h3
  have r4 : 2 * (b : ℝ) * (6243314768165359 * 2 ^ s) < 2 * (a * 2 ^ 53 * 2 ^ t) + 6243314768165359 * 2 ^ s := by exact_mod_cast h4
  have hD : (0 : ℝ) < 6243314768165359 * 2 ^ s := by positivity
  have e : (a : ℝ) / 2 ^ s / (6243314768165359 / 2 ^ 53) * 2 ^ t = a * 2 ^ 53 * 2 ^ t / (6243314768165359 * 2 ^ s) := by
    field_simp
  have := fl_eq (x := (a : ℝ) / 2 ^ s / (6243314768165359 / 2 ^ 53)) (n := b) (s := t) (by rw [e, le_div_iff₀ hD]; exact r1)
    (by rw [e, div_lt_iff₀ hD]; exact r2) (by
      rw [e, abs_lt]
      push_cast
      constructor
      · rw [lt_sub_iff_add_lt, lt_div_iff₀ hD]
        linarith
      · rw [sub_lt_iff_lt_add, div_lt_iff₀ hD]
        linarith)
  simpa using this

theorem logBase2_one : logBase2 1 = 0 := by
  have h := fl_of_repr 1 0 (by norm_num)
  norm_num at h
  rw [logBase2, Nat.cast_one, h, Real.log_one, fl_zero, zero_div, fl_zero]

/-- The error of `math.log(n, 2)`. -/
theorem logBase2_near {n : ℕ} (h1 : 1 ≤ n) (h2 : n ≤ 2 ^ 53) : |logBase2 n - Real.logb 2 n| ≤ 4 * 2⁻¹ ^ 53 * Real.logb 2 n := by
  have hfl : fl (n : ℝ) = n := by
    have := fl_of_repr n 0 (by rw [abs_of_nonneg (by positivity)]; exact_mod_cast h2)
    simpa using this
  have hn : (1 : ℝ) ≤ n := by exact_mod_cast h1
  have hx : 0 ≤ Real.log n := Real.log_nonneg hn
  have hy : 0 < Real.log 2 := Real.log_pos (by norm_num)
  have a1 := fl_near (Real.log n)
  have b1 := fl_near (Real.log 2)
  have q1 := fl_near (fl (Real.log n) / fl (Real.log 2))
  rw [abs_of_nonneg hx] at a1
  rw [abs_of_pos hy] at b1
  rw [logBase2, hfl, Real.logb]
  generalize fl (fl (Real.log n) / fl (Real.log 2)) = q at *
  generalize fl (Real.log n) = a at *
  generalize fl (Real.log 2) = b at *
  generalize Real.log n = x at *
  generalize Real.log 2 = y at *
  obtain ⟨a1, a2⟩ := abs_le.1 a1
  obtain ⟨b1, b2⟩ := abs_le.1 b1
  have hu0 : (0 : ℝ) < 2⁻¹ ^ 53 := by positivity
  have hu1 : (2⁻¹ : ℝ) ^ 53 ≤ 1 / 1000 := by norm_num
  generalize (2⁻¹ : ℝ) ^ 53 = u at *
  have uy : u * y ≤ 1 / 1000 * y := mul_le_mul_of_nonneg_right hu1 hy.le
  have ux : u * x ≤ 1 / 1000 * x := mul_le_mul_of_nonneg_right hu1 hx
  have hb : 0 < b := by linarith
  have ha : 0 ≤ a := by linarith
  rw [abs_of_nonneg (a := a / b) (by positivity)] at q1
  obtain ⟨q1, q2⟩ := abs_le.1 q1
  have up : a / b ≤ x / y * ((1 + u) / (1 - u)) := by
    rw [div_mul_div_comm]
    exact div_le_div₀ (by positivity) (by linarith) (by nlinarith) (by linarith)
  have lo : x / y * ((1 - u) / (1 + u)) ≤ a / b := by
    rw [div_mul_div_comm]
    exact div_le_div₀ ha (by linarith) hb (by linarith)
  have hxy : 0 ≤ x / y := by positivity
  have c1 : (1 + u) / (1 - u) ≤ 1 + 2.5 * u := by
    rw [div_le_iff₀ (by linarith)]
    nlinarith
  have c2 : 1 - 2 * u ≤ (1 - u) / (1 + u) := by
    rw [le_div_iff₀ (by linarith)]
    nlinarith
  have up' := up.trans (mul_le_mul_of_nonneg_left c1 hxy)
  have lo' := (mul_le_mul_of_nonneg_left c2 hxy).trans lo
  generalize x / y = z at *
  generalize a / b = w at *
  rw [abs_le]
  constructor
  · nlinarith
  · nlinarith

/-- Numbers between two powers of two. -/
theorem logBase2_between {n k : ℕ} (h1 : 2 ^ k < n) (h2 : n < 2 ^ (k + 1)) (hk : k < 40) : (k : ℝ) < logBase2 n ∧ logBase2 n < k + 1 := by
  have h53 : n ≤ 2 ^ 53 := h2.le.trans (Nat.pow_le_pow_right (by norm_num) (by omega))
  have hnear := logBase2_near (by omega) h53
  have hl0 : (0 : ℝ) < Real.log 2 := Real.log_pos (by norm_num)
  have hl1 : Real.log 2 < 1 := by linarith [Real.log_two_lt_d9]
  have hp : (0 : ℝ) < 2 ^ k := by positivity
  have m1 : (2 : ℝ) ^ k + 1 ≤ n := by exact_mod_cast h1
  have m2 : (n : ℝ) ≤ 2 ^ (k + 1) - 1 := by
    have : ((n + 1 : ℕ) : ℝ) ≤ ((2 ^ (k + 1) : ℕ) : ℝ) := by exact_mod_cast h2
    push_cast at this
    linarith
  have hn0 : (0 : ℝ) < n := by linarith
  have p40 : (2 : ℝ) ^ (k + 1) ≤ 2 ^ 40 := pow_le_pow_right₀ (by norm_num) (by omega)
  -- below
  have d2 : Real.logb 2 n ≤ k + 1 - 1 / 2 ^ 40 := by
    rw [Real.logb, div_le_iff₀ hl0]
    have e1 : Real.log n ≤ Real.log (2 ^ (k + 1)) + (n / 2 ^ (k + 1) - 1) := by
      have := Real.log_le_sub_one_of_pos (x := n / 2 ^ (k + 1)) (by positivity)
      rw [Real.log_div hn0.ne' (by positivity)] at this
      linarith
    have e2 : (n : ℝ) / 2 ^ (k + 1) ≤ 1 - 1 / 2 ^ (k + 1) := by
      rw [div_le_iff₀ (by positivity), sub_mul, one_mul, one_div, inv_mul_cancel₀ (by positivity)]
      exact m2
    have e3 : 1 / (2 : ℝ) ^ 40 ≤ 1 / 2 ^ (k + 1) := one_div_le_one_div_of_le (by positivity) p40
    rw [Real.log_pow] at e1
    push_cast at e1
    have e4 : 1 / (2 : ℝ) ^ 40 * Real.log 2 ≤ 1 / 2 ^ 40 * 1 := mul_le_mul_of_nonneg_left hl1.le (by positivity)
    rw [sub_mul]
    linarith
  have d1 : (k : ℝ) + 1 / 2 ^ 41 ≤ Real.logb 2 n := by
    rw [Real.logb, le_div_iff₀ hl0]
    have e1 : Real.log (2 ^ k) + (1 - 2 ^ k / n) ≤ Real.log n := by
      have := Real.log_le_sub_one_of_pos (x := 2 ^ k / n) (by positivity)
      rw [Real.log_div (by positivity) hn0.ne'] at this
      linarith
    have e2 : (2 : ℝ) ^ k / n ≤ 1 - 1 / n := by
      rw [div_le_iff₀ hn0, sub_mul, one_mul, one_div, inv_mul_cancel₀ hn0.ne']
      linarith
    have e3 : 1 / (2 : ℝ) ^ 40 ≤ 1 / n := one_div_le_one_div_of_le hn0 (by linarith)
    rw [Real.log_pow] at e1
    have e4 : 1 / (2 : ℝ) ^ 41 * Real.log 2 ≤ 1 / 2 ^ 41 * 1 := mul_le_mul_of_nonneg_left hl1.le (by positivity)
    have e5 : 1 / (2 : ℝ) ^ 41 * 1 ≤ 1 / 2 ^ 40 := by norm_num
    rw [add_mul]
    linarith
  have hk' : (k : ℝ) + 1 ≤ 40 := by exact_mod_cast hk
  have err : 4 * (2⁻¹ : ℝ) ^ 53 * Real.logb 2 n ≤ 4 * 2⁻¹ ^ 53 * 40 :=
    mul_le_mul_of_nonneg_left (by
      have : (0 : ℝ) < 1 / 2 ^ 40 := by positivity
      linarith) (by positivity)
  have hsmall : 4 * (2⁻¹ : ℝ) ^ 53 * 40 < 1 / 2 ^ 41 := by norm_num
  have hsmall2 : 1 / (2 : ℝ) ^ 41 < 1 / 2 ^ 40 := by norm_num
  obtain ⟨z1, z2⟩ := abs_le.1 hnear
  constructor <;> linarith

/-- The bits that change. -/
theorem xor_succ (t : ℕ) : t ^^^ (t + 1) = 2 ^ (Verif.mscb t + 1) - 1 := by
  induction t using Nat.strong_induction_on with
  | _ t ih =>
    rcases Nat.even_or_odd' t with ⟨m, rfl | rfl⟩
    · have h : (2 * m) ^^^ (2 * m + 1) = 1 := by
        have h1 : 2 * m = Nat.bit false m := by simp [Nat.bit_val]
        have h2 : 2 * m + 1 = Nat.bit true m := by simp [Nat.bit_val]
        rw [h2, h1, Nat.xor_bit, Nat.xor_self]
        rfl
      rw [mscb_even, h]
      rfl
    · have h : (2 * m + 1) ^^^ (2 * m + 1 + 1) = Nat.bit true (m ^^^ (m + 1)) := by
        have h1 : 2 * m + 1 + 1 = Nat.bit false (m + 1) := by simp [Nat.bit_val]; ring
        have h2 : 2 * m + 1 = Nat.bit true m := by simp [Nat.bit_val]
        rw [h1, h2, Nat.xor_bit]
        rfl
      rw [mscb_odd, h, ih m (by omega), Nat.bit_val, pow_succ 2 (Verif.mscb m + 1)]
      have := Nat.one_le_two_pow (n := Verif.mscb m + 1)
      simp only [Bool.toNat_true]
      omega

/-- Small powers of two: the logarithm stays below. -/
theorem mscb_small {M : ℕ} (h1 : 1 ≤ M) (h2 : M ≤ 48) :
    ((M - 1 : ℕ) : ℝ) ≤ fl (Real.logb 2 ((2 : ℝ) ^ M - 1)) ∧ fl (Real.logb 2 ((2 : ℝ) ^ M - 1)) < M := by
  rcases h1.eq_or_lt with rfl | hM
  · norm_num [fl_zero]
  have hl0 : (0 : ℝ) < Real.log 2 := Real.log_pos (by norm_num)
  have hl1 : Real.log 2 < 7 / 10 := by linarith [Real.log_two_lt_d9]
  have hp1 : (1 : ℝ) ≤ 2 ^ (M - 1) := one_le_pow₀ (by norm_num)
  have e : (2 : ℝ) ^ M = 2 * 2 ^ (M - 1) := by
    rw [← pow_succ', show M - 1 + 1 = M by omega]
  have lo : ((M - 1 : ℕ) : ℝ) ≤ Real.logb 2 ((2 : ℝ) ^ M - 1) := by
    rw [Real.le_logb_iff_rpow_le (by norm_num) (by linarith), Real.rpow_natCast]
    linarith
  have up : Real.logb 2 ((2 : ℝ) ^ M - 1) ≤ M - 10 / 7 / 2 ^ 48 := by
    rw [Real.logb, div_le_iff₀ hl0]
    have k1 : Real.log ((2 : ℝ) ^ M - 1) ≤ M * Real.log 2 - 1 / 2 ^ M := by
      have := Real.log_le_sub_one_of_pos (x := ((2 : ℝ) ^ M - 1) / 2 ^ M) (div_pos (by linarith) (by positivity))
      rw [Real.log_div (by linarith) (by positivity), Real.log_pow, sub_div, div_self (by positivity)] at this
      linarith
    have k2 : 1 / (2 : ℝ) ^ 48 ≤ 1 / 2 ^ M := one_div_le_one_div_of_le (by positivity) (pow_le_pow_right₀ (by norm_num) h2)
    have k3 : 10 / 7 / (2 : ℝ) ^ 48 * Real.log 2 ≤ 10 / 7 / 2 ^ 48 * (7 / 10) := mul_le_mul_of_nonneg_left hl1.le (by positivity)
    rw [sub_mul]
    have k4 : 10 / 7 / (2 : ℝ) ^ 48 * (7 / 10) = 1 / 2 ^ 48 := by norm_num
    linarith
  generalize Real.logb 2 ((2 : ℝ) ^ M - 1) = x at lo up
  have hM48 : (M : ℝ) ≤ 48 := by exact_mod_cast h2
  have hx1 : (1 : ℝ) ≤ x := by
    have : (1 : ℝ) ≤ ((M - 1 : ℕ) : ℝ) := by exact_mod_cast (by omega : 1 ≤ M - 1)
    linarith
  have hx64 : x < 64 := by
    have : (0 : ℝ) < 10 / 7 / 2 ^ 48 := by positivity
    linarith
  -- the unit in the last place
  obtain ⟨j, hj⟩ : ∃ j : ℕ, ulp x = (2 ^ (47 + j))⁻¹ := by
    have hlog : Int.log 2 |x| < 6 := by
      rw [abs_of_pos (by linarith), ← Int.lt_zpow_iff_log_lt (by norm_num) (by linarith)]
      norm_num
      exact hx64
    obtain ⟨j, hj⟩ := Int.eq_ofNat_of_zero_le (by omega : 0 ≤ 5 - Int.log 2 |x|)
    refine ⟨j, ?_⟩
    rw [ulp, show Int.log 2 |x| - 52 = -((47 + j : ℕ) : ℤ) by push_cast; omega, zpow_neg, zpow_natCast]
  have hP : (0 : ℝ) < 2 ^ (47 + j) := by positivity
  have hPge : (2 : ℝ) ^ 47 ≤ 2 ^ (47 + j) := pow_le_pow_right₀ (by norm_num) (by omega)
  have r1 : (((M - 1 : ℕ) : ℤ) * 2 ^ (47 + j) : ℤ) ≤ roundEven (x / ulp x) := by
    apply le_roundEven
    rw [hj, div_inv_eq_mul]
    push_cast
    exact mul_le_mul_of_nonneg_right lo hP.le
  have r2 : roundEven (x / ulp x) < ((M : ℤ) * 2 ^ (47 + j) : ℤ) := by
    apply roundEven_lt
    rw [hj, div_inv_eq_mul]
    push_cast
    have := mul_le_mul_of_nonneg_right up hP.le
    rw [sub_mul] at this
    have k : 1 / 2 < 10 / 7 / (2 : ℝ) ^ 48 * 2 ^ (47 + j) := by
      have := mul_le_mul_of_nonneg_left hPge (by positivity : (0 : ℝ) ≤ 10 / 7 / 2 ^ 48)
      have e : (1 : ℝ) / 2 < 10 / 7 / 2 ^ 48 * 2 ^ 47 := by norm_num
      linarith
    linarith
  have q1 : ((M - 1 : ℕ) : ℝ) * 2 ^ (47 + j) ≤ roundEven (x / ulp x) := by exact_mod_cast r1
  have q2 : (roundEven (x / ulp x) : ℝ) < M * 2 ^ (47 + j) := by exact_mod_cast r2
  rw [fl]
  generalize (roundEven (x / ulp x) : ℝ) = y at q1 q2 ⊢
  rw [hj, ← div_eq_mul_inv, le_div_iff₀ hP, div_lt_iff₀ hP]
  exact ⟨q1, q2⟩

/-- Large powers of two: the logarithm is rounded up. -/
theorem mscb_large {M : ℕ} (h1 : 49 ≤ M) (h2 : M ≤ 63) : fl (Real.logb 2 (fl ((2 : ℝ) ^ M - 1))) = M := by
  have hl0 : (0 : ℝ) < Real.log 2 := Real.log_pos (by norm_num)
  have hl1 : 69 / 100 < Real.log 2 := by linarith [Real.log_two_gt_d9]
  have hp : (2 : ℝ) ^ 49 ≤ 2 ^ M := pow_le_pow_right₀ (by norm_num) h1
  have hp0 : (0 : ℝ) < 2 ^ M := by positivity
  have hy := fl_near ((2 : ℝ) ^ M - 1)
  rw [abs_of_nonneg (a := (2 : ℝ) ^ M - 1) (by linarith [(by norm_num : (1 : ℝ) ≤ 2 ^ 49)])] at hy
  generalize fl ((2 : ℝ) ^ M - 1) = y at hy ⊢
  obtain ⟨y1, y2⟩ := abs_le.1 hy
  have hc : (1 : ℝ) ≤ 2 ^ M / 2 ^ 49 := by
    rw [le_div_iff₀ (by positivity)]
    linarith
  have b1 : 2 ^ M * (1 - 17 / 16 / 2 ^ 49) ≤ y := by
    have : (2⁻¹ : ℝ) ^ 53 * (2 ^ M - 1) ≤ 2⁻¹ ^ 53 * 2 ^ M := mul_le_mul_of_nonneg_left (by linarith) (by positivity)
    have e : (2 : ℝ) ^ M * (1 - 17 / 16 / 2 ^ 49) = 2 ^ M - 2 ^ M / 2 ^ 49 - 2⁻¹ ^ 53 * 2 ^ M := by
      norm_num
      ring
    rw [e]
    linarith
  have b2 : y ≤ 2 ^ M * (1 + 1 / 2 ^ 53) := by
    have : (2⁻¹ : ℝ) ^ 53 * (2 ^ M - 1) ≤ 2⁻¹ ^ 53 * 2 ^ M := mul_le_mul_of_nonneg_left (by linarith) (by positivity)
    have e : (2 : ℝ) ^ M * (1 + 1 / 2 ^ 53) = 2 ^ M + 2⁻¹ ^ 53 * 2 ^ M := by
      norm_num
      ring
    rw [e]
    linarith
  have hq : (0 : ℝ) < 1 - 17 / 16 / 2 ^ 49 := by norm_num
  have hy0 : 0 < y := lt_of_lt_of_le (by positivity) b1
  have hx : |Real.logb 2 y - M| < 1 / 2 ^ 48 := by
    have e : Real.logb 2 y - M = Real.log (y / 2 ^ M) / Real.log 2 := by
      rw [Real.log_div hy0.ne' hp0.ne', Real.log_pow, sub_div, mul_div_cancel_right₀ _ hl0.ne']
      rfl
    have u1 : Real.log (y / 2 ^ M) ≤ 1 / 2 ^ 53 := by
      have := Real.log_le_sub_one_of_pos (x := y / 2 ^ M) (by positivity)
      have : y / 2 ^ M ≤ 1 + 1 / 2 ^ 53 := by
        rw [div_le_iff₀ hp0]
        linarith
      linarith
    have u2 : -(1.07 / 2 ^ 49) ≤ Real.log (y / 2 ^ M) := by
      have h3 := Real.log_le_sub_one_of_pos (x := 2 ^ M / y) (by positivity)
      have h4 : (2 : ℝ) ^ M / y ≤ 1 + 1.07 / 2 ^ 49 := by
        rw [div_le_iff₀ hy0]
        have := mul_le_mul_of_nonneg_left b1 (by norm_num : (0 : ℝ) ≤ 1 + 1.07 / 2 ^ 49)
        have k : (1 : ℝ) ≤ (1 + 1.07 / 2 ^ 49) * (1 - 17 / 16 / 2 ^ 49) := by norm_num
        have := mul_le_mul_of_nonneg_left k hp0.le
        linarith
      have h5 : Real.log (2 ^ M / y) = -Real.log (y / 2 ^ M) := by
        rw [← Real.log_inv, inv_div]
      linarith
    rw [e, abs_lt, lt_div_iff₀ hl0, div_lt_iff₀ hl0]
    have k1 : 1 / (2 : ℝ) ^ 48 * (69 / 100) < 1 / 2 ^ 48 * Real.log 2 := mul_lt_mul_of_pos_left hl1 (by positivity)
    have k2 : (1.07 : ℝ) / 2 ^ 49 < 1 / 2 ^ 48 * (69 / 100) := by norm_num
    have k3 : (1 : ℝ) / 2 ^ 53 < 1 / 2 ^ 48 * (69 / 100) := by norm_num
    constructor <;> linarith
  generalize Real.logb 2 y = x at hx
  obtain ⟨x1, x2⟩ := abs_lt.1 hx
  have m1 : (49 : ℝ) ≤ M := by exact_mod_cast h1
  have m2 : (M : ℝ) ≤ 63 := by exact_mod_cast h2
  have small : (1 : ℝ) / 2 ^ 48 < 1 := by norm_num
  have h47 : (0 : ℝ) < 2 ^ 47 := by positivity
  have c1 := mul_lt_mul_of_pos_right x1 h47
  have c2 := mul_lt_mul_of_pos_right x2 h47
  have := fl_eq (x := x) (n := M * 2 ^ 47) (s := 47)
    (by have := mul_le_mul_of_nonneg_right (by linarith : (32 : ℝ) ≤ x) h47.le; norm_num at this ⊢; linarith)
    (by have := mul_lt_mul_of_pos_right (by linarith : x < 64) h47; norm_num at this ⊢; linarith)
    (by
      rw [abs_lt]
      norm_num at c1 c2 ⊢
      constructor <;> linarith)
  rw [this]
  push_cast
  norm_num

end Verif.Double
