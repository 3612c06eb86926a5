import Verif.Spec.RoundingAC
import Verif.Proofs.CodeLength

/-! Double precision, and the encoder in rounded arithmetic. -/

namespace Verif

namespace Double

theorem roundEven_near (x : ℝ) : |(roundEven x : ℝ) - x| ≤ 1 / 2 := by
  have h := Int.self_sub_floor x
  have h0 := Int.fract_nonneg x
  have h1 := Int.fract_lt_one x
  unfold roundEven
  split_ifs with c1 c2 c3 <;> rw [abs_le] <;> push_cast <;> constructor <;> linarith

theorem roundEven_int (n : ℤ) : roundEven n = n := by
  rw [roundEven, if_pos (by simp), Int.floor_intCast]

theorem ulp_pos (x : ℝ) : 0 < ulp x := by unfold ulp; positivity

theorem ulp_le {x : ℝ} (hx : x ≠ 0) : ulp x ≤ 2⁻¹ ^ 52 * |x| := by
  have h := Int.zpow_log_le_self (b := 2) (by norm_num) (abs_pos.2 hx)
  unfold ulp
  rw [zpow_sub₀ (by norm_num)]
  push_cast at h
  rw [div_eq_mul_inv, mul_comm, show ((2 : ℝ) ^ (52 : ℤ))⁻¹ = 2⁻¹ ^ 52 by norm_num]
  exact mul_le_mul_of_nonneg_left h (by positivity)

theorem fl_zero : fl 0 = 0 := by
  rw [fl, zero_div]
  have := roundEven_int 0
  push_cast at this
  rw [this]
  simp

theorem fl_near (x : ℝ) : |fl x - x| ≤ 2⁻¹ ^ 53 * |x| := by
  by_cases hx : x = 0
  · subst hx
    rw [fl_zero]
    simp
  have hu := ulp_pos x
  have h := roundEven_near (x / ulp x)
  have e : fl x - x = ((roundEven (x / ulp x) : ℝ) - x / ulp x) * ulp x := by
    rw [sub_mul, div_mul_cancel₀ _ hu.ne']
    rfl
  rw [e, abs_mul, abs_of_pos hu]
  calc _ ≤ 1 / 2 * ulp x := mul_le_mul_of_nonneg_right h hu.le
    _ ≤ 1 / 2 * (2⁻¹ ^ 52 * |x|) := mul_le_mul_of_nonneg_left (ulp_le hx) (by norm_num)
    _ = _ := by ring

/-- Numbers of 53 digits are kept. -/
theorem fl_of_repr (k e : ℤ) (hk : |k| ≤ 2 ^ 53) : fl (k * 2 ^ e) = k * 2 ^ e := by
  by_cases h0 : k = 0
  · subst h0
    simpa using fl_zero
  have hx : (k : ℝ) * 2 ^ e ≠ 0 := mul_ne_zero (by exact_mod_cast h0) (by positivity)
  obtain ⟨n, hn⟩ : ∃ n : ℤ, (k : ℝ) * 2 ^ e / ulp (k * 2 ^ e) = n := by
    unfold ulp
    have hl := Int.zpow_log_le_self (b := 2) (by norm_num) (abs_pos.2 hx)
    push_cast at hl
    generalize Int.log 2 |(k : ℝ) * 2 ^ e| = L at hl
    rw [mul_div_assoc, ← zpow_sub₀ (by norm_num)]
    rcases le_or_gt 0 (e - (L - 52)) with h | h
    · obtain ⟨j, hj⟩ := Int.eq_ofNat_of_zero_le h
      exact ⟨k * 2 ^ j, by rw [hj]; push_cast; rw [zpow_natCast]⟩
    · have hk' : (|k| : ℝ) ≤ 2 ^ (53 : ℤ) := by
        have : ((|k| : ℤ) : ℝ) ≤ ((2 ^ 53 : ℤ) : ℝ) := by exact_mod_cast hk
        norm_num at this ⊢
        exact this
      have h2 : (2 : ℝ) ^ L ≤ 2 ^ (53 + e) := by
        refine hl.trans ?_
        rw [abs_mul, abs_of_pos (by positivity : (0 : ℝ) < 2 ^ e), zpow_add₀ (by norm_num)]
        exact mul_le_mul_of_nonneg_right hk' (by positivity)
      have h3 : L ≤ 53 + e := (zpow_le_zpow_iff_right₀ (by norm_num : (1 : ℝ) < 2)).1 h2
      have h4 : L = e + 53 := by omega
      have h5 : (2 : ℝ) ^ (53 : ℤ) ≤ |(k : ℝ)| := by
        rw [h4, abs_mul, abs_of_pos (by positivity : (0 : ℝ) < 2 ^ e), zpow_add₀ (by norm_num), mul_comm] at hl
        exact le_of_mul_le_mul_right hl (by positivity)
      have h6 : |k| = 2 ^ 53 := by
        have : ((|k| : ℤ) : ℝ) = ((2 ^ 53 : ℤ) : ℝ) := by
          norm_num at hk' h5 ⊢
          exact le_antisymm hk' h5
        exact_mod_cast this
      have h7 : e - (L - 52) = -1 := by omega
      rw [h7]
      rcases (abs_eq (by norm_num)).1 h6 with rfl | rfl
      · exact ⟨2 ^ 52, by push_cast; norm_num⟩
      · exact ⟨-2 ^ 52, by push_cast; norm_num⟩
  rw [fl, hn, roundEven_int, ← hn, div_mul_cancel₀ _ (ulp_pos _).ne']

/-- Every result has 53 digits. -/
theorem fl_repr (x : ℝ) : ∃ k e : ℤ, |k| ≤ 2 ^ 53 ∧ fl x = k * 2 ^ e := by
  refine ⟨roundEven (x / ulp x), Int.log 2 |x| - 52, ?_, rfl⟩
  have hu := ulp_pos x
  have h1 : |x / ulp x| < 2 ^ 53 := by
    rw [abs_div, abs_of_pos hu, div_lt_iff₀ hu]
    have h := Int.lt_zpow_succ_log_self (b := 2) (by norm_num) |x|
    unfold ulp
    rw [show (2 : ℝ) ^ 53 = 2 ^ (53 : ℤ) by norm_num, ← zpow_add₀ (by norm_num)]
    push_cast at h
    rw [show (53 : ℤ) + (Int.log 2 |x| - 52) = Int.log 2 |x| + 1 by ring]
    exact h
  have h2 := roundEven_near (x / ulp x)
  have h3 : |(roundEven (x / ulp x) : ℝ)| < 2 ^ 53 + 1 := by
    have := abs_sub_abs_le_abs_sub (roundEven (x / ulp x) : ℝ) (x / ulp x)
    linarith
  have h4 : ((|roundEven (x / ulp x)| : ℤ) : ℝ) < ((2 ^ 53 + 1 : ℤ) : ℝ) := by
    norm_num at h3 ⊢
    exact h3
  have h5 : |roundEven (x / ulp x)| < 2 ^ 53 + 1 := by exact_mod_cast h4
  omega

/-- No integer is nearer. -/
theorem roundEven_nearest (x : ℝ) (n : ℤ) : |(roundEven x : ℝ) - x| ≤ |(n : ℝ) - x| := by
  have h := Int.self_sub_floor x
  have h0 := Int.fract_nonneg x
  have h1 := Int.fract_lt_one x
  have hn : (n : ℝ) ≤ ⌊x⌋ ∨ (⌊x⌋ : ℝ) + 1 ≤ n := by
    rcases le_or_gt n ⌊x⌋ with h | h
    · left
      exact_mod_cast h
    · right
      exact_mod_cast h
  unfold roundEven
  rcases hn with hn | hn
  · rw [abs_of_nonpos (by linarith : (n : ℝ) - x ≤ 0)]
    split_ifs with c1 c2 c3 <;> rw [abs_le] <;> push_cast <;> constructor <;> linarith
  · rw [abs_of_nonneg (by linarith : 0 ≤ (n : ℝ) - x)]
    split_ifs with c1 c2 c3 <;> rw [abs_le] <;> push_cast <;> constructor <;> linarith

/-- No number with 53 digits is nearer. -/
theorem fl_nearest (x : ℝ) (k e : ℤ) (hk : |k| ≤ 2 ^ 53) : |fl x - x| ≤ |k * 2 ^ e - x| := by
  by_cases hx : x = 0
  · subst hx
    rw [fl_zero, sub_zero, abs_zero]
    exact abs_nonneg _
  have hu := ulp_pos x
  have e1 : ∀ n : ℤ, |fl x - x| ≤ |n * ulp x - x| := by
    intro n
    have h1 : fl x - x = ((roundEven (x / ulp x) : ℝ) - x / ulp x) * ulp x := by
      rw [sub_mul, div_mul_cancel₀ _ hu.ne']
      rfl
    have h2 : n * ulp x - x = ((n : ℝ) - x / ulp x) * ulp x := by rw [sub_mul, div_mul_cancel₀ _ hu.ne']
    rw [h1, h2, abs_mul, abs_mul]
    exact mul_le_mul_of_nonneg_right (roundEven_nearest _ n) (abs_nonneg _)
  have hl := Int.zpow_log_le_self (b := 2) (by norm_num) (abs_pos.2 hx)
  push_cast at hl
  have hul : ulp x = 2 ^ (Int.log 2 |x| - 52) := rfl
  generalize Int.log 2 |x| = L at hl hul
  rcases le_or_gt (L - 52) e with h | h
  · obtain ⟨j, hj⟩ := Int.eq_ofNat_of_zero_le (sub_nonneg.2 h)
    have := e1 (k * 2 ^ j)
    rw [hul] at this
    push_cast at this
    rwa [mul_assoc, ← zpow_natCast, ← zpow_add₀ (by norm_num), ← hj, show e - (L - 52) + (L - 52) = e by ring] at this
  · have hk' : |(k : ℝ)| ≤ 2 ^ (53 : ℤ) := by
      have : ((|k| : ℤ) : ℝ) ≤ ((2 ^ 53 : ℤ) : ℝ) := by exact_mod_cast hk
      norm_num at this ⊢
      exact this
    have hy : |(k : ℝ) * 2 ^ e| ≤ 2 ^ L := by
      rw [abs_mul, abs_of_pos (by positivity : (0 : ℝ) < 2 ^ e)]
      calc |(k : ℝ)| * 2 ^ e ≤ 2 ^ (53 : ℤ) * 2 ^ e := mul_le_mul_of_nonneg_right hk' (by positivity)
        _ = 2 ^ (53 + e) := (zpow_add₀ (by norm_num) _ _).symm
        _ ≤ 2 ^ L := zpow_le_zpow_right₀ (by norm_num) (by omega)
    have hp : (2 : ℝ) ^ L = 4503599627370496 * ulp x := by
      rw [hul, zpow_sub₀ (by norm_num)]
      norm_num
      field_simp
    rw [abs_le] at hy
    rcases le_or_gt 0 x with h0 | h0
    · rw [abs_of_nonneg h0] at hl
      have := e1 (2 ^ 52)
      push_cast at this
      rw [← hp] at this
      refine this.trans ?_
      rw [abs_of_nonpos (by linarith), abs_of_nonpos (by linarith)]
      linarith
    · rw [abs_of_neg h0] at hl
      have := e1 (-2 ^ 52)
      push_cast at this
      rw [neg_mul, ← hp] at this
      refine this.trans ?_
      rw [abs_of_nonneg (by linarith), abs_of_nonneg (by linarith)]
      linarith

/-- Of two nearest numbers the even one is taken. -/
theorem fl_tie (k e : ℤ) (h1 : 2 ^ 52 ≤ k) (h2 : k < 2 ^ 53) : fl ((k + 1 / 2) * 2 ^ e) = (if Even k then k else k + 1 : ℤ) * 2 ^ e := by
  have k1 : (2 : ℝ) ^ (52 : ℤ) ≤ k := by
    have : ((2 ^ 52 : ℤ) : ℝ) ≤ (k : ℝ) := by exact_mod_cast h1
    norm_num at this ⊢
    exact this
  have k2 : (k : ℝ) + 1 ≤ 2 ^ (53 : ℤ) := by
    have : ((k + 1 : ℤ) : ℝ) ≤ ((2 ^ 53 : ℤ) : ℝ) := by exact_mod_cast h2
    norm_num at this ⊢
    exact this
  have kp : (0 : ℝ) < 2 ^ (52 : ℤ) := by positivity
  have hx : 0 < ((k : ℝ) + 1 / 2) * 2 ^ e := mul_pos (by linarith) (by positivity)
  have hlog : Int.log 2 |((k : ℝ) + 1 / 2) * 2 ^ e| = 52 + e := by
    rw [abs_of_pos hx]
    apply le_antisymm
    · have : Int.log 2 (((k : ℝ) + 1 / 2) * 2 ^ e) < 53 + e := by
        rw [← Int.lt_zpow_iff_log_lt (by norm_num) hx, Nat.cast_ofNat, zpow_add₀ (by norm_num)]
        exact mul_lt_mul_of_pos_right (by linarith) (by positivity)
      omega
    · rw [← Int.zpow_le_iff_le_log (by norm_num) hx, Nat.cast_ofNat, zpow_add₀ (by norm_num)]
      exact mul_le_mul_of_nonneg_right (by linarith) (by positivity)
  have hu : ulp (((k : ℝ) + 1 / 2) * 2 ^ e) = 2 ^ e := by
    rw [ulp, hlog]
    congr 1
    ring
  rw [fl, hu, mul_div_cancel_right₀ _ (by positivity)]
  congr 2
  have hf : ⌊(k : ℝ) + 1 / 2⌋ = k := by
    rw [Int.floor_eq_iff]
    constructor <;> linarith
  rw [roundEven, Int.fract, hf, if_neg (by linarith), if_neg (by linarith)]

/-- Rounding does not depend on the sign. -/
theorem fl_neg (x : ℝ) : fl (-x) = -fl x := by
  have hu : ulp (-x) = ulp x := by rw [ulp, ulp, abs_neg]
  have hr : ∀ y : ℝ, roundEven (-y) = -roundEven y := by
    intro y
    have h := Int.self_sub_floor y
    have h0 := Int.fract_nonneg y
    have h1 := Int.fract_lt_one y
    by_cases hz : Int.fract y = 0
    · have : y = (⌊y⌋ : ℤ) := by linarith
      rw [this, ← Int.cast_neg, roundEven_int, roundEven_int]
    · have hp : 0 < Int.fract y := lt_of_le_of_ne h0 (Ne.symm hz)
      have hf : ⌊-y⌋ = -⌊y⌋ - 1 := by
        rw [Int.floor_eq_iff]
        push_cast
        constructor <;> linarith
      have hfr : Int.fract (-y) = 1 - Int.fract y := by
        rw [Int.fract, hf]
        push_cast
        linarith
      unfold roundEven
      rw [hfr, hf]
      have hev : Even (-⌊y⌋ - 1) ↔ ¬ Even ⌊y⌋ := by
        rw [Int.even_sub_one, even_neg]
      simp only [hev]
      split_ifs <;> first | omega | (exfalso; linarith)
  rw [fl, hu, fl, neg_div, hr]
  push_cast
  ring

end Double

namespace Arith

open AC Predictor

variable {σ : Type} {R : Arith} {ε : ℝ}

/-- The rounded encoder makes one step of the exact encoder, for a probability that is nearly the same. -/
theorem ac_step (hR : R.Accurate ε) {m : ℝ} (hm0 : 0 < m) (hm : 16 * ε ≤ m) {r : ℝ} (h1 : m ≤ Real.exp r) (h2 : Real.exp r ≤ 1 - m) {low high : ℤ} (hw : low < high)
    (b : Bool) :
    ∃ r', Real.exp r' < 1 ∧ (1 - 8 * ε / m) * Real.exp r ≤ Real.exp r' ∧
      R.acSplit low high (R.acP r b) = encSplit low high (encP r' b) := by
  have e0 := hR.nonneg
  have e1 := hR.small
  have hr : r ≤ 0 := by
    rw [← Real.exp_le_one_iff]
    linarith
  obtain ⟨x0, x1⟩ := hR.exp r hr
  have hW : (0 : ℝ) < ((high - low : ℤ) : ℝ) := by exact_mod_cast (by omega)
  generalize hWd : ((high - low : ℤ) : ℝ) = W at *
  have hmul := hR.mul W (R.acP r b)
  set q := R.mul W (R.acP r b) / W with hq
  have hqW : R.mul W (R.acP r b) = W * q := by rw [hq, mul_div_cancel₀ _ hW.ne']
  have hqp : |q - R.acP r b| ≤ ε * |R.acP r b| := by
    rw [hqW, ← mul_sub, abs_mul, abs_mul, abs_of_pos hW] at hmul
    have : W * |q - R.acP r b| ≤ W * (ε * |R.acP r b|) := by linarith
    exact le_of_mul_le_mul_left this hW
  set e := Real.exp r with he
  have hxe : |R.exp r - e| ≤ 2 * ε := by
    refine x1.trans ?_
    nlinarith
  obtain ⟨y1, y2⟩ := abs_le.1 hxe
  -- it is enough to know that `q` is near
  have fin : ∀ v, |v - e| ≤ 5 * ε → q = (if b then 1 - v else v) → ∃ r', Real.exp r' < 1 ∧ (1 - 8 * ε / m) * e ≤ Real.exp r' ∧
      R.acSplit low high (R.acP r b) = encSplit low high (encP r' b) := by
    intro v hv hqv
    obtain ⟨v1, v2⟩ := abs_le.1 hv
    have hv0 : 0 < v := by linarith
    refine ⟨Real.log v, ?_, ?_, ?_⟩
    · rw [Real.exp_log hv0]
      linarith
    · rw [Real.exp_log hv0]
      have : 8 * ε ≤ 8 * ε / m * e := by
        rw [div_mul_eq_mul_div, le_div_iff₀ hm0]
        exact mul_le_mul_of_nonneg_left h1 (by linarith)
      linarith
    · unfold acSplit encSplit encP
      rw [Real.exp_log hv0, ← hqv, hWd, hqW]
  cases b with
  | false =>
    refine fin q ?_ (by simp)
    simp only [acP, Bool.false_eq_true, if_false] at hqp
    rw [abs_of_nonneg x0] at hqp
    obtain ⟨z1, z2⟩ := abs_le.1 hqp
    rw [abs_le]
    constructor <;> nlinarith
  | true =>
    refine fin (1 - q) ?_ (by simp)
    simp only [acP, if_true] at hqp
    have hs := hR.sub 1 (R.exp r)
    rw [abs_of_nonneg (by linarith : 0 ≤ 1 - R.exp r)] at hs
    obtain ⟨s1, s2⟩ := abs_le.1 hs
    have hp : |R.sub 1 (R.exp r)| ≤ 2 := by
      rw [abs_le]
      constructor <;> nlinarith
    obtain ⟨z1, z2⟩ := abs_le.1 hqp
    have := mul_le_mul_of_nonneg_left hp e0
    have h3 : ε * (1 - R.exp r) ≤ ε := by nlinarith
    rw [abs_le]
    constructor <;> linarith

variable {P : Predictor σ Bool} {N : ℕ}

theorem ac_encode_eq {s : Enc} {st st' : σ} {b : Bool} {r r' : ℝ} {fuel : ℕ} (hu : P.update st b [] 1 = .ok (r, st'))
    (h : R.acSplit s.low s.high (R.acP r b) = encSplit s.low s.high (encP r' b)) :
    R.acEncode P N fuel s st b = (do
      let (o, s') ← encodeWith N fuel s (encP r' b) b
      pure (o, s', st')) := by
  simp only [acEncode, hu, liftRun, ok_bind, h]
  rfl

theorem ac_all (hR : R.Accurate ε) {m : ℝ} (hm0 : 0 < m) (hm : 16 * ε ≤ m) (hN : 1 ≤ N) {fuel : ℕ} {s s' : Enc} (hs : s.Ok N) {st st' : σ} {bits o : List Bool}
    (hW : Within P m st bits) (h : R.acEncodeAll P N fuel s st bits = .ok (o, s', st')) :
    s'.Ok N ∧ ∃ r, P.run st (plainObs bits) = .ok (r, st') ∧
      ((s.high - s.low : ℤ) : ℝ) * Real.exp r * (1 / 2 * (1 - 8 * ε / m)) ^ bits.length * 2 ^ o.length ≤ ((s'.high - s'.low : ℤ) : ℝ) := by
  have e0 := hR.nonneg
  have hc : 0 ≤ 1 / 2 * (1 - 8 * ε / m) := by
    have : 8 * ε / m ≤ 1 / 2 := by
      rw [div_le_iff₀ hm0]
      linarith
    linarith
  induction bits generalizing s st o with
  | nil =>
    simp only [acEncodeAll, pure_eq_ok, Except.ok.injEq, Prod.mk.injEq] at h
    obtain ⟨rfl, rfl, rfl⟩ := h
    exact ⟨hs, 0, rfl, by simp⟩
  | cons b bs ih =>
    obtain ⟨r, st1, hu, w1, w2, w3⟩ := hW
    have hlt : s.low < s.high := by have := hs.straddle; omega
    obtain ⟨r', k1, k2, k3⟩ := ac_step hR hm0 hm w1 w2 hlt b
    simp only [acEncodeAll, ac_encode_eq hu k3, bind_eq_ok, pure_eq_ok, Except.ok.injEq, Prod.mk.injEq, Prod.exists] at h
    obtain ⟨o1, s1, st1', ⟨o1', s1', he, rfl, rfl, rfl⟩, o2, s2, st2, h2, rfl, rfl, rfl⟩ := h
    obtain ⟨ok1, wd⟩ := encodeWith_ok hN hs (encP_lt k1 b).1 he
    obtain ⟨ok2, r2, hr2, hle⟩ := ih ok1 w3 h2
    refine ⟨ok2, r + r2, ?_, le_trans ?_ hle⟩
    · simp only [plainObs, List.map_cons, Predictor.run, hu, ok_bind]
      change (do let (r', s'') ← P.run st1 (plainObs bs); pure (r + r', s'')) = _
      rw [hr2]
      rfl
    · have wd' : ((s1'.high - s1'.low : ℤ) : ℝ) = ((kept s (encP r' b) b : ℤ) : ℝ) * 2 ^ o1'.length := by
        rw [wd]
        push_cast [kept]
        rfl
      have hk := (kept_ge (hs.two_le hN) k1 b).1
      rw [wd', Real.exp_add, List.length_cons, List.length_append, pow_succ, pow_add]
      have hp := Real.exp_pos r2
      have hWpos : (0 : ℝ) ≤ ((s.high - s.low : ℤ) : ℝ) := by exact_mod_cast (by omega)
      have hk' : 1 / 2 * (1 - 8 * ε / m) * (((s.high - s.low : ℤ) : ℝ) * Real.exp r) ≤ ((kept s (encP r' b) b : ℤ) : ℝ) := by
        refine le_trans ?_ hk
        have := mul_le_mul_of_nonneg_left k2 hWpos
        linarith
      generalize 1 / 2 * (1 - 8 * ε / m) = c at *
      calc _ = (c * (((s.high - s.low : ℤ) : ℝ) * Real.exp r)) *
            (Real.exp r2 * c ^ bs.length * (2 ^ o1'.length * 2 ^ o2.length)) := by ring
        _ ≤ ((kept s (encP r' b) b : ℤ) : ℝ) * (Real.exp r2 * c ^ bs.length * (2 ^ o1'.length * 2 ^ o2.length)) :=
            mul_le_mul_of_nonneg_right hk' (by positivity)
        _ = _ := by ring

theorem ac_all_total (hR : R.Accurate ε) {m : ℝ} (hm0 : 0 < m) (hm : 16 * ε ≤ m) (hN : 1 ≤ N) (j : ℕ) {s : Enc} (hs : s.Ok N) {st : σ} {bits : List Bool}
    (hW : Within P m st bits) : ∃ o s' st', R.acEncodeAll P N (N + 1 + j) s st bits = .ok (o, s', st') := by
  induction bits generalizing s st with
  | nil => exact ⟨_, _, _, rfl⟩
  | cons b bs ih =>
    obtain ⟨r, st1, hu, w1, w2, w3⟩ := hW
    have hlt : s.low < s.high := by have := hs.straddle; omega
    obtain ⟨r', k1, k2, k3⟩ := ac_step hR hm0 hm w1 w2 hlt b
    obtain ⟨o1, s1, h1⟩ := encodeWith_total hN hs (encP_lt k1 b).1 b j
    obtain ⟨o2, s2, st2, h2⟩ := ih (encodeWith_ok hN hs (encP_lt k1 b).1 h1).1 w3
    refine ⟨o1 ++ o2, s2, st2, ?_⟩
    simp only [acEncodeAll, ac_encode_eq hu k3, ok_bind, h1, pure_eq_ok, h2]

/-- From the widths to the length of the code. -/
theorem ac_length (hR : R.Accurate ε) {m : ℝ} (hm0 : 0 < m) (hm : 16 * ε ≤ m) (hN : 1 ≤ N) {fuel : ℕ} {st : σ} {msg code : List Bool}
    (hW : Within P m st msg) (h : R.acCompress P N fuel st msg = .ok code) :
    ∃ r st', P.run st (plainObs msg) = .ok (r, st') ∧
      (code.length : ℝ) ≤ 2 + -Real.logb 2 (Real.exp r) + msg.length * (1 + -Real.logb 2 (1 - 8 * ε / m)) := by
  simp only [acCompress, bind_eq_ok, pure_eq_ok, Except.ok.injEq, Prod.exists] at h
  obtain ⟨o, s, t, h, rfl⟩ := h
  obtain ⟨hs, r, hr, hle⟩ := ac_all hR hm0 hm hN (Enc.ok_init hN) hW h
  have hfl : (s.flush N).length = 2 := by
    unfold Enc.flush
    rw [hs.follow]
    split_ifs <;> rfl
  refine ⟨r, t, hr, ?_⟩
  have hT : (0 : ℝ) < ((top N : ℤ) : ℝ) := by
    have := top_eq hN
    have := half_pos hN
    exact_mod_cast (by omega : 0 < top N)
  have hle' : ((s.high - s.low : ℤ) : ℝ) ≤ ((top N : ℤ) : ℝ) := by
    have := hs.high
    have := hs.low
    exact_mod_cast (by omega : s.high - s.low ≤ top N)
  have htop : ((Enc.init N).high - (Enc.init N).low : ℤ) = top N := by simp [Enc.init]
  have hd : 0 < 1 - 8 * ε / m := by
    have : 8 * ε / m ≤ 1 / 2 := by
      rw [div_le_iff₀ hm0]
      linarith
    linarith
  rw [htop] at hle
  generalize 1 - 8 * ε / m = d at *
  have hb : Real.exp r * (1 / 2 * d) ^ msg.length * 2 ^ o.length ≤ 1 := by
    have h1 := hle.trans hle'
    by_contra hcon
    push Not at hcon
    nlinarith [mul_lt_mul_of_pos_left hcon hT]
  have hlog : Real.logb 2 (Real.exp r * (1 / 2 * d) ^ msg.length * 2 ^ o.length) ≤ 0 :=
    Real.logb_nonpos (by norm_num) (by positivity) hb
  rw [Real.logb_mul (by positivity) (by positivity), Real.logb_mul (by positivity) (by positivity), Real.logb_pow,
    Real.logb_pow, Real.logb_self_eq_one (by norm_num), mul_one, Real.logb_mul (by norm_num) hd.ne',
    show (1 / 2 : ℝ) = 2⁻¹ by norm_num, Real.logb_inv, Real.logb_self_eq_one (by norm_num)] at hlog
  rw [List.length_append, hfl]
  push_cast
  linarith

end Arith

end Verif
