import Verif.Proofs.RoundingAC
import Verif.Proofs.CodeLengthAmortised

/-! The amortised bound of the rounding of the interval, for an encoder that computes in rounded arithmetic. -/

namespace Verif

open Predictor AC

namespace Arith

variable {σ : Type} {R : Arith} {ε : ℝ} {P : Predictor σ Bool} {N : ℕ}

/-- The accounts of a message. -/
theorem ac_all_account (hR : R.Accurate ε) {m : ℝ} (hm0 : 0 < m) (hm : 16 * ε ≤ m) (hN : 2 ≤ N) {fuel k : ℕ} (hk : k ≤ N - 1)
    {s s' : Enc} (hs : s.Ok N) {st st' : σ} {bits o : List Bool} (hW : Within P m st bits) (h : R.acEncodeAll P N fuel s st bits = .ok (o, s', st')) :
    ∃ r, P.run st (plainObs bits) = .ok (r, st') ∧
      ∀ C, C = (o.length : ℝ) + Real.logb 2 ((s.high - s.low : ℤ) : ℝ) - Real.logb 2 ((s'.high - s'.low : ℤ) : ℝ) →
      C ≤ -Real.logb 2 (Real.exp r) + bits.length * (1 / (2 ^ k * Real.log 2) + -Real.logb 2 (1 - 8 * ε / m)) +
        (short k ((s'.high - s'.low : ℤ) : ℝ) - short k ((s.high - s.low : ℤ) : ℝ)) +
        k / (N - 1 : ℕ) * (short (N - 1 : ℕ) ((s.high - s.low : ℤ) : ℝ) - short (N - 1 : ℕ) ((s'.high - s'.low : ℤ) : ℝ)) +
        2 * (k / (N - 1 : ℕ)) * C := by
  have hN1 : 1 ≤ N := by omega
  have hd : 0 < 1 - 8 * ε / m := by
    have : 8 * ε / m ≤ 1 / 2 := by
      rw [div_le_iff₀ hm0]
      linarith
    linarith
  induction bits generalizing s st o with
  | nil =>
    simp only [acEncodeAll, pure_eq_ok, Except.ok.injEq, Prod.mk.injEq] at h
    obtain ⟨rfl, rfl, rfl⟩ := h
    exact ⟨0, rfl, by simp⟩
  | cons b bs ih =>
    obtain ⟨r1, st1, hu, w1, w2, w3⟩ := hW
    have hlt : s.low < s.high := by have := hs.straddle; omega
    obtain ⟨r', e1, e2, e3⟩ := ac_step hR hm0 hm w1 w2 hlt b
    simp only [acEncodeAll, ac_encode_eq hu e3, bind_eq_ok, pure_eq_ok, Except.ok.injEq, Prod.mk.injEq, Prod.exists] at h
    obtain ⟨o1, s1, st1', ⟨o1', s1', he, rfl, rfl, rfl⟩, o2, s2, st2, h2, rfl, rfl, rfl⟩ := h
    obtain ⟨ok1, wd⟩ := encodeWith_ok hN1 hs (encP_lt e1 b).1 he
    have hren := encodeWith_renew hN1 hs (encP_lt e1 b).1 he
    obtain ⟨r2, hr2, hC⟩ := ih ok1 w3 h2
    obtain ⟨m1, m2⟩ := encSplit_mem (low := s.low) (high := s.high) (by have := hs.two_le hN1; omega) (encP_lt e1 b).1
    have hkge := (kept_ge (hs.two_le hN1) e1 b).2
    have hk1 : 1 ≤ kept s (encP r' b) b := by
      unfold kept
      split_ifs <;> omega
    have hk2 : kept s (encP r' b) b + 1 ≤ s.high - s.low := by
      unfold kept
      split_ifs <;> omega
    have wd' : s1'.high - s1'.low = kept s (encP r' b) b * 2 ^ o1'.length := wd
    have hhalf : half N = 2 ^ (N - 1) := by
      obtain ⟨n, rfl⟩ := Nat.exists_eq_add_of_le' hN1
      rw [half_succ]
      rfl
    have hp1 : (1 : ℤ) ≤ 2 ^ o1'.length := one_le_pow₀ (by norm_num)
    have hacc := account (M := N - 1) (k := k) hk (by omega) hk1 hk2 (u := s1'.high - s1'.low) (by
      rcases hren with rfl | hren
      · left
        rw [wd']
        simp
      · right
        rw [hhalf] at hren
        exact ⟨by rw [wd']; nlinarith, hren⟩) (Real.exp_pos r') (by linarith)
    have hloss : -Real.logb 2 (Real.exp r') ≤ -Real.logb 2 (Real.exp r1) + -Real.logb 2 (1 - 8 * ε / m) := by
      have := Real.logb_le_logb_of_le (b := 2) (by norm_num) (by positivity) e2
      rw [Real.logb_mul hd.ne' (Real.exp_pos _).ne'] at this
      linarith
    refine ⟨r1 + r2, ?_, ?_⟩
    · simp only [plainObs, List.map_cons, Predictor.run, hu, ok_bind]
      change (do let (r', s'') ← P.run st1 (plainObs bs); pure (r1 + r', s'')) = _
      rw [hr2]
      rfl
    · rintro C rfl
      have hlog : Real.logb 2 ((s1'.high - s1'.low : ℤ) : ℝ) =
          Real.logb 2 ((kept s (encP r' b) b : ℤ) : ℝ) + o1'.length := by
        have hk1' : (1 : ℝ) ≤ ((kept s (encP r' b) b : ℤ) : ℝ) := by exact_mod_cast hk1
        rw [wd', Int.cast_mul, Int.cast_pow, Int.cast_ofNat, Real.logb_mul (by linarith) (by positivity), Real.logb_pow,
          Real.logb_self_eq_one (by norm_num), mul_one]
      have h3 := hC _ rfl
      rw [Real.exp_add, Real.logb_mul (Real.exp_pos _).ne' (Real.exp_pos _).ne', List.length_append, List.length_cons]
      push_cast at hacc h3 hlog ⊢
      generalize Real.logb 2 ((s1'.high : ℝ) - s1'.low) = L1 at *
      generalize Real.logb 2 ((kept s (encP r' b) b : ℤ) : ℝ) = L0 at *
      subst hlog
      linarith

/-- From the accounts to the length of the code. -/
theorem ac_length_amortised (hR : R.Accurate ε) {m : ℝ} (hm0 : 0 < m) (hm : 16 * ε ≤ m) (hN : 2 ≤ N) {fuel : ℕ} {st : σ} {msg code : List Bool}
    (hW : Within P m st msg) (h : R.acCompress P N fuel st msg = .ok code) :
    ∃ r st', P.run st (plainObs msg) = .ok (r, st') ∧ ∀ k : ℕ, 2 * k + 1 ≤ N →
      ((N : ℝ) - 1 - 2 * k) * ((code.length : ℝ) - 2) ≤
        ((N : ℝ) - 1) * (-Real.logb 2 (Real.exp r) + msg.length * (1 / (2 ^ k * Real.log 2) + -Real.logb 2 (1 - 8 * ε / m))) := by
  have hN1 : 1 ≤ N := by omega
  simp only [acCompress, bind_eq_ok, pure_eq_ok, Except.ok.injEq, Prod.exists] at h
  obtain ⟨o, s, t, h, rfl⟩ := h
  have hs := (ac_all hR hm0 hm hN1 (Enc.ok_init hN1) hW h).1
  have hfl : (s.flush N).length = 2 := by
    unfold Enc.flush
    rw [hs.follow]
    split_ifs <;> rfl
  obtain ⟨r, hr, -⟩ := ac_all_account (k := 0) hR hm0 hm hN (by omega) (Enc.ok_init hN1) hW h
  refine ⟨r, t, hr, fun k hk => ?_⟩
  obtain ⟨r', hr', hC⟩ := ac_all_account (k := k) hR hm0 hm hN (by omega) (Enc.ok_init hN1) hW h
  rw [hr, Except.ok.injEq, Prod.mk.injEq] at hr'
  obtain rfl := hr'.1
  have htop : ((Enc.init N).high - (Enc.init N).low : ℤ) = 2 ^ N := by simp [Enc.init, top]
  have hlogT : Real.logb 2 (((2 : ℤ) ^ N : ℤ) : ℝ) = N := by
    rw [Int.cast_pow, Int.cast_ofNat, Real.logb_pow, Real.logb_self_eq_one (by norm_num), mul_one]
  have h2 := hC _ rfl
  rw [htop, hlogT] at h2
  have hM : ((N - 1 : ℕ) : ℝ) = (N : ℝ) - 1 := by rw [Nat.cast_sub hN1]; simp
  have hN' : (2 : ℝ) ≤ N := by exact_mod_cast hN
  have hk' : (k : ℝ) + 1 ≤ N := by exact_mod_cast (by omega : k + 1 ≤ N)
  have s1 : short (k : ℝ) (((2 : ℤ) ^ N : ℤ) : ℝ) = 0 := by
    rw [short, hlogT]
    exact max_eq_left (by linarith)
  have s2 : short ((N - 1 : ℕ) : ℝ) (((2 : ℤ) ^ N : ℤ) : ℝ) = 0 := by
    rw [short, hlogT, hM]
    exact max_eq_left (by linarith)
  rw [s1, s2, hM] at h2
  have hw1 : (1 : ℝ) ≤ ((s.high - s.low : ℤ) : ℝ) := by
    exact_mod_cast (by have := hs.straddle; omega : 1 ≤ s.high - s.low)
  have hwT : ((s.high - s.low : ℤ) : ℝ) ≤ 2 ^ N := by
    have a := hs.high
    have b := hs.low
    unfold top at a
    exact_mod_cast (by omega : s.high - s.low ≤ 2 ^ N)
  have hlw : Real.logb 2 ((s.high - s.low : ℤ) : ℝ) ≤ N := by
    have := Real.logb_le_logb_of_le (b := 2) (by norm_num) (by linarith) hwT
    rwa [Real.logb_pow, Real.logb_self_eq_one (by norm_num), mul_one] at this
  generalize ((s.high - s.low : ℤ) : ℝ) = w at *
  generalize hLw : Real.logb 2 w = Lw at *
  have hd0 : (0 : ℝ) < (N : ℝ) - 1 := by linarith
  have hphi : ((N : ℝ) - 1) * short k w ≤ k * short ((N : ℝ) - 1) w := by
    rcases le_total (k - Real.logb 2 w) 0 with hc | hc
    · rw [short, max_eq_left hc, mul_zero]
      exact mul_nonneg (Nat.cast_nonneg k) (short_nonneg _ _)
    · have : (N : ℝ) - 1 - Real.logb 2 w ≤ short ((N : ℝ) - 1) w := le_max_right _ _
      rw [short, max_eq_right hc]
      have := mul_le_mul_of_nonneg_left this (Nat.cast_nonneg (α := ℝ) k)
      have h0 : 0 ≤ Lw := by rw [← hLw]; exact Real.logb_nonneg (by norm_num) hw1
      rw [hLw] at this ⊢
      nlinarith
  have key := mul_le_mul_of_nonneg_left h2 hd0.le
  have e1 : ((N : ℝ) - 1) * (k / ((N : ℝ) - 1)) = k := by field_simp
  generalize (msg.length : ℝ) * (1 / (2 ^ k * Real.log 2) + -Real.logb 2 (1 - 8 * ε / m)) = E at *
  have e2 : ((N : ℝ) - 1) * (-Real.logb 2 (Real.exp r) + E + (short k w - 0) +
      k / ((N : ℝ) - 1) * (0 - short ((N : ℝ) - 1) w) + 2 * (k / ((N : ℝ) - 1)) * ((o.length : ℝ) + N - Lw)) =
      ((N : ℝ) - 1) * (-Real.logb 2 (Real.exp r) + E) + (((N : ℝ) - 1) * short k w -
        k * short ((N : ℝ) - 1) w) + 2 * k * ((o.length : ℝ) + N - Lw) := by
    linear_combination (-short ((N : ℝ) - 1) w + 2 * ((o.length : ℝ) + N - Lw)) * e1
  rw [e2] at key
  rw [List.length_append, hfl]
  push_cast
  have hc : 2 * (k : ℝ) + 1 ≤ N := by exact_mod_cast hk
  have := mul_nonneg (show (0 : ℝ) ≤ (N : ℝ) - 1 - 2 * k by linarith) (show (0 : ℝ) ≤ N - Lw by linarith)
  linarith

end Arith

end Verif
