import Verif.Proofs.CodeLength

/-!
An amortised bound of the rounding of the interval.  A symbol that leaves an interval of `v` units costs at most
`log2 (1 + 1 / v)` bits more than its probability asks for.  In a narrow interval this is much, but the interval gets
narrower with every symbol, and when it no longer contains the middle it is widened to about the whole range.
-/

namespace Verif

open Predictor AC

variable {σ : Type} {P : Predictor σ Bool} {N : ℕ} {I : σ → Prop} {W : ℝ → Prop}

namespace AC

/-- Where the interval ends, compared with its upper end. -/
theorem normLoop_wide_low (hN : 1 ≤ N) {k : ℕ} {s s' : Enc} {o : List Bool} (h0 : 0 ≤ s.low) (h1 : s.high ≤ top N)
    (hlt : s.low < s.high) (hf : s.follow = 0) (h : normLoop N k s = .ok (o, s')) :
    half N * (s.high - s.low) ≤ (s'.high - s'.low) * s.high := by
  have ht := top_eq hN
  induction k generalizing s o with
  | zero => simp [normLoop] at h
  | succ k ih =>
    obtain ⟨-, hwd⟩ := normLoop_ok hN h0 h1 hf h
    by_cases c : s.high ≤ half N
    · rw [normLoop, if_pos c] at h
      simp only [bind_eq_ok, pure_eq_ok, Except.ok.injEq, Prod.mk.injEq, Prod.exists] at h
      obtain ⟨o', s1, h2, rfl, rfl⟩ := h
      have := ih (by simp only; omega) (by simp only; omega) (by simp only; omega) rfl h2
      simp only at this
      nlinarith
    · have hp : (1 : ℤ) ≤ 2 ^ o.length := one_le_pow₀ (by norm_num)
      have hge : s.high - s.low ≤ s'.high - s'.low := by
        rw [hwd]
        nlinarith
      have := half_pos hN
      nlinarith

/-- Where the interval ends, compared with its lower end. -/
theorem normLoop_wide_high (hN : 1 ≤ N) {k : ℕ} {s s' : Enc} {o : List Bool} (h0 : 0 ≤ s.low) (h1 : s.high ≤ top N)
    (hlt : s.low < s.high) (hf : s.follow = 0) (h : normLoop N k s = .ok (o, s')) :
    half N * (s.high - s.low) ≤ (s'.high - s'.low) * (top N - s.low) := by
  have ht := top_eq hN
  have hh := half_pos hN
  induction k generalizing s o with
  | zero => simp [normLoop] at h
  | succ k ih =>
    obtain ⟨-, hwd⟩ := normLoop_ok hN h0 h1 hf h
    by_cases c : s.low < half N
    · have hp : (1 : ℤ) ≤ 2 ^ o.length := one_le_pow₀ (by norm_num)
      have hge : s.high - s.low ≤ s'.high - s'.low := by
        rw [hwd]
        nlinarith
      nlinarith
    · rw [normLoop, if_neg (by omega), if_pos (by omega)] at h
      simp only [bind_eq_ok, pure_eq_ok, Except.ok.injEq, Prod.mk.injEq, Prod.exists] at h
      obtain ⟨o', s1, h2, rfl, rfl⟩ := h
      have := ih (by simp only; omega) (by simp only; omega) (by simp only; omega) rfl h2
      simp only at this
      rw [ht] at this ⊢
      nlinarith

/-- One symbol: it is coded without output, or the interval is widened to nearly the whole range. -/
theorem encodeWith_renew (hN : 1 ≤ N) {fuel : ℕ} {s s' : Enc} (hs : s.Ok N) {p : ℝ} (hp : p < 1) {b : Bool} {o : List Bool}
    (h : encodeWith N fuel s p b = .ok (o, s')) :
    o = [] ∨ half N * kept s p b ≤ (s'.high - s'.low) * (s.high - s.low) := by
  obtain ⟨m1, m2⟩ := encSplit_mem (low := s.low) (high := s.high) (by have := hs.straddle; omega) hp
  have hl := hs.low
  have hh := hs.high
  have hst := hs.straddle
  have hf := hs.follow
  have ht := top_eq hN
  obtain ⟨hok, -⟩ := encodeWith_ok hN hs hp h
  have hw' : 0 ≤ s'.high - s'.low := by have := hok.straddle; omega
  cases fuel with
  | zero => simp [encodeWith, normLoop] at h
  | succ k =>
    cases b with
    | false =>
      simp only [encodeWith, Bool.false_eq_true, if_false, kept] at h ⊢
      generalize encSplit s.low s.high p = q at *
      by_cases c : q ≤ half N
      · right
        rw [normLoop, if_pos c] at h
        simp only [bind_eq_ok, pure_eq_ok, Except.ok.injEq, Prod.mk.injEq, Prod.exists] at h
        obtain ⟨o', s1, h2, rfl, rfl⟩ := h
        have := normLoop_wide_high hN (by simp only; omega) (by simp only; omega) (by simp only; omega) rfl h2
        simp only at this
        rw [ht] at this
        nlinarith
      · left
        rw [normLoop, if_neg (by simpa using c), if_neg (by simp only; omega), if_neg (by simp only [enc34]; omega)] at h
        simp only [pure_eq_ok, Except.ok.injEq, Prod.mk.injEq] at h
        exact h.1.symm
    | true =>
      simp only [encodeWith, if_true, kept] at h ⊢
      generalize encSplit s.low s.high p = q at *
      by_cases c : half N ≤ q
      · right
        rw [normLoop, if_neg (by simp only; omega), if_pos (by simpa using c)] at h
        simp only [bind_eq_ok, pure_eq_ok, Except.ok.injEq, Prod.mk.injEq, Prod.exists] at h
        obtain ⟨o', s1, h2, rfl, rfl⟩ := h
        have := normLoop_wide_low hN (by simp only; omega) (by simp only; omega) (by simp only; omega) rfl h2
        simp only at this
        nlinarith
      · left
        rw [normLoop, if_neg (by simp only; omega), if_neg (by simpa using c), if_neg (by simp only [enc34]; omega)] at h
        simp only [pure_eq_ok, Except.ok.injEq, Prod.mk.injEq] at h
        exact h.1.symm

/-- How far an interval of `w` units is below `2 ^ k` units, in bits. -/
noncomputable def short (k : ℝ) (w : ℝ) : ℝ := max 0 (k - Real.logb 2 w)

theorem short_nonneg (k w : ℝ) : 0 ≤ short k w := le_max_left _ _

/-- The bits lost by rounding in a step from `w` to `v` units. -/
theorem loss_le (k : ℕ) {w v : ℤ} (hv : 1 ≤ v) (hvw : v + 1 ≤ w) :
    Real.logb 2 ((v : ℝ) + 1) - Real.logb 2 v ≤ 1 / (2 ^ k * Real.log 2) + short k v - short k w := by
  have hv' : (1 : ℝ) ≤ v := by exact_mod_cast hv
  have hw' : (v : ℝ) + 1 ≤ w := by exact_mod_cast hvw
  have hl2 : 0 < Real.log 2 := Real.log_pos (by norm_num)
  have hmono : Real.logb 2 ((v : ℝ) + 1) ≤ Real.logb 2 w := Real.logb_le_logb_of_le (by norm_num) (by linarith) hw'
  rcases lt_or_ge v (2 ^ k) with hlt | hge
  · have hk : Real.logb 2 ((v : ℝ) + 1) ≤ k := by
      have h1 : (v : ℝ) + 1 ≤ 2 ^ k := by exact_mod_cast (by omega : v + 1 ≤ 2 ^ k)
      have := Real.logb_le_logb_of_le (b := 2) (by norm_num) (by linarith) h1
      rwa [Real.logb_pow, Real.logb_self_eq_one (by norm_num), mul_one] at this
    have h1 : k - Real.logb 2 v ≤ short k v := le_max_right _ _
    have h2 : short k w ≤ k - Real.logb 2 ((v : ℝ) + 1) := max_le (by linarith) (by linarith)
    have : (0 : ℝ) ≤ 1 / (2 ^ k * Real.log 2) := by positivity
    linarith
  · have hge' : (2 : ℝ) ^ k ≤ v := by exact_mod_cast hge
    have hkw : (k : ℝ) ≤ Real.logb 2 w := by
      have := Real.logb_le_logb_of_le (b := 2) (by norm_num) (by positivity) (hge'.trans (by linarith : (v : ℝ) ≤ w))
      rwa [Real.logb_pow, Real.logb_self_eq_one (by norm_num), mul_one] at this
    have h2 : short k w = 0 := max_eq_left (by linarith)
    have h1 := short_nonneg k v
    have h3 : Real.logb 2 ((v : ℝ) + 1) - Real.logb 2 v ≤ 1 / (2 ^ k * Real.log 2) := by
      rw [← Real.logb_div (by linarith) (by linarith), Real.logb, div_le_div_iff₀ hl2 (by positivity)]
      have := Real.log_le_sub_one_of_pos (show 0 < ((v : ℝ) + 1) / v by positivity)
      have e : ((v : ℝ) + 1) / v - 1 = 1 / v := by field_simp; ring
      rw [e] at this
      have h4 : (1 : ℝ) / v ≤ 1 / 2 ^ k := one_div_le_one_div_of_le (by positivity) hge'
      have h5 : Real.log (((v : ℝ) + 1) / v) * 2 ^ k ≤ 1 := by
        calc _ ≤ 1 / 2 ^ k * (2 : ℝ) ^ k := mul_le_mul_of_nonneg_right (this.trans h4) (by positivity)
          _ = 1 := by field_simp
      nlinarith
    linarith

/-- The accounts of one symbol: `w` units before it, `v` for it, `u` after widening. -/
theorem account {M k : ℕ} (hk : k ≤ M) (hM : 0 < M) {w v u : ℤ} (hv : 1 ≤ v) (hvw : v + 1 ≤ w)
    (hu : u = v ∨ (v ≤ u ∧ (2 : ℤ) ^ M * v ≤ u * w)) {p : ℝ} (hp : 0 < p) (hwp : (w : ℝ) * p ≤ v + 1) :
    Real.logb 2 w - Real.logb 2 v ≤ -Real.logb 2 p + 1 / (2 ^ k * Real.log 2) + (short k u - short k w) +
      k / M * (short M w - short M u) + 2 * (k / M) * (Real.logb 2 w - Real.logb 2 v) := by
  have hv' : (1 : ℝ) ≤ v := by exact_mod_cast hv
  have hw' : (v : ℝ) + 1 ≤ w := by exact_mod_cast hvw
  have hM' : (0 : ℝ) < M := by exact_mod_cast hM
  have hk' : (k : ℝ) ≤ M := by exact_mod_cast hk
  have hd : (0 : ℝ) ≤ k / M := by positivity
  have h1 := loss_le k hv hvw
  have hmono : Real.logb 2 v ≤ Real.logb 2 w := Real.logb_le_logb_of_le (by norm_num) (by linarith) (by linarith)
  have h2 : Real.logb 2 w + Real.logb 2 p ≤ Real.logb 2 ((v : ℝ) + 1) := by
    rw [← Real.logb_mul (by linarith) hp.ne']
    exact Real.logb_le_logb_of_le (by norm_num) (mul_pos (by linarith) hp) hwp
  have hlip : short M v - short M w ≤ Real.logb 2 w - Real.logb 2 v := by
    have a1 : short M v ≤ short M w + (Real.logb 2 w - Real.logb 2 v) := by
      apply max_le
      · have := short_nonneg M w
        linarith
      · have : M - Real.logb 2 w ≤ short M w := le_max_right _ _
        linarith
    linarith
  rcases hu with rfl | ⟨huv, hu⟩
  · have := mul_le_mul_of_nonneg_left hlip hd
    have := mul_nonneg hd (sub_nonneg.2 hmono)
    linarith
  · have hu1 : (1 : ℝ) ≤ u := by exact_mod_cast hv.trans huv
    have hu' : (2 : ℝ) ^ M * v ≤ u * w := by exact_mod_cast hu
    have hlog : M + Real.logb 2 v ≤ Real.logb 2 u + Real.logb 2 w := by
      have := Real.logb_le_logb_of_le (b := 2) (by norm_num) (by positivity) hu'
      rwa [Real.logb_mul (by positivity) (by linarith), Real.logb_mul (by linarith) (by linarith), Real.logb_pow,
        Real.logb_self_eq_one (by norm_num), mul_one] at this
    have a1 : short M u ≤ Real.logb 2 w - Real.logb 2 v := max_le (by linarith) (by linarith)
    have hlv : 0 ≤ Real.logb 2 v := Real.logb_nonneg (by norm_num) hv'
    have a2 : short k v ≤ k / M * short M v := by
      apply max_le (mul_nonneg hd (short_nonneg _ _))
      have b1 : M - Real.logb 2 v ≤ short M v := le_max_right _ _
      have b2 := mul_le_mul_of_nonneg_left b1 hd
      have b3 : (k : ℝ) / M * M = k := by field_simp
      have b4 : (k : ℝ) / M * Real.logb 2 v ≤ Real.logb 2 v :=
        mul_le_of_le_one_left hlv ((div_le_one hM').2 hk')
      linarith [mul_sub ((k : ℝ) / M) M (Real.logb 2 v)]
    have a3 := short_nonneg k u
    have c1 := mul_le_mul_of_nonneg_left hlip hd
    have c2 := mul_le_mul_of_nonneg_left a1 hd
    linarith

/-- The accounts of a message. -/
theorem encodeAll_account (hN : 2 ≤ N) (hP : P.UpdateLawful I [false, true] W) (hw : W 1) {fuel k : ℕ} (hk : k ≤ N - 1)
    {s s' : Enc} (hs : s.Ok N) {st st' : σ} (hst : I st) {bits o : List Bool}
    (h : encodeAll P N fuel s st bits = .ok (o, s', st')) :
    ∃ r, P.run st (plainObs bits) = .ok (r, st') ∧
      ∀ C, C = (o.length : ℝ) + Real.logb 2 ((s.high - s.low : ℤ) : ℝ) - Real.logb 2 ((s'.high - s'.low : ℤ) : ℝ) →
      C ≤ -Real.logb 2 (Real.exp r) + bits.length * (1 / (2 ^ k * Real.log 2)) +
        (short k ((s'.high - s'.low : ℤ) : ℝ) - short k ((s.high - s.low : ℤ) : ℝ)) +
        k / (N - 1 : ℕ) * (short (N - 1 : ℕ) ((s.high - s.low : ℤ) : ℝ) - short (N - 1 : ℕ) ((s'.high - s'.low : ℤ) : ℝ)) +
        2 * (k / (N - 1 : ℕ)) * C := by
  have hN1 : 1 ≤ N := by omega
  induction bits generalizing s st o with
  | nil =>
    simp only [encodeAll, pure_eq_ok, Except.ok.injEq, Prod.mk.injEq] at h
    obtain ⟨rfl, rfl, rfl⟩ := h
    exact ⟨0, rfl, by simp⟩
  | cons b bs ih =>
    simp only [encodeAll, encode, bind_eq_ok, pure_eq_ok, Except.ok.injEq, Prod.mk.injEq, Prod.exists] at h
    obtain ⟨o1, s1, st1, ⟨r1, st1', hu, o1', s1', he, rfl, rfl, rfl⟩, o2, s2, st2, h2, rfl, rfl, rfl⟩ := h
    rw [liftRun_ok] at hu
    obtain ⟨e1, i1⟩ := exp_update_lt hP hw hst hu
    obtain ⟨ok1, wd⟩ := encodeWith_ok hN1 hs (encP_lt e1 b).1 he
    have hren := encodeWith_renew hN1 hs (encP_lt e1 b).1 he
    obtain ⟨r2, hr2, hC⟩ := ih ok1 i1 h2
    obtain ⟨m1, m2⟩ := encSplit_mem (low := s.low) (high := s.high) (by have := hs.straddle; omega) (encP_lt e1 b).1
    have hkge := (kept_ge (hs.two_le hN1) e1 b).2
    have hk1 : 1 ≤ kept s (encP r1 b) b := by
      unfold kept
      split_ifs <;> omega
    have hk2 : kept s (encP r1 b) b + 1 ≤ s.high - s.low := by
      unfold kept
      split_ifs <;> omega
    have wd' : s1'.high - s1'.low = kept s (encP r1 b) b * 2 ^ o1'.length := wd
    have hhalf : half N = 2 ^ (N - 1) := by
      obtain ⟨n, rfl⟩ := Nat.exists_eq_add_of_le' hN1
      rw [half_succ]
      rfl
    have hp1 : (1 : ℤ) ≤ 2 ^ o1'.length := one_le_pow₀ (by norm_num)
    have hacc := account (M := N - 1) (k := k) hk (by omega) hk1 hk2 (u := s1'.high - s1'.low) (by
      rcases hren with rfl | hren
      · left
        rw [wd']
        simp
      · right
        rw [hhalf] at hren
        exact ⟨by rw [wd']; nlinarith, hren⟩) (Real.exp_pos r1) (by linarith)
    refine ⟨r1 + r2, ?_, ?_⟩
    · simp only [plainObs, List.map_cons, Predictor.run, hu, ok_bind]
      change (do let (r', s'') ← P.run st1' (plainObs bs); pure (r1 + r', s'')) = _
      rw [hr2]
      rfl
    · rintro C rfl
      have hlog : Real.logb 2 ((s1'.high - s1'.low : ℤ) : ℝ) =
          Real.logb 2 ((kept s (encP r1 b) b : ℤ) : ℝ) + o1'.length := by
        have hk1' : (1 : ℝ) ≤ ((kept s (encP r1 b) b : ℤ) : ℝ) := by exact_mod_cast hk1
        rw [wd', Int.cast_mul, Int.cast_pow, Int.cast_ofNat, Real.logb_mul (by linarith) (by positivity), Real.logb_pow,
          Real.logb_self_eq_one (by norm_num), mul_one]
      have h3 := hC _ rfl
      rw [Real.exp_add, Real.logb_mul (Real.exp_pos _).ne' (Real.exp_pos _).ne', List.length_append, List.length_cons]
      push_cast at hacc h3 hlog ⊢
      generalize Real.logb 2 ((s1'.high : ℝ) - s1'.low) = L1 at *
      generalize Real.logb 2 ((kept s (encP r1 b) b : ℤ) : ℝ) = L0 at *
      subst hlog
      linarith

end AC

end Verif
