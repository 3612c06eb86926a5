import Verif.Props.ACDamage

/-!
# C168: the coder as a stream

How soon what has been encoded comes out, and how short a code can be.
-/

namespace Verif

open Predictor AC

variable {σ : Type} {P : Predictor σ Bool} {N : ℕ} {I : σ → Prop} {W : ℝ → Prop}

namespace Stream

theorem width_le (hN : 1 ≤ N) {s : Enc} (hs : s.Ok N) : 2 ≤ s.high - s.low ∧ s.high - s.low ≤ 2 ^ N := by
  have h1 := hs.straddle
  have h2 := hs.low
  have h3 := hs.high
  unfold top at h3
  omega

theorem glue {fuel : ℕ} {s s1 s2 : Enc} {st st1 st2 : σ} {a b o1 o2 : List Bool}
    (h1 : encodeAll P N fuel s st a = .ok (o1, s1, st1)) (h2 : encodeAll P N fuel s1 st1 b = .ok (o2, s2, st2)) :
    encodeAll P N fuel s st (a ++ b) = .ok (o1 ++ o2, s2, st2) := by
  induction a generalizing s st o1 with
  | nil =>
    simp only [encodeAll, pure_eq_ok, Except.ok.injEq, Prod.mk.injEq] at h1
    obtain ⟨rfl, rfl, rfl⟩ := h1
    exact h2
  | cons c cs ih =>
    simp only [encodeAll, bind_eq_ok, pure_eq_ok, Except.ok.injEq, Prod.mk.injEq, Prod.exists] at h1
    obtain ⟨o3, s3, st3, k1, o4, s4, st4, k2, rfl, rfl, rfl⟩ := h1
    rw [List.cons_append, encodeAll, k1]
    simp only [ok_bind]
    rw [ih k2]
    simp only [ok_bind, pure_eq_ok, List.append_assoc]

/-- A symbol for which nothing comes out narrows the interval. -/
theorem silent (hN : 1 ≤ N) {fuel : ℕ} {s s' : Enc} (hs : s.Ok N) {p : ℝ} (hp : p < 1) {b : Bool}
    (h : encodeWith N fuel s p b = .ok ([], s')) : s'.high - s'.low + 1 ≤ s.high - s.low := by
  have h1 := (encodeWith_ok hN hs hp h).2
  obtain ⟨h2, h3⟩ := encSplit_mem (low := s.low) (high := s.high) (by have := hs.straddle; omega) hp
  simp only [List.length_nil, pow_zero, mul_one] at h1
  cases b
  · simp only [Bool.false_eq_true, if_false] at h1
    omega
  · simp only [if_true] at h1
    omega

theorem bound (hN : 1 ≤ N) (hP : P.UpdateLawful I [false, true] W) (hw : W 1) {fuel : ℕ} {s s' : Enc} (hs : s.Ok N) {st st' : σ} (hst : I st)
    {msg o : List Bool} (h : encodeAll P N fuel s st msg = .ok (o, s', st')) :
    (msg.length : ℤ) ≤ (2 ^ N - 1) * o.length + (s.high - s.low - 2) := by
  induction msg generalizing s st o with
  | nil =>
    simp only [encodeAll, pure_eq_ok, Except.ok.injEq, Prod.mk.injEq] at h
    obtain ⟨rfl, rfl, rfl⟩ := h
    have := width_le hN hs
    simp
    omega
  | cons b bs ih =>
    simp only [encodeAll, encode, bind_eq_ok, pure_eq_ok, Except.ok.injEq, Prod.mk.injEq, Prod.exists] at h
    obtain ⟨o1, s1, st1, ⟨r, st2, h1, o2, s2, h2, rfl, rfl, rfl⟩, o3, s3, st3, h3, rfl, rfl, rfl⟩ := h
    have hu := liftRun_ok.mp h1
    obtain ⟨e1, i1⟩ := exp_update_lt hP hw hst hu
    have hk := (encodeWith_ok hN hs (encP_lt e1 b).1 h2).1
    have := ih hk i1 h3
    have w1 := width_le hN hs
    have w2 := width_le hN hk
    rw [List.length_append, List.length_cons]
    push_cast
    cases o2 with
    | nil =>
      have := silent hN hs (encP_lt e1 b).1 h2
      simp only [List.length_nil, Nat.cast_zero, zero_add]
      omega
    | cons c cs =>
      rw [List.length_cons]
      push_cast
      have hp : (1 : ℤ) ≤ 2 ^ N := by have := two_pow_pos' N; omega
      nlinarith [mul_nonneg (sub_nonneg.mpr hp) (Int.natCast_nonneg cs.length)]

end Stream

/-- **C168 (what has come out stays).** The bits that have come out after the first symbols are the beginning of the code, whatever follows. -/
theorem C168_stream (hN : 1 ≤ N) (hP : P.UpdateLawful I [false, true] W) (hw : W 1) (st : σ) (hst : I st) (msg : List Bool) (fuel : ℕ)
    (hf : N + 1 ≤ fuel) :
    ∃ o s st', encodeAll P N fuel (Enc.init N) st msg = .ok (o, s, st') ∧
      ∀ more, ∃ code, compress P N fuel st (msg ++ more) = .ok code ∧ o <+: code := by
  obtain ⟨j, rfl⟩ := Nat.exists_eq_add_of_le hf
  obtain ⟨o, s, st', h⟩ := encodeAll_total hN hP hw j (Enc.ok_init hN) hst msg
  refine ⟨o, s, st', h, fun more => ?_⟩
  obtain ⟨o2, s2, st2, h2⟩ := encodeAll_total hN hP hw j (Enc.ok_init hN) hst (msg ++ more)
  refine ⟨o2 ++ s2.flush N, by simp only [compress, h2, ok_bind, pure_eq_ok], ?_⟩
  obtain ⟨o1, s1, st1, o3, k1, k2, rfl⟩ := AC.encodeAll_append h2
  rw [h] at k1
  cases k1
  rw [List.append_assoc]
  exact List.prefix_append _ _

/-- **C168 (bits held back).** After any message, the number of bits that have come out is at most the information in it, as the coder
counts it (see C43), and at least that less `N - 1`: fewer than `N` bits are held back. -/
theorem C168_lag (hN : 1 ≤ N) (hP : P.UpdateLawful I [false, true] W) (hw : W 1) (st : σ) (hst : I st) (msg o : List Bool) (fuel : ℕ)
    (qs : List ℝ) (hq : Fractions P N fuel (Enc.init N) st msg qs) (hpos : ∀ q ∈ qs, 0 < q) (s : Enc) (st' : σ)
    (h : encodeAll P N fuel (Enc.init N) st msg = .ok (o, s, st')) :
    (o.length : ℝ) ≤ - Real.logb 2 qs.prod ∧ - Real.logb 2 qs.prod ≤ o.length + (N - 1) := by
  have hs := (encodeAll_ok hN hP hw (Enc.ok_init hN) hst h).1
  have hwd := encodeAll_width hN hP hw (Enc.ok_init hN) hst h hq
  have hpr : 0 < qs.prod := List.prod_pos hpos
  have htop : (((Enc.init N).high - (Enc.init N).low : ℤ) : ℝ) = 2 ^ N := by simp [Enc.init, top]
  rw [htop] at hwd
  obtain ⟨w1, w2⟩ := Stream.width_le hN hs
  have w1' : (2 : ℝ) ≤ ((s.high - s.low : ℤ) : ℝ) := by exact_mod_cast w1
  have w2' : ((s.high - s.low : ℤ) : ℝ) ≤ 2 ^ N := by exact_mod_cast w2
  rw [hwd] at w1' w2'
  have e : Real.logb 2 (2 ^ N * qs.prod * 2 ^ o.length) = N + Real.logb 2 qs.prod + o.length := by
    rw [Real.logb_mul (by positivity) (by positivity), Real.logb_mul (by positivity) hpr.ne', Real.logb_pow, Real.logb_pow,
      Real.logb_self_eq_one (by norm_num)]
    ring
  have l1 := Real.logb_le_logb_of_le (b := 2) (by norm_num) (by norm_num) w1'
  have l2 := Real.logb_le_logb_of_le (b := 2) (by norm_num) (by positivity) w2'
  rw [e, Real.logb_self_eq_one (by norm_num)] at l1
  rw [e, Real.logb_pow, Real.logb_self_eq_one (by norm_num)] at l2
  constructor <;> linarith

/-- **C168 (symbols without output).** However probable the symbols are, out of any `2 ^ N - 1` symbols in a row at least one makes a bit come
out. -/
theorem C168_silence (hN : 1 ≤ N) (hP : P.UpdateLawful I [false, true] W) (hw : W 1) (st : σ) (hst : I st) (before msg o o' : List Bool)
    (fuel : ℕ) (s s' : Enc) (st1 st2 : σ) (h1 : encodeAll P N fuel (Enc.init N) st before = .ok (o, s, st1))
    (h2 : encodeAll P N fuel s st1 msg = .ok (o', s', st2)) (hl : 2 ^ N - 1 ≤ msg.length) : o' ≠ [] := by
  rintro rfl
  obtain ⟨hs, hI⟩ := encodeAll_ok hN hP hw (Enc.ok_init hN) hst h1
  have := Stream.bound hN hP hw hs hI h2
  have w := Stream.width_le hN hs
  simp only [List.length_nil, Nat.cast_zero, mul_zero, zero_add] at this
  have hp : 1 ≤ 2 ^ N := Nat.one_le_two_pow
  zify [hp] at hl
  omega

/-- **C168 (limit of compression).** A code of `c` bits is the code of at most `(2 ^ N - 1) (c - 2) + 2 ^ N - 2` symbols, whatever the model:
with the 32 bits of the coder nothing is made more than about four thousand million times shorter. -/
theorem C168_limit (hN : 1 ≤ N) (hP : P.UpdateLawful I [false, true] W) (hw : W 1) (st : σ) (hst : I st) (msg code : List Bool) (fuel : ℕ)
    (hc : compress P N fuel st msg = .ok code) : 2 ≤ code.length ∧ msg.length ≤ (2 ^ N - 1) * (code.length - 2) + (2 ^ N - 2) := by
  simp only [compress, bind_eq_ok, pure_eq_ok, Except.ok.injEq, Prod.exists] at hc
  obtain ⟨o, s, t, h, rfl⟩ := hc
  have hs := (encodeAll_ok hN hP hw (Enc.ok_init hN) hst h).1
  have hfl : (s.flush N).length = 2 := by
    unfold Enc.flush
    rw [hs.follow]
    split_ifs <;> rfl
  have hb := Stream.bound hN hP hw (Enc.ok_init hN) hst h
  have e : (Enc.init N).high - (Enc.init N).low = 2 ^ N := by simp [Enc.init, top]
  rw [e] at hb
  rw [List.length_append, hfl, Nat.add_sub_cancel]
  refine ⟨by omega, ?_⟩
  have hp : 2 ≤ 2 ^ N := Nat.le_self_pow (by omega) 2
  zify [hp, show 1 ≤ 2 ^ N by omega]
  exact hb

/-- **C168 (limit, bytes).** So `m` bytes of compressed data stand for fewer than `(2 ^ N - 1) m` bytes. -/
theorem C168_limit_bytes (hN : 1 ≤ N) (hP : P.UpdateLawful I [false, true] W) (hw : W 1) (st : σ) (hst : I st) (data c : List ℕ) (fuel : ℕ)
    (hc : compressBytes P N fuel st data = .ok c) : data.length < (2 ^ N - 1) * c.length := by
  simp only [compressBytes, bind_eq_ok, pure_eq_ok, Except.ok.injEq] at hc
  obtain ⟨c1, h1, rfl⟩ := hc
  obtain ⟨h2, h3⟩ := C168_limit hN hP hw st hst _ _ fuel h1
  rw [unpack_length] at h3
  obtain ⟨j, _, hj⟩ := unpack_mirror_pack c1.length c1 le_rfl
  have h4 := congrArg List.length hj
  rw [unpack_length8, List.length_map, List.length_append] at h4
  have hp : 2 ≤ 2 ^ N := Nat.le_self_pow (by omega) 2
  obtain ⟨k, hk⟩ := Nat.exists_eq_add_of_le hp
  rw [hk] at h3 ⊢
  obtain ⟨l, hl⟩ := Nat.exists_eq_add_of_le h2
  rw [hl] at h3 h4
  have e1 : 2 + k - 1 = k + 1 := by omega
  have e2 : 2 + k - 2 = k := by omega
  rw [e1, Nat.add_sub_cancel_left, e2] at h3
  rw [e1]
  have : (k + 1) * (2 + l) ≤ (k + 1) * ((pack c1).length * 8) := Nat.mul_le_mul_left _ (by omega)
  nlinarith

namespace Stream

theorem pyInt_most {w : ℤ} (h0 : 0 < w) (h1 : w ≤ 2 ^ N) : pyInt ((w : ℝ) * (1 - 1 / 2 ^ N)) = w - 1 := by
  have h0' : (1 : ℝ) ≤ w := by exact_mod_cast h0
  have h1' : (w : ℝ) ≤ 2 ^ N := by exact_mod_cast h1
  have hp : (0 : ℝ) < 2 ^ N := by positivity
  have h2 : (w : ℝ) * (1 / 2 ^ N) ≤ 1 := by rw [mul_one_div, div_le_one hp]; exact h1'
  have h3 : 0 < (w : ℝ) * (1 / 2 ^ N) := by positivity
  unfold pyInt
  rw [if_pos (by rw [mul_sub]; linarith), Int.floor_eq_iff]
  push_cast
  rw [mul_sub]
  constructor <;> linarith

theorem pyInt_least {w : ℤ} (h0 : 0 < w) (h1 : w < 2 ^ N) : pyInt ((w : ℝ) * (1 / 2 ^ N)) = 0 := by
  have h0' : (1 : ℝ) ≤ w := by exact_mod_cast h0
  have h1' : (w : ℝ) < 2 ^ N := by exact_mod_cast h1
  have hp : (0 : ℝ) < 2 ^ N := by positivity
  have h2 : (w : ℝ) * (1 / 2 ^ N) < 1 := by rw [mul_one_div, div_lt_one hp]; exact h1'
  have h3 : 0 < (w : ℝ) * (1 / 2 ^ N) := by positivity
  unfold pyInt
  rw [if_pos h3.le, Int.floor_eq_iff]
  push_cast
  constructor <;> linarith

/-- The probability of a zero: nearly one for the first `2 ^ (N - 1) - 1` symbols, nearly nothing afterwards. -/
noncomputable def quiet (N : ℕ) (h : List Bool) : ℝ := if h.length < 2 ^ (N - 1) - 1 then 1 - 1 / 2 ^ N else 1 / 2 ^ N

theorem quiet_pos (hN : 1 ≤ N) (h : List Bool) : 0 < quiet N h ∧ quiet N h < 1 := by
  have h1 : (2 : ℝ) ≤ 2 ^ N := by
    calc (2 : ℝ) = 2 ^ 1 := by norm_num
      _ ≤ 2 ^ N := pow_le_pow_right₀ (by norm_num) hN
  have h2 : (1 : ℝ) / 2 ^ N ≤ 1 / 2 := one_div_le_one_div_of_le (by norm_num) h1
  have h3 : (0 : ℝ) < 1 / 2 ^ N := by positivity
  unfold quiet
  split_ifs <;> constructor <;> linarith

theorem norm_still {n fuel : ℕ} {s : Enc} (h1 : s.low < 2 ^ n) (h2 : 2 ^ n < s.high) : normLoop (n + 1) (fuel + 1) s = .ok ([], s) := by
  have e : enc34 (n + 1) = 2 ^ n := by
    unfold enc34
    rw [top_eq (by omega), half_succ]
    ring
  rw [normLoop, half_succ, e, if_neg (by omega), if_neg (by omega), if_neg (by omega)]
  rfl

theorem zeros (n fuel k : ℕ) (h : List Bool) (hk : h.length + k = 2 ^ n - 1) :
    encodeAll (scripted (quiet (n + 1))) (n + 1) (fuel + 1) ⟨0, 2 ^ n + 1 + k, 0⟩ h (List.replicate k false) =
      .ok ([], ⟨0, 2 ^ n + 1, 0⟩, List.replicate k false ++ h) := by
  induction k generalizing h with
  | zero => simp [encodeAll, pure_eq_ok]
  | succ k ih =>
    have hpos : 0 < quiet (n + 1) h := (quiet_pos (by omega) h).1
    have hq : quiet (n + 1) h = 1 - 1 / 2 ^ (n + 1) := if_pos (by rw [Nat.add_sub_cancel]; omega)
    have hP : (1 : ℤ) ≤ 2 ^ n := by exact_mod_cast Nat.one_le_two_pow
    have hk' : (h.length : ℤ) + (k + 1) = 2 ^ n - 1 := by
      have := Nat.one_le_two_pow (n := n)
      zify [this] at hk
      exact hk
    have e : encSplit 0 (2 ^ n + 1 + ((k + 1 : ℕ) : ℤ)) (quiet (n + 1) h) = 2 ^ n + 1 + k := by
      unfold encSplit
      rw [hq, pyInt_most (by push_cast; omega) (by rw [pow_succ]; push_cast; omega)]
      push_cast
      rw [max_eq_right (by omega)]
      ring
    have st : encode (scripted (quiet (n + 1))) (n + 1) (fuel + 1) ⟨0, 2 ^ n + 1 + ((k + 1 : ℕ) : ℤ), 0⟩ h false =
        .ok ([], ⟨0, 2 ^ n + 1 + k, 0⟩, false :: h) := by
      simp only [encode, scripted, liftRun, ok_bind, encP, Bool.false_eq_true, if_false, Real.exp_log hpos, encodeWith, e]
      rw [norm_still (by simp only; omega) (by simp only; omega)]
      rfl
    rw [List.replicate_succ, encodeAll, st]
    simp only [ok_bind]
    rw [ih (false :: h) (by rw [List.length_cons]; omega)]
    simp only [ok_bind, pure_eq_ok, List.append_nil, Except.ok.injEq, Prod.mk.injEq, true_and]
    rw [← List.replicate_succ, List.replicate_succ', List.append_assoc]
    rfl

theorem ones (n fuel k : ℕ) (l : ℤ) (h : List Bool) (hl : 0 ≤ l) (hk : l + k = 2 ^ n - 1) (hh : 2 ^ n - 1 ≤ h.length) :
    encodeAll (scripted (quiet (n + 1))) (n + 1) (fuel + 1) ⟨l, 2 ^ n + 1, 0⟩ h (List.replicate k true) =
      .ok ([], ⟨2 ^ n - 1, 2 ^ n + 1, 0⟩, List.replicate k true ++ h) := by
  induction k generalizing h l with
  | zero =>
    have : l = 2 ^ n - 1 := by simpa using hk
    simp [encodeAll, pure_eq_ok, this]
  | succ k ih =>
    have hpos : 0 < 1 - quiet (n + 1) h := sub_pos.mpr (quiet_pos (by omega) h).2
    have hq : quiet (n + 1) h = 1 / 2 ^ (n + 1) := if_neg (by rw [Nat.add_sub_cancel]; omega)
    push_cast at hk
    have e : encSplit l (2 ^ n + 1) (quiet (n + 1) h) = l + 1 := by
      unfold encSplit
      rw [hq, pyInt_least (by omega) (by rw [pow_succ]; omega)]
      rfl
    have st : encode (scripted (quiet (n + 1))) (n + 1) (fuel + 1) ⟨l, 2 ^ n + 1, 0⟩ h true =
        .ok ([], ⟨l + 1, 2 ^ n + 1, 0⟩, true :: h) := by
      simp only [encode, scripted, liftRun, ok_bind, encP, if_true, Real.exp_log hpos, encodeWith, sub_sub_cancel, e]
      rw [norm_still (by simp only; omega) (by simp only; omega)]
      rfl
    rw [List.replicate_succ, encodeAll, st]
    simp only [ok_bind]
    rw [ih (l + 1) (true :: h) (by omega) (by omega) (by rw [List.length_cons]; omega)]
    simp only [ok_bind, pure_eq_ok, List.append_nil, Except.ok.injEq, Prod.mk.injEq, true_and]
    rw [← List.replicate_succ, List.replicate_succ', List.append_assoc]
    rfl

end Stream

/-- **C168 (the limit is reached).** For every size of coder there is a model whose probabilities are never 0 or 1 and a message of
`2 ^ N - 2` symbols for which nothing comes out, so that its code is the two bits of the flush. -/
theorem C168_limit_reached (hN : 1 ≤ N) : ∃ p : List Bool → ℝ, (∀ h, 0 < p h ∧ p h < 1) ∧ ∃ msg : List Bool, msg.length = 2 ^ N - 2 ∧
    ∀ fuel, 1 ≤ fuel → ∃ s st code, encodeAll (scripted p) N fuel (Enc.init N) [] msg = .ok ([], s, st) ∧
      compress (scripted p) N fuel [] msg = .ok code ∧ code.length = 2 := by
  obtain ⟨n, rfl⟩ := Nat.exists_eq_add_of_le' hN
  have hP := Nat.one_le_two_pow (n := n)
  refine ⟨Stream.quiet (n + 1), Stream.quiet_pos hN, List.replicate (2 ^ n - 1) false ++ List.replicate (2 ^ n - 1) true, ?_,
    fun fuel hf => ?_⟩
  · rw [List.length_append, List.length_replicate, List.length_replicate, pow_succ]
    omega
  obtain ⟨f, rfl⟩ := Nat.exists_eq_add_of_le' hf
  have h1 := Stream.zeros n f (2 ^ n - 1) [] (by simp)
  have h2 := Stream.ones n f (2 ^ n - 1) 0 (List.replicate (2 ^ n - 1) false ++ []) le_rfl (by zify [hP]; ring) (by simp)
  have ei : Enc.init (n + 1) = ⟨0, 2 ^ n + 1 + ((2 ^ n - 1 : ℕ) : ℤ), 0⟩ := by
    simp only [Enc.init, top, Enc.mk.injEq, true_and, and_true]
    rw [pow_succ]
    zify [hP]
    ring
  rw [← ei] at h1
  have h3 := Stream.glue h1 h2
  refine ⟨_, _, Enc.flush (n + 1) ⟨2 ^ n - 1, 2 ^ n + 1, 0⟩, h3, by simp only [compress, h3, ok_bind, pure_eq_ok]; rfl, ?_⟩
  simp only [Enc.flush]
  split_ifs <;> rfl

/-- The hypotheses hold for the coder as the command-line program uses it, with the default `ctw.KT`: after any message, whatever the next
`2 ^ 32 - 1` symbols are, a bit comes out; and what has come out is the beginning of the code. -/
example (st : CKT Bool) (hst : CKT.init [false, true] none = .ok st) (before msg : List Bool) (hl : 2 ^ 32 - 1 ≤ msg.length) :
    ∃ o s st1 o' s' st2 code, encodeAll (CKT.probSeq (α := Bool)).toPredictor 32 33 (Enc.init 32) st before = .ok (o, s, st1) ∧
      encodeAll (CKT.probSeq (α := Bool)).toPredictor 32 33 s st1 msg = .ok (o', s', st2) ∧ o' ≠ [] ∧
      compress (CKT.probSeq (α := Bool)).toPredictor 32 33 st (before ++ msg) = .ok code ∧ o <+: code := by
  rw [CKT.init_default (by simp) (by simp), Except.ok.injEq] at hst
  subst hst
  have hP := (CKT.lawful (A := [false, true]) (by simp) (by simp)).updateLawful
  have hg := CKT.good_default (A := [false, true]) (by simp)
  obtain ⟨o, s, st1, h1, h2⟩ := C168_stream (N := 32) (by norm_num) hP zero_le_one _ hg before 33 le_rfl
  obtain ⟨k1, k2⟩ := encodeAll_ok (N := 32) (by norm_num) hP zero_le_one (Enc.ok_init (by norm_num)) hg h1
  obtain ⟨o', s', st2, h3⟩ := encodeAll_total (N := 32) (by norm_num) hP zero_le_one 0 k1 k2 msg
  obtain ⟨code, h4, h5⟩ := h2 msg
  exact ⟨o, s, st1, o', s', st2, code, h1, h3,
    C168_silence (by norm_num) hP zero_le_one _ hg before msg o o' 33 s s' st1 st2 h1 h3 hl, h4, h5⟩

/-- With a coder of three bits the longest silence is six symbols, and seven symbols always make a bit come out. -/
example : (2 ^ 3 - 2 = 6) ∧ ∃ p : List Bool → ℝ, ∃ msg : List Bool, msg.length = 2 ^ 3 - 2 ∧ ∃ s st,
    encodeAll (scripted p) 3 4 (Enc.init 3) [] msg = .ok ([], s, st) := by
  obtain ⟨p, _, msg, h1, h2⟩ := C168_limit_reached (N := 3) (by norm_num)
  obtain ⟨s, st, _, h3, _⟩ := h2 4 (by norm_num)
  exact ⟨by norm_num, p, msg, h1, s, st, h3⟩

end Verif
