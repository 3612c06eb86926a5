import Verif.Proofs.AC

/-! The decoder ends when zero is always predicted with probability at least one half; the uniform model. -/

namespace Verif

open Predictor

namespace AC

variable {σ : Type} {P : Predictor σ Bool} {N : ℕ} {I : σ → Prop} {W : ℝ → Prop}

theorem pyInt_ge_one {R : ℤ} (hR : 2 ≤ R) {p : ℝ} (hp : 1 / 2 ≤ p) : 1 ≤ pyInt ((R : ℝ) * p) := by
  apply one_le_pyInt
  have : (2 : ℝ) ≤ R := by exact_mod_cast hR
  nlinarith

theorem exp_predict_lt (hP : P.Lawful I [false, true] W) {st t : σ} (hs : I st) {r : ℝ}
    (h : P.logPredict st false [] = .ok (r, t)) : Real.exp r < 1 ∧ I t := by
  have hn := hP.normalised st [] hs
  obtain ⟨q0, u0, hq0, i0⟩ := hP.predict_ok st false [] hs (by simp)
  obtain ⟨q1, u1, hq1, _⟩ := hP.predict_ok st true [] hs (by simp)
  rw [h] at hq0
  simp only [Except.ok.injEq, Prod.mk.injEq] at hq0
  obtain ⟨rfl, rfl⟩ := hq0
  simp only [List.map_cons, List.map_nil, List.sum_cons, List.sum_nil, h, hq1, probOf] at hn
  have := Real.exp_pos q1
  exact ⟨by linarith, i0⟩

theorem decodeLoop_total (hP : P.Lawful I [false, true] W) (hw : W 1)
    (hhalf : ∀ s r t, I s → P.logPredict s false [] = .ok (r, t) → 1 / 2 ≤ Real.exp r) {fuel : ℕ} {d : Dec} {t : σ}
    (ht : I t) (hf : (d.high - d.low).toNat < fuel) :
    ∃ ys d' t', decodeLoop P N fuel d t = .ok (ys, d', t') ∧ I t' := by
  induction fuel generalizing d t with
  | zero => omega
  | succ fuel ih =>
    rw [decodeLoop]
    split_ifs with hc
    · obtain ⟨q, t1, h1, i1⟩ := hP.predict_ok t false [] ht (by simp)
      have hq := (exp_predict_lt hP ht h1).1
      have hq2 := hhalf t q t1 ht h1
      have g1 := pyInt_ge_one (R := d.high - d.low) (by omega) hq2
      have g2 := pyInt_lt (R := d.high - d.low) (by omega) hq
      obtain ⟨r, t2, h2, i2⟩ := hP.update_ok t1 (decide (¬ d.value < decSplit d.low d.high (Real.exp q))) [] 1 i1
        (by cases decide (¬ d.value < decSplit d.low d.high (Real.exp q)) <;> simp) hw
      obtain ⟨ys, d', t', h3, i3⟩ := ih (d := if decide (¬ d.value < decSplit d.low d.high (Real.exp q)) then
        { d with low := decSplit d.low d.high (Real.exp q) } else { d with high := decSplit d.low d.high (Real.exp q) })
        i2 (by
          unfold decSplit
          split_ifs <;> simp only <;> omega)
      refine ⟨decide (¬ d.value < decSplit d.low d.high (Real.exp q)) :: ys, d', t', ?_, i3⟩
      simp only [h1, h2, liftRun, ok_bind, h3, pure_eq_ok]
    · exact ⟨_, _, _, rfl, ht⟩

theorem DRel.width {low high : ℤ} {out : List Bool} {d : Dec} (h : DRel N low high out d) : d.high - d.low = high - low := by
  rcases h with rfl | ⟨_, rfl⟩ <;> simp

theorem decode_total (hN : 2 ≤ N) (hP : P.Lawful I [false, true] W) (hw : W 1)
    (hhalf : ∀ s r t, I s → P.logPredict s false [] = .ok (r, t) → 1 / 2 ≤ Real.exp r) {fuel : ℕ}
    (hf : (top N).toNat < fuel) {low high : ℤ} {st t : σ} {syms out : List Bool} {d : Dec} (ht : I t)
    (hi : DInv P I N low high st syms out d t) (hns : high ≤ half N ∨ half N ≤ low) :
    ∃ ys d' t', decode P N fuel d t (out.getD N false) = .ok (ys, d', t') ∧ I t' := by
  obtain ⟨c, out', l', h', rfl, hi'⟩ := push_ok hN hi hns
  apply decodeLoop_total hP hw hhalf ht
  have := hi'.rel.width
  have := hi'.high_le
  have := hi'.low_nonneg
  omega

theorem decodeAll_total (hN : 2 ≤ N) (hP : P.Lawful I [false, true] W) (hw : W 1)
    (hpure : ∀ s r t, I s → P.logPredict s false [] = .ok (r, t) → Indist P s t)
    (hhalf : ∀ s r t, I s → P.logPredict s false [] = .ok (r, t) → 1 / 2 ≤ Real.exp r) {fuel : ℕ}
    (hf : (top N).toNat < fuel) {bits : List Bool} {low high : ℤ} {st t : σ} {syms out : List Bool} {d : Dec} (ht : I t)
    (hi : DInv P I N low high st syms out d t) (hns : high ≤ half N ∨ half N ≤ low) (hb : out.drop N = bits) :
    ∃ ys d' t', decodeAll P N fuel d t bits = .ok (ys, d', t') ∧ I t' := by
  induction bits generalizing d t low high st syms out with
  | nil => exact ⟨_, _, _, rfl, ht⟩
  | cons b bs ih =>
    obtain ⟨g1, g2, g3⟩ := getD_drop hb
    obtain ⟨ys, d1, t1, h1, i1⟩ := decode_total hN hP hw hhalf hf ht hi hns
    rw [g1] at h1
    obtain ⟨c, out', l', h', rfl, hi'⟩ := push_ok hN hi hns
    rw [g1] at hi'
    simp only [List.length_cons] at g2
    rcases decodeLoop_ok (by omega) hP hw hpure h1 hi' with ⟨l2, h2', st2, rest, k1, k2, k3⟩ | ⟨_, k2⟩
    · obtain ⟨ys2, d2, t2, h2, i2⟩ := ih i1 k2 k3 (by simpa using g3)
      refine ⟨ys ++ ys2, d2, t2, ?_, i2⟩
      simp only [decodeAll, h1, ok_bind, h2, pure_eq_ok]
    · omega

theorem flushLoop_total (hN : 2 ≤ N) (hP : P.Lawful I [false, true] W) (hw : W 1)
    (hpure : ∀ s r t, I s → P.logPredict s false [] = .ok (r, t) → Indist P s t)
    (hhalf : ∀ s r t, I s → P.logPredict s false [] = .ok (r, t) → 1 / 2 ≤ Real.exp r) {fuel : ℕ}
    (hf : (top N).toNat < fuel) {k : ℕ} {d : Dec} {t : σ} {acc rest : List Bool} {n : ℕ} {low high : ℤ} {st : σ}
    {out : List Bool} (ht : I t) (hi : DInv P I N low high st rest out d t) (hns : high ≤ half N ∨ half N ≤ low)
    (hl : out.length ≤ N) (hn : n = (acc ++ rest).length) (hk : out.length + 1 < k) :
    ∃ f, flushLoop P N fuel n k d t acc = .ok f := by
  induction k generalizing d t acc low high st rest out with
  | zero => omega
  | succ k ih =>
    rw [flushLoop]
    split_ifs with hc
    · obtain ⟨ys, d1, t1, h1, i1⟩ := decode_total hN hP hw hhalf hf ht hi hns
      obtain ⟨c, out', l', h', rfl, hi'⟩ := push_ok hN hi hns
      have hg : (c :: out').getD N false = false := by
        rw [List.getD_eq_getElem?_getD, List.getElem?_eq_none hl]
        rfl
      rw [hg] at hi' h1
      simp only [List.length_cons] at hl hk
      simp only [h1, ok_bind]
      rcases decodeLoop_ok (by omega) hP hw hpure h1 hi' with ⟨l2, h2', st2, rest2, k1, k2, k3⟩ | ⟨⟨extra, k1⟩, _⟩
      · rw [k1, ← List.append_assoc] at hn
        exact ih i1 k2 k3 (by omega) hn (by omega)
      · cases k with
        | zero => omega
        | succ k =>
          rw [flushLoop, if_neg (by
            rw [hn, k1]
            simp only [List.length_append]
            push_cast
            omega)]
          exact ⟨_, rfl⟩
    · exact ⟨_, rfl⟩

theorem decompress_total (hN : 2 ≤ N) (hP : P.Lawful I [false, true] W) (hw : W 1)
    (hpure : ∀ s r t, I s → P.logPredict s false [] = .ok (r, t) → Indist P s t)
    (hhalf : ∀ s r t, I s → P.logPredict s false [] = .ok (r, t) → 1 / 2 ≤ Real.exp r) {st : σ} (hst : I st)
    {msg code : List Bool} {fuel : ℕ} (hf : (top N).toNat + N + 1 < fuel) (ht : Trace P N decSplit 0 (top N) st msg code) :
    ∃ res, decompress P N fuel st code msg.length = .ok res := by
  have hh := half_pos (N := N) (by omega)
  have hi := dinv_init (by omega) hst ht
  obtain ⟨o, d, t, h1, i1⟩ := decodeAll_total hN hP hw hpure hhalf (fuel := fuel) (by omega) (bits := code) hst hi
    (.inl (by omega)) (by simp)
  obtain ⟨l, h', st', rest, out', g1, g2, g3, g4⟩ := decodeAll_ok hN hP hw hpure h1 hi (.inl (by omega)) (by simp)
  have hn : (msg.length : ℤ) - (o.length : ℤ) = ((rest.length : ℕ) : ℤ) := by
    rw [g1, List.length_append]
    push_cast
    ring
  obtain ⟨f, hfl⟩ := flushLoop_total hN hP hw hpure hhalf (fuel := fuel) (by omega) (k := fuel) (acc := []) (n := rest.length)
    i1 g2 g3 g4 (by simp) (by omega)
  refine ⟨o ++ pyTake f rest.length, ?_⟩
  simp only [decompress, h1, ok_bind, hn, hfl, pure_eq_ok]

/-- Zeros with probability at least one half always have room. -/
theorem roomy_of_half (hN : 1 ≤ N) (hP : P.Lawful I [false, true] W) (hw : W 1)
    (hhalf : ∀ s r t, I s → P.logPredict s false [] = .ok (r, t) → 1 / 2 ≤ Real.exp r) {fuel : ℕ} {s : Enc} (hs : s.Ok N)
    {st : σ} (hst : I st) (bits : List Bool) : Roomy P N fuel s st bits := by
  induction bits generalizing s st with
  | nil => trivial
  | cons b bs ih =>
    intro r st' o s' h1 h2
    obtain ⟨e1, i1⟩ := exp_update_lt hP.updateLawful hw hst h1
    refine ⟨?_, ih (encodeWith_ok hN hs (encP_lt e1 b).1 h2).1 i1⟩
    have hp : 1 / 2 ≤ encP r b := by
      obtain ⟨q0, u0, hq0, _⟩ := hP.predict_ok st false [] hst (by simp)
      obtain ⟨q1, u1, hq1, _⟩ := hP.predict_ok st true [] hst (by simp)
      have hn := hP.normalised st [] hst
      simp only [List.map_cons, List.map_nil, List.sum_cons, List.sum_nil, hq0, hq1, probOf] at hn
      have h5 := hhalf st q0 u0 hst hq0
      obtain ⟨v, hv⟩ := hP.coherent st b [] 1 hst (by cases b <;> simp) hw r st' h1
      cases b with
      | false =>
        rw [hq0] at hv
        simp only [Except.ok.injEq, Prod.mk.injEq] at hv
        simp only [encP, Bool.false_eq_true, if_false, ← hv.1]
        exact h5
      | true =>
        rw [hq1] at hv
        simp only [Except.ok.injEq, Prod.mk.injEq] at hv
        simp only [encP, if_true, ← hv.1]
        linarith
    have := hs.straddle
    have : (2 : ℝ) ≤ ((s.high - s.low : ℤ) : ℝ) := by
      have : (2 : ℤ) ≤ s.high - s.low := by omega
      exact_mod_cast this
    nlinarith

/-! ## Code length -/

/-- The fractions of the interval that the encoder keeps, symbol by symbol. -/
inductive Fractions (P : Predictor σ Bool) (N fuel : ℕ) : Enc → σ → List Bool → List ℝ → Prop
  | nil {s : Enc} {st : σ} : Fractions P N fuel s st [] []
  | cons {s s' : Enc} {st st' : σ} {b : Bool} {r : ℝ} {o bs : List Bool} {qs : List ℝ} :
      P.update st b [] 1 = .ok (r, st') → encodeWith N fuel s (encP r b) b = .ok (o, s') → Fractions P N fuel s' st' bs qs →
      Fractions P N fuel s st (b :: bs)
        ((((if b then s.high - encSplit s.low s.high (encP r b) else encSplit s.low s.high (encP r b) - s.low : ℤ) : ℝ) /
          ((s.high - s.low : ℤ) : ℝ)) :: qs)

theorem encodeAll_width (hN : 1 ≤ N) (hP : P.UpdateLawful I [false, true] W) (hw : W 1) {fuel : ℕ} {s s' : Enc}
    (hs : s.Ok N) {st st' : σ} (hst : I st) {bits o : List Bool} {qs : List ℝ}
    (h : encodeAll P N fuel s st bits = .ok (o, s', st')) (hq : Fractions P N fuel s st bits qs) :
    (((s'.high - s'.low : ℤ) : ℝ)) = ((s.high - s.low : ℤ) : ℝ) * qs.prod * 2 ^ o.length := by
  induction bits generalizing s st o qs with
  | nil =>
    simp only [encodeAll, pure_eq_ok, Except.ok.injEq, Prod.mk.injEq] at h
    obtain ⟨rfl, rfl, rfl⟩ := h
    cases hq
    simp
  | cons b bs ih =>
    simp only [encodeAll, encode, bind_eq_ok, pure_eq_ok, Except.ok.injEq, Prod.mk.injEq, Prod.exists] at h
    obtain ⟨o1, s1, st1, ⟨r, st2, h1, o2, s2, h2, rfl, rfl, rfl⟩, o3, s3, st3, h3, rfl, rfl, rfl⟩ := h
    have hu := liftRun_ok.mp h1
    obtain ⟨e1, i1⟩ := exp_update_lt hP hw hst hu
    obtain ⟨k1, k2⟩ := encodeWith_ok hN hs (encP_lt e1 b).1 h2
    cases hq with
    | cons hu' h2' hq' =>
      rw [hu] at hu'
      simp only [Except.ok.injEq, Prod.mk.injEq] at hu'
      obtain ⟨rfl, rfl⟩ := hu'
      rw [h2] at h2'
      simp only [Except.ok.injEq, Prod.mk.injEq] at h2'
      obtain ⟨rfl, rfl⟩ := h2'
      rw [ih k1 i1 h3 hq', k2]
      have : ((s.high - s.low : ℤ) : ℝ) ≠ 0 := by
        have := hs.straddle
        have : s.high - s.low ≠ 0 := by omega
        exact_mod_cast this
      rw [List.prod_cons, List.length_append, pow_add]
      push_cast at this ⊢
      field_simp

/-! ## The uniform model -/

theorem uniform_encodeWith (hN : 2 ≤ N) (b : Bool) (j : ℕ) :
    encodeWith N (2 + j) (Enc.init N) (1 / 2) b = .ok ([b], Enc.init N) := by
  have ht := top_eq (N := N) (by omega)
  have hh := half_eq hN
  have hq := quarter_pos hN
  have hs : encSplit 0 (top N) (1 / 2) = half N := by
    have : ((top N - 0 : ℤ) : ℝ) * (1 / 2) = ((half N : ℤ) : ℝ) := by
      rw [ht]
      push_cast
      ring
    unfold encSplit
    rw [this, pyInt, if_pos (by exact_mod_cast (by omega : 0 ≤ half N)), Int.floor_intCast]
    omega
  unfold encodeWith Enc.init
  simp only [hs]
  rw [show 2 + j = (j + 1) + 1 by omega]
  cases b with
  | false =>
    simp only [Bool.false_eq_true, if_false]
    rw [normLoop, if_pos (by simp only; omega), normLoop]
    simp only
    rw [if_neg (by omega), if_neg (by omega), if_neg (by omega)]
    simp [ht, mul_comm]
  | true =>
    simp only [if_true]
    rw [normLoop, if_neg (by simp only; omega), if_pos (by simp only; omega), normLoop]
    simp only
    rw [if_neg (by omega), if_neg (by omega), if_neg (by omega)]
    simp only [pure_eq_ok, ok_bind, List.replicate_zero, Except.ok.injEq, Prod.mk.injEq, Enc.mk.injEq]
    exact ⟨rfl, by omega, by omega, trivial⟩

end AC

end Verif
