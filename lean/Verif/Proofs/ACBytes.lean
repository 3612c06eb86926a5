import Verif.Proofs.ACKT
import Verif.Model.ACCalls

/-! Bytes, the uniform model, scripted models, and models that cannot be called. -/

namespace Verif

open Predictor

namespace AC

/-! ## Scripted models -/

/-- A model that predicts zero with probability `p h` after the symbols `h` (most recent first). -/
noncomputable def scripted (p : List Bool → ℝ) : Predictor (List Bool) Bool where
  update h b _ _ := .ok (Real.log (if b then 1 - p h else p h), b :: h)
  logPredict h b _ := .ok (Real.log (if b then 1 - p h else p h), h)
  copy h := .ok h

theorem scripted_lawful {p : List Bool → ℝ} (hp : ∀ h, 0 < p h ∧ p h < 1) :
    (scripted p).Lawful (fun _ => True) [false, true] (fun _ => True) where
  update_ok s b _ _ _ _ _ := ⟨_, _, rfl, trivial⟩
  predict_ok s b _ _ _ := ⟨_, _, rfl, trivial⟩
  coherent := by
    intro s a h w _ _ _ r s' hu
    simp only [scripted, Except.ok.injEq, Prod.mk.injEq] at hu
    exact ⟨s, by simp [scripted, ← hu.1]⟩
  normalised := by
    intro s h _
    obtain ⟨h1, h2⟩ := hp s
    simp only [scripted, List.map_cons, List.map_nil, List.sum_cons, List.sum_nil, probOf, Bool.false_eq_true, if_false,
      if_true, Real.exp_log h1, Real.exp_log (sub_pos.mpr h2)]
    ring

theorem scripted_pure (p : List Bool → ℝ) : (scripted p).PurePredict := by
  apply PurePredict.of_id
  intro s a h r t ht
  simp only [scripted, Except.ok.injEq, Prod.mk.injEq] at ht
  exact ht.2.symm

/-- A scripted model with rational probabilities. -/
noncomputable def scriptedRational {num den : List Bool → ℕ} (hn : ∀ h, 0 < num h ∧ num h < den h) :
    Rational (scripted fun h => (num h : ℝ) / (den h : ℝ)) num den where
  rep h s := s = h
  den_pos h := by have := hn h; omega
  update := by
    rintro h s b rfl
    have hd : (0 : ℝ) < den s := by have := hn s; exact_mod_cast (by omega : 0 < den s)
    have h1 : (0 : ℝ) < (num s : ℝ) / den s := by
      have := (hn s).1
      positivity
    have h2 : (num s : ℝ) / den s < 1 := by
      rw [div_lt_one hd]
      exact_mod_cast (hn s).2
    refine ⟨_, _, rfl, rfl, ?_⟩
    cases b with
    | false => simp only [encP, Bool.false_eq_true, if_false, Real.exp_log h1]
    | true => simp only [encP, if_true, Real.exp_log (sub_pos.mpr h2)]; ring
  predict := by
    rintro h s rfl
    have hd : (0 : ℝ) < den s := by have := hn s; exact_mod_cast (by omega : 0 < den s)
    have h1 : (0 : ℝ) < (num s : ℝ) / den s := by
      have := (hn s).1
      positivity
    refine ⟨_, _, rfl, rfl, ?_⟩
    simp only [Bool.false_eq_true, if_false, Real.exp_log h1]

/-! ## Bytes -/

/-- The bits of a byte, least significant first. -/
def bits8 (m : ℕ) : List Bool := (List.range 8).map fun i => m.testBit i

theorem bits8_length (m : ℕ) : (bits8 m).length = 8 := by simp [bits8]

theorem unpack_nil : unpack [] = [] := rfl

theorem unpack_cons (m : ℕ) (ms : List ℕ) : unpack (m :: ms) = bits8 m ++ unpack ms := rfl

theorem unpack_append (ms ns : List ℕ) : unpack (ms ++ ns) = unpack ms ++ unpack ns := by
  simp [unpack, List.flatMap_append]

theorem pack_nil : pack [] = [] := by
  unfold pack
  rw [grouper]
  simp

theorem pack_chunk {l : List Bool} (hl : l.length = 8) (rest : List Bool) : pack (l ++ rest) = fromBits l :: pack rest := by
  unfold pack
  rw [grouper, dif_neg (by
    intro h
    have := congrArg List.length h
    simp [hl] at this), List.map_cons]
  have h1 : (l ++ rest).take (7 + 1) = l := by
    rw [show 7 + 1 = l.length by omega, List.take_left]
  have h2 : (l ++ rest).drop (7 + 1) = rest := by
    rw [show 7 + 1 = l.length by omega, List.drop_left]
  rw [h1, h2]
  simp [hl]

theorem pack_tail {l : List Bool} (hne : l ≠ []) (hl : l.length ≤ 8) :
    pack l = [fromBits (l ++ List.replicate (8 - l.length) false)] := by
  unfold pack
  rw [grouper, dif_neg hne, List.take_of_length_le hl, List.drop_eq_nil_of_le hl, grouper]
  simp

/-- Packing the bits of a byte reverses it. -/
theorem bits8_fromBits : ∀ m < 256, bits8 (fromBits (bits8 m)) = (bits8 m).reverse := by decide +kernel

theorem fromBits_reverse : ∀ m < 256, fromBits (bits8 m).reverse = m := by decide +kernel

theorem pack_unpack (data : List ℕ) (rest : List Bool) :
    pack (unpack data ++ rest) = data.map (fun m => fromBits (bits8 m)) ++ pack rest := by
  induction data with
  | nil => rfl
  | cons m ms ih => rw [unpack_cons, List.append_assoc, pack_chunk (bits8_length m), ih]; rfl

theorem unpack_reversed {data : List ℕ} (hd : ∀ m ∈ data, m < 256) :
    unpack (data.map fun m => fromBits (bits8 m)) = data.flatMap fun m => (bits8 m).reverse := by
  induction data with
  | nil => rfl
  | cons m ms ih =>
    rw [List.map_cons, unpack_cons, bits8_fromBits m (hd m (by simp)), ih fun x hx => hd x (by simp [hx])]
    rfl

theorem pack_reversed {data : List ℕ} (hd : ∀ m ∈ data, m < 256) :
    pack (data.flatMap fun m => (bits8 m).reverse) = data := by
  induction data with
  | nil => exact pack_nil
  | cons m ms ih =>
    rw [List.flatMap_cons, pack_chunk (by simp [bits8_length]), ih fun x hx => hd x (by simp [hx]),
      fromBits_reverse m (hd m (by simp))]

/-! ## The uniform model -/

theorem win_bounds (n : ℕ) (l : List Bool) : 0 ≤ win n l ∧ win n l < 2 ^ n := by
  induction n generalizing l with
  | zero => simp [win]
  | succ n ih =>
    cases l with
    | nil =>
      rw [win]
      exact ⟨le_rfl, by positivity⟩
    | cons b bs =>
      rw [win, pow_succ]
      have := ih bs
      cases b <;> simp <;> omega

variable {σ : Type} {P : Predictor σ Bool} {N : ℕ} {I : σ → Prop} {W : ℝ → Prop}

theorem uniform_encP (hP : P.Lawful I [false, true] W) (hw : W 1)
    (hU : ∀ s r t, I s → P.logPredict s false [] = .ok (r, t) → Real.exp r = 1 / 2) {st st' : σ} (hst : I st) {b : Bool} {r : ℝ}
    (h : P.update st b [] 1 = .ok (r, st')) : encP r b = 1 / 2 := by
  obtain ⟨q0, u0, hq0, _⟩ := hP.predict_ok st false [] hst (by simp)
  obtain ⟨q1, u1, hq1, _⟩ := hP.predict_ok st true [] hst (by simp)
  have hn := hP.normalised st [] hst
  simp only [List.map_cons, List.map_nil, List.sum_cons, List.sum_nil, hq0, hq1, probOf] at hn
  have h5 := hU st q0 u0 hst hq0
  obtain ⟨v, hv⟩ := hP.coherent st b [] 1 hst (by cases b <;> simp) hw r st' h
  cases b with
  | false =>
    rw [hq0] at hv
    simp only [Except.ok.injEq, Prod.mk.injEq] at hv
    simp only [encP, Bool.false_eq_true, if_false, ← hv.1]
    exact h5
  | true =>
    rw [hq1] at hv
    simp only [Except.ok.injEq, Prod.mk.injEq] at hv
    simp only [encP, if_true, ← hv.1]
    linarith

theorem uniform_encodeAll (hN : 2 ≤ N) (hP : P.Lawful I [false, true] W) (hw : W 1)
    (hU : ∀ s r t, I s → P.logPredict s false [] = .ok (r, t) → Real.exp r = 1 / 2) {st : σ} (hst : I st) (j : ℕ)
    (msg : List Bool) : ∃ st', encodeAll P N (2 + j) (Enc.init N) st msg = .ok (msg, Enc.init N, st') := by
  induction msg generalizing st with
  | nil => exact ⟨st, rfl⟩
  | cons b bs ih =>
    obtain ⟨r, st1, h1, i1⟩ := hP.update_ok st b [] 1 hst (by cases b <;> simp) hw
    obtain ⟨st2, h2⟩ := ih i1
    refine ⟨st2, ?_⟩
    simp only [encodeAll, encode, h1, liftRun, ok_bind, uniform_encP hP hw hU hst h1, uniform_encodeWith hN b j, pure_eq_ok,
      h2]
    rfl

theorem uniform_compress (hN : 2 ≤ N) (hP : P.Lawful I [false, true] W) (hw : W 1)
    (hU : ∀ s r t, I s → P.logPredict s false [] = .ok (r, t) → Real.exp r = 1 / 2) {st : σ} (hst : I st) (j : ℕ)
    (msg : List Bool) : compress P N (2 + j) st msg = .ok (msg ++ [false, true]) := by
  obtain ⟨st', h⟩ := uniform_encodeAll hN hP hw hU hst j msg
  have hq := quarter_pos hN
  simp only [compress, h, ok_bind, pure_eq_ok]
  rw [Enc.flush, if_pos (show (Enc.init N).low < quarter N from hq)]
  rfl

theorem uniform_trace (hN : 2 ≤ N) (hP : P.Lawful I [false, true] W) (hw : W 1)
    (hU : ∀ s r t, I s → P.logPredict s false [] = .ok (r, t) → Real.exp r = 1 / 2) {st : σ} (hst : I st)
    (msg : List Bool) {tail : List Bool} (ht : tail.length < N) : Trace P N decSplit 0 (top N) st msg (msg ++ tail) := by
  have htop := top_eq (N := N) (by omega)
  have hh := half_pos (N := N) (by omega)
  induction msg generalizing st with
  | nil =>
    obtain ⟨h1, h2⟩ := win_bounds N tail
    exact .done hh (by omega) h1 h2 ht
  | cons b bs ih =>
    obtain ⟨r, st1, h1, i1⟩ := hP.update_ok st b [] 1 hst (by cases b <;> simp) hw
    have hs : decSplit 0 (top N) (encP r b) = half N := by
      rw [uniform_encP hP hw hU hst h1]
      have : ((top N - 0 : ℤ) : ℝ) * (1 / 2) = ((half N : ℤ) : ℝ) := by
        rw [htop]
        push_cast
        ring
      unfold decSplit
      rw [this, pyInt, if_pos (by exact_mod_cast hh.le), Int.floor_intCast]
      omega
    refine .sym hh (by omega) h1 hs.symm hh (by omega) ?_
    cases b with
    | false =>
      refine .zero ?_ ?_
      · simp
      · have := ih i1
        simpa [htop, mul_comm] using this
    | true =>
      refine .one ?_ ?_
      · simp
      · have := ih i1
        have e : (top N - half N) * 2 = top N := by omega
        simpa [e] using this

/-! ## Models that cannot be called -/

/-- If `predict(0)` raises, decoding raises as soon as the first symbol is due. -/
theorem decode_raises (hN : 2 ≤ N) {e : PyErr} {st : σ} (he : P.logPredict st false [] = .error e) {j : ℕ} (hj : j < N) (v : ℤ)
    (bit : Bool) (f : ℕ) : (∃ v', decode P N (f + 1) ⟨0, 2 ^ j, v⟩ st bit = .ok ([], ⟨0, 2 ^ (j + 1), v'⟩, st) ∧ j + 1 < N) ∨
      decode P N (f + 1) ⟨0, 2 ^ j, v⟩ st bit = .error (.raised e) := by
  have hh := half_pos (N := N) (by omega)
  have hq := quarter_pos hN
  have hs : Dec.shift N ⟨0, 2 ^ j, v⟩ = ⟨0, 2 ^ j, v⟩ := by
    unfold Dec.shift
    rw [if_neg (by simp only; omega), if_neg (by simp only; omega)]
  obtain ⟨n, rfl⟩ := Nat.exists_eq_add_of_le' (show 1 ≤ N by omega)
  by_cases hc : j + 1 < n + 1
  · left
    refine ⟨v * 2 + bit.toNat, ?_, hc⟩
    have hle : (2 : ℤ) ^ (j + 1) ≤ 2 ^ n := pow_le_pow_right₀ (by norm_num) (by omega)
    rw [decode_quiet (by rw [hs, half_succ]; simp only; rw [← pow_succ]; omega) f, hs]
    simp only [Dec.push, zero_mul, pow_succ]
  · right
    have : j = n := by omega
    subst this
    rw [decode, hs, decodeLoop, if_pos (by
      rw [half_succ]
      have := two_pow_pos' j
      simp only [Dec.push]
      omega), he]
    rfl

theorem flush_raises (hN : 2 ≤ N) {e : PyErr} {st : σ} (he : P.logPredict st false [] = .error e) {j : ℕ} (hj : j < N) (v : ℤ)
    {n : ℤ} (hn : 0 < n) (f k : ℕ) (hk : N - j ≤ k) :
    flushLoop P N (f + 1) n k ⟨0, 2 ^ j, v⟩ st [] = .error (.raised e) := by
  induction k generalizing j v with
  | zero => omega
  | succ k ih =>
    rw [flushLoop, if_pos (by simpa using hn)]
    rcases decode_raises hN he hj v false f with ⟨v', h1, h2⟩ | h1
    · rw [h1]
      exact ih h2 v' (by omega)
    · rw [h1]
      rfl

theorem decompress_raises (hN : 2 ≤ N) {e : PyErr} {st : σ} (he : P.logPredict st false [] = .error e) {n : ℕ} (hn : 0 < n)
    (bits : List Bool) {fuel : ℕ} (hf : N ≤ fuel) : decompress P N fuel st bits n = .error (.raised e) := by
  obtain ⟨f, rfl⟩ := Nat.exists_eq_add_of_le' (show 1 ≤ fuel by omega)
  have key : ∀ (bits : List Bool) (j : ℕ) (v : ℤ), j < N →
      (∃ j' v', j' < N ∧ decodeAll P N (f + 1) ⟨0, 2 ^ j, v⟩ st bits = .ok ([], ⟨0, 2 ^ j', v'⟩, st)) ∨
      decodeAll P N (f + 1) ⟨0, 2 ^ j, v⟩ st bits = .error (.raised e) := by
    intro bits
    induction bits with
    | nil => exact fun j v hj => .inl ⟨j, v, hj, rfl⟩
    | cons b bs ih =>
      intro j v hj
      rcases decode_raises hN he hj v b f with ⟨v', h1, h2⟩ | h1
      · rcases ih (j + 1) v' h2 with ⟨j', v'', h3, h4⟩ | h4
        · exact .inl ⟨j', v'', h3, by simp only [decodeAll, h1, ok_bind, h4, pure_eq_ok, List.append_nil]⟩
        · right
          simp only [decodeAll, h1, ok_bind, h4]
          rfl
      · right
        rw [decodeAll, h1]
        rfl
  have hi : Dec.init = ⟨0, 2 ^ 0, 0⟩ := rfl
  rw [decompress, hi]
  rcases key bits 0 0 (by omega) with ⟨j, v, hj, h1⟩ | h1
  · rw [h1]
    simp only [ok_bind, List.length_nil, Nat.cast_zero, sub_zero]
    rw [flush_raises hN he hj v (by exact_mod_cast hn) f (f + 1) (by omega)]
    rfl
  · rw [h1]
    rfl

/-- If `update(symbol)` raises, encoding raises at the first symbol. -/
theorem compress_raises {e : PyErr} {st : σ} (he : ∀ b, P.update st b [] 1 = .error e) {msg : List Bool} (hm : msg ≠ [])
    (fuel : ℕ) : compress P N fuel st msg = .error (.raised e) := by
  cases msg with
  | nil => exact absurd rfl hm
  | cons b bs =>
    simp only [compress, encodeAll, encode, he b]
    rfl

end AC

end Verif
