import Mathlib.Analysis.SpecialFunctions.Log.Base
import Verif.Proofs.ACBytes

/-! Properties of the arithmetic coder: C41-C45. -/

namespace Verif

open Predictor AC

variable {σ : Type} {P : Predictor σ Bool} {N : ℕ} {I : σ → Prop} {W : ℝ → Prop}

/-! ## C41: the encoder -/

/-- **C41 (termination and interval).** With a normalised model, encoding any message ends, and leaves an interval with
`0 ≤ low < half < high ≤ top` and no follow bits.  `N + 1` rounds of the loop are enough for each symbol. -/
theorem C41_encoder_interval (hN : 1 ≤ N) (hP : P.UpdateLawful I [false, true] W) (hw : W 1) (st : σ) (hst : I st)
    (msg : List Bool) (fuel : ℕ) (hf : N + 1 ≤ fuel) :
    ∃ out s st', encodeAll P N fuel (Enc.init N) st msg = .ok (out, s, st') ∧
      0 ≤ s.low ∧ s.low < 2 ^ (N - 1) ∧ 2 ^ (N - 1) < s.high ∧ s.high ≤ 2 ^ N ∧ s.follow = 0 := by
  obtain ⟨j, rfl⟩ := Nat.exists_eq_add_of_le hf
  obtain ⟨o, s, st', h⟩ := encodeAll_total hN hP hw j (Enc.ok_init hN) hst msg
  have hs := (encodeAll_ok hN hP hw (Enc.ok_init hN) hst h).1
  have hh : half N = 2 ^ (N - 1) := by
    obtain ⟨n, rfl⟩ := Nat.exists_eq_add_of_le' hN
    rw [half_succ]
    rfl
  exact ⟨o, s, st', h, hs.low, hh ▸ hs.straddle.1, hh ▸ hs.straddle.2, hs.high, hs.follow⟩

/-- **C41 (compress).** `compress` ends on every message, and its last two bits are 01 or 10. -/
theorem C41_compress_total (hN : 1 ≤ N) (hP : P.UpdateLawful I [false, true] W) (hw : W 1) (st : σ) (hst : I st)
    (msg : List Bool) :
    ∃ out last, (last = [false, true] ∨ last = [true, false]) ∧
      ∀ fuel, N + 1 ≤ fuel → compress P N fuel st msg = .ok (out ++ last) := by
  obtain ⟨o, s, st', h, _, _, _, _, h5⟩ := C41_encoder_interval hN hP hw st hst msg (N + 1) le_rfl
  refine ⟨o, s.flush N, ?_, ?_⟩
  · unfold Enc.flush
    rw [h5]
    split_ifs
    · exact .inl rfl
    · exact .inr rfl
  · intro fuel hf
    obtain ⟨j, rfl⟩ := Nat.exists_eq_add_of_le hf
    apply compress_mono
    simp only [compress, h, ok_bind, pure_eq_ok]

/-- **C41 (empty intervals).** If the probability of zero comes out as one (or more) and the symbol is one, the interval
becomes empty and `encode` never returns.  (With exact reals a normalised model does not do this; with floats
`1 - exp(...)` is one as soon as the symbol's probability is below `2^-53`.) -/
theorem C41_empty_interval_never_returns (s : Enc) (hs : s.low < s.high) (pZero : ℝ) (hp : 1 ≤ pZero) (fuel : ℕ) :
    encodeWith N fuel s pZero true = .error .timeout := by
  unfold encodeWith
  rw [if_pos rfl]
  apply normLoop_empty
  have hR : (0 : ℝ) < ((s.high - s.low : ℤ) : ℝ) := by exact_mod_cast (by omega : 0 < s.high - s.low)
  have h1 : s.high - s.low ≤ pyInt (((s.high - s.low : ℤ) : ℝ) * pZero) := by
    unfold pyInt
    rw [if_pos (by positivity), Int.le_floor]
    nlinarith
  simp only [encSplit]
  omega

/-! ## C42: decoding -/

/-- **C42 (no information is lost).** Two messages of the same length with the same code are equal, whatever the model. -/
theorem C42_compress_injective (hN : 3 ≤ N) (hP : P.UpdateLawful I [false, true] W) (hw : W 1) (st : σ) (hst : I st)
    (xs ys code : List Bool) (f g : ℕ) (hl : xs.length = ys.length) (hx : compress P N f st xs = .ok code)
    (hy : compress P N g st ys = .ok code) : xs = ys :=
  compress_inj hN hP hw hst hl hx hy

/-- **C42 (round trip, partial).** If `decompress` returns, and every interval the encoder split was wide enough for zero's
part to contain an integer, then it returns the message.  Missing: that it returns (it need not:
`C42_ctw_KT_never_decodes`), and intervals without room for zero (`C42_without_room`). -/
theorem C42_round_trip_partial (hN : 3 ≤ N) (hP : P.Lawful I [false, true] W) (hw : W 1)
    (hpure : ∀ s r t, I s → P.logPredict s false [] = .ok (r, t) → Indist P s t) (st : σ) (hst : I st)
    (msg code res : List Bool) (f g : ℕ) (hroom : Roomy P N f (Enc.init N) st msg)
    (hc : compress P N f st msg = .ok code) (hd : decompress P N g st code msg.length = .ok res) : res = msg := by
  simp only [compress, bind_eq_ok, pure_eq_ok, Except.ok.injEq, Prod.exists] at hc
  obtain ⟨o, s, t, h, rfl⟩ := hc
  exact decompress_trace (by omega) hP hw hpure hst
    (encodeAll_trace hN hP.updateLawful hw (Enc.ok_init (by omega)) hst hroom.splits h) hd

/-- **C42 (round trip).** For models that never give zero less than one half, every message is recovered. -/
theorem C42_round_trip_half (hN : 3 ≤ N) (hP : P.Lawful I [false, true] W) (hw : W 1)
    (hpure : ∀ s r t, I s → P.logPredict s false [] = .ok (r, t) → Indist P s t)
    (hhalf : ∀ s r t, I s → P.logPredict s false [] = .ok (r, t) → 1 / 2 ≤ Real.exp r) (st : σ) (hst : I st)
    (msg : List Bool) : ∃ code, ∀ fuel, 2 ^ N + N + 2 ≤ fuel →
      compress P N fuel st msg = .ok code ∧ decompress P N fuel st code msg.length = .ok msg := by
  obtain ⟨o, s, st', h, _⟩ := C41_encoder_interval (by omega) hP.updateLawful hw st hst msg (N + 1) le_rfl
  have ht := encodeAll_trace hN hP.updateLawful hw (Enc.ok_init (by omega)) hst
    (roomy_of_half (by omega) hP hw hhalf (Enc.ok_init (by omega)) hst msg).splits h
  have htop : (top N).toNat = 2 ^ N := by
    unfold top
    rw [show (2 : ℤ) ^ N = ((2 ^ N : ℕ) : ℤ) by push_cast; rfl, Int.toNat_natCast]
  refine ⟨o ++ s.flush N, fun fuel hf => ?_⟩
  obtain ⟨res, hr⟩ := decompress_total (by omega) hP hw hpure hhalf hst (fuel := fuel) (by omega) ht
  have := decompress_trace (by omega) hP hw hpure hst ht hr
  subst this
  refine ⟨?_, hr⟩
  obtain ⟨j, rfl⟩ := Nat.exists_eq_add_of_le (show N + 1 ≤ fuel by omega)
  apply compress_mono
  simp only [compress, h, ok_bind, pure_eq_ok]

/-- The hypotheses of the round trip hold for `ctw.KT` with its default alphabet ... -/
theorem C42_ctw_KT_round_trip_partial (hN : 3 ≤ N) (st : CKT Bool) (hst : CKT.init [false, true] none = .ok st)
    (msg code res : List Bool) (f g : ℕ) (hroom : Roomy (CKT.probSeq (α := Bool)).toPredictor N f (Enc.init N) st msg)
    (hc : compress (CKT.probSeq (α := Bool)).toPredictor N f st msg = .ok code)
    (hd : decompress (CKT.probSeq (α := Bool)).toPredictor N g st code msg.length = .ok res) : res = msg := by
  rw [CKT.init_default (by simp) (by simp), Except.ok.injEq] at hst
  subst hst
  exact C42_round_trip_partial hN (CKT.lawful (by simp) (by simp)) zero_le_one (fun s r t _ h => CKT.pure s _ _ _ _ h) _
    (CKT.good_default (by simp)) msg code res f g hroom hc hd

/-- ... and for `ctw.CTW` of any depth over it. -/
theorem C42_ctw_CTW_round_trip_partial (hN : 3 ≤ N) (d : ℕ) (fr : CKT Bool) (hfr : CKT.init [false, true] none = .ok fr)
    (msg code res : List Bool) (f g : ℕ)
    (hroom : Roomy (CCTW.probSeq CKT.probSeq fr d false).toPredictor N f (Enc.init N) (CCTW.init fr) msg)
    (hc : compress (CCTW.probSeq CKT.probSeq fr d false).toPredictor N f (CCTW.init fr) msg = .ok code)
    (hd : decompress (CCTW.probSeq CKT.probSeq fr d false).toPredictor N g (CCTW.init fr) code msg.length = .ok res) :
    res = msg := by
  rw [CKT.init_default (by simp) (by simp), Except.ok.injEq] at hfr
  have hl : (CKT.probSeq (α := Bool)).lp fr = 0 := by subst hfr; rfl
  have hg : CKT.Good [false, true] fr := by subst hfr; exact CKT.good_default (by simp)
  refine C42_round_trip_partial hN
    (CCTW.lawful (d := d) (zero := false) (fresh := fr) CKT.tracks (fun s a r t h => CKT.predict_lp h) hl
      (CKT.lawful (by simp) (by simp))) zero_le_one ?_ _
    ⟨_, CCTWNode.Rel.new (Q := CKT.probSeq) (fresh := fr) hl d, CTWNode.WF.new hg d⟩ msg code res f g hroom hc hd
  rintro s r t ⟨m, hm, _⟩ h
  exact CCTW.predict_indist CKT.tracks (fun s a r t h => CKT.predict_lp h) CKT.pure hl hm h

/-- **C42 (why the decoder can fail to return).** Once zero's part of the interval rounds to nothing and stays that way as
ones are seen, `decode` never returns. -/
theorem C42_decode_never_returns (J : σ → Prop) (d : Dec) (bit : Bool)
    (hd : ((d.shift N).push bit).low < half N ∧ half N < ((d.shift N).push bit).high)
    (hv : ((d.shift N).push bit).low ≤ ((d.shift N).push bit).value)
    (hJ : ∀ t, J t → ∃ q t1 r t2, P.logPredict t false [] = .ok (q, t1) ∧
      (((((d.shift N).push bit).high - ((d.shift N).push bit).low : ℤ)) : ℝ) * Real.exp q < 1 ∧
      P.update t1 true [] 1 = .ok (r, t2) ∧ J t2) (t : σ) (ht : J t) (fuel : ℕ) :
    decode P N fuel d t bit = .error .timeout :=
  decodeLoop_stuck J hd hv hJ ht fuel

/-- **C42 (the code violates it).** With a new `ctw.KT` and 32 bits, as `compress` and `decompress` use them, the message
1 1 has the code 1 1 0, on which `decompress` never returns: having decoded both symbols it goes on decoding, because the
value stays exactly at the midpoint of the interval. -/
theorem C42_ctw_KT_never_decodes :
    ∃ st, CKT.init [false, true] none = .ok st ∧
      (∀ fuel, 3 ≤ fuel → compress (CKT.probSeq (α := Bool)).toPredictor 32 fuel st [true, true] = .ok [true, true, false]) ∧
      ∀ fuel, decompress (CKT.probSeq (α := Bool)).toPredictor 32 fuel st [true, true, false] 2 = .error .timeout := by
  refine ⟨_, KTI.init_eq, ?_, ?_⟩
  · intro fuel hf
    obtain ⟨j, rfl⟩ := Nat.exists_eq_add_of_le hf
    exact compress_mono (Sim.compress_sound KTI.rational KTI.compress_11 ⟨0, rfl⟩) j
  · intro fuel
    obtain ⟨st', h1, lp, rfl⟩ := Sim.decodeAll_sound KTI.rational KTI.read_110 (st := KTI.state 0 0 0) ⟨0, rfl⟩
    cases fuel with
    | zero => rfl
    | succ fuel =>
      have h2 : decodeAll (CKT.probSeq (α := Bool)).toPredictor 32 (fuel + 1) Dec.init (KTI.state 0 0 0) [true, true, false] =
          .ok ([], ⟨0, 8, 6⟩, KTI.state (([] : List Bool).count false) (([] : List Bool).count true) lp) := by
        have mono : ∀ (bits : List Bool) (d : Dec) (s : CKT Bool) x,
            decodeAll (CKT.probSeq (α := Bool)).toPredictor 32 1 d s bits = .ok x →
            decodeAll (CKT.probSeq (α := Bool)).toPredictor 32 (fuel + 1) d s bits = .ok x := by
          intro bits
          induction bits with
          | nil => exact fun _ _ _ h => h
          | cons b bs ih =>
            rintro d s ⟨xo, xd, xs⟩ h
            simp only [decodeAll, bind_eq_ok, pure_eq_ok, Except.ok.injEq, Prod.mk.injEq, Prod.exists] at h
            obtain ⟨o1, d1, s1, h1, o2, d2, s2, h2, rfl, rfl, rfl⟩ := h
            have h1' : decode (CKT.probSeq (α := Bool)).toPredictor 32 (fuel + 1) d s b = .ok (o1, d1, s1) := by
              rcases decodeLoop_fuel h1 (fuel + 1) with h3 | ⟨h3, _⟩
              · exact h3
              · omega
            simp only [decodeAll, h1', ok_bind, ih _ _ _ h2, pure_eq_ok]
        exact mono _ _ _ _ h1
      rw [decompress, h2]
      simp only [ok_bind, List.length_nil, Nat.cast_zero, sub_zero, Nat.cast_ofNat]
      rw [show KTI.state (([] : List Bool).count false) (([] : List Bool).count true) lp = KTI.state 0 0 lp from rfl,
        KTI.flush_hangs]
      rfl

/-- Probabilities of zero that squeeze the interval down to two integers around the midpoint. -/
def squeezeNum : List Bool → ℕ
  | [] => 2 ^ 31 - 1
  | [true] => 2
  | _ => 1

def squeezeDen : List Bool → ℕ
  | [] => 2 ^ 32
  | [true] => 2 ^ 31 + 1
  | [false, true] => 4
  | _ => 2

theorem squeeze_pos (h : List Bool) : 0 < squeezeNum h ∧ squeezeNum h < squeezeDen h := by
  unfold squeezeNum squeezeDen
  split <;> split <;> simp_all

/-- **C42 (the guard is needed).** A normalised model for which the message 1 0 0 is decoded as 1 0 1 0, wrong and too long: the encoder gives
zero one integer where its part of the interval rounds to nothing, the decoder gives it none. -/
theorem C42_without_room :
    ∃ p : List Bool → ℝ, (scripted p).Lawful (fun _ => True) [false, true] (fun _ => True) ∧ (scripted p).PurePredict ∧
      ∃ code, compress (scripted p) 32 40 [] [true, false, false] = .ok code ∧
        decompress (scripted p) 32 40 [] code 3 = .ok [true, false, true, false] := by
  refine ⟨fun h => (squeezeNum h : ℝ) / (squeezeDen h : ℝ), scripted_lawful (fun h => ?_), scripted_pure _, ?_⟩
  · have h1 := squeeze_pos h
    have h2 : (0 : ℝ) < squeezeNum h := by exact_mod_cast h1.1
    have h3 : (squeezeNum h : ℝ) < squeezeDen h := by exact_mod_cast h1.2
    exact ⟨div_pos h2 (by linarith), (div_lt_one (by linarith)).mpr h3⟩
  · have hc : Sim.compress squeezeNum squeezeDen 32 40 [true, false, false] =
        some (false :: List.replicate 31 true ++ [false, true]) := by decide +kernel
    have hd : Sim.decompress squeezeNum squeezeDen 32 40 (false :: List.replicate 31 true ++ [false, true]) 3 =
        some [true, false, true, false] := by decide +kernel
    exact ⟨_, Sim.compress_sound (scriptedRational squeeze_pos) hc rfl,
      Sim.decompress_sound (scriptedRational squeeze_pos) hd rfl⟩

/-- A message that does come back, with the default `ctw.KT`. -/
example : ∃ code, compress (CKT.probSeq (α := Bool)).toPredictor 32 100 (KTI.state 0 0 0) [false, true, false, false] =
      .ok code ∧
    decompress (CKT.probSeq (α := Bool)).toPredictor 32 100 (KTI.state 0 0 0) code 4 = .ok [false, true, false, false] := by
  cases hc : Sim.compress KTI.num KTI.den 32 100 [false, true, false, false] with
  | none =>
    have hn : Sim.compress KTI.num KTI.den 32 100 [false, true, false, false] ≠ none := by decide +kernel
    exact absurd hc hn
  | some c =>
    have hd : (Sim.compress KTI.num KTI.den 32 100 [false, true, false, false]).bind
        (fun c => Sim.decompress KTI.num KTI.den 32 100 c 4) = some [false, true, false, false] := by decide +kernel
    rw [hc] at hd
    exact ⟨c, Sim.compress_sound KTI.rational hc ⟨0, rfl⟩, Sim.decompress_sound KTI.rational hd ⟨0, rfl⟩⟩

/-! ## C43: code length -/

/-- **C43 (fractions).** For every message the fractions of the interval that the encoder keeps exist, lie strictly between
zero and one, and there is one for each symbol. -/
theorem C43_fractions (hN : 1 ≤ N) (hP : P.UpdateLawful I [false, true] W) (hw : W 1) (st : σ) (hst : I st)
    (msg : List Bool) (fuel : ℕ) (hf : N + 1 ≤ fuel) :
    ∃ qs, Fractions P N fuel (Enc.init N) st msg qs ∧ qs.length = msg.length ∧ ∀ q ∈ qs, 0 < q ∧ q < 1 := by
  obtain ⟨j, rfl⟩ := Nat.exists_eq_add_of_le hf
  have key : ∀ (msg : List Bool) (s : Enc) (st : σ), s.Ok N → I st →
      ∃ qs, Fractions P N (N + 1 + j) s st msg qs ∧ qs.length = msg.length ∧ ∀ q ∈ qs, 0 < q ∧ q < 1 := by
    intro msg
    induction msg with
    | nil => exact fun s st _ _ => ⟨[], .nil, rfl, by simp⟩
    | cons b bs ih =>
      intro s st hs hst
      obtain ⟨r, st1, hu, i1⟩ := hP.total st b [] 1 hst (by cases b <;> simp) hw
      obtain ⟨e1, _⟩ := exp_update_lt hP hw hst hu
      have hp := (encP_lt e1 b).1
      obtain ⟨o1, s1, h1⟩ := encodeWith_total hN hs hp b j
      obtain ⟨qs, q1, q2, q3⟩ := ih s1 st1 (encodeWith_ok hN hs hp h1).1 i1
      refine ⟨_, .cons hu h1 q1, by simp [q2], ?_⟩
      obtain ⟨m1, m2⟩ := encSplit_mem (low := s.low) (high := s.high) (by have := hs.straddle; omega) hp
      have hR : (0 : ℝ) < ((s.high - s.low : ℤ) : ℝ) := by exact_mod_cast (by omega : 0 < s.high - s.low)
      intro q hq
      rcases List.mem_cons.mp hq with rfl | hq
      · rw [div_lt_one hR]
        constructor
        · apply div_pos _ hR
          split_ifs
          · exact_mod_cast (by omega : 0 < s.high - encSplit s.low s.high (encP r b))
          · exact_mod_cast (by omega : 0 < encSplit s.low s.high (encP r b) - s.low)
        · split_ifs
          · exact_mod_cast (by omega : s.high - encSplit s.low s.high (encP r b) < s.high - s.low)
          · exact_mod_cast (by omega : encSplit s.low s.high (encP r b) - s.low < s.high - s.low)
      · exact q3 q hq
  exact key msg _ st (Enc.ok_init hN) hst

/-- **C43 (fractions and probabilities).** The fraction kept for a symbol differs from the symbol's probability by at most
one part in the width of the interval. -/
theorem C43_fraction_near_probability (low high : ℤ) (h : low < high) (pZero : ℝ) (h0 : 0 < pZero) :
    |((encSplit low high pZero - low : ℤ) : ℝ) / ((high - low : ℤ) : ℝ) - pZero| ≤ 1 / ((high - low : ℤ) : ℝ) := by
  have hR : (0 : ℝ) < ((high - low : ℤ) : ℝ) := by exact_mod_cast (by omega : 0 < high - low)
  have hx : 0 ≤ ((high - low : ℤ) : ℝ) * pZero := by positivity
  have e : ((encSplit low high pZero - low : ℤ) : ℝ) = ((max 1 (pyInt (((high - low : ℤ) : ℝ) * pZero)) : ℤ) : ℝ) := by
    congr 1
    unfold encSplit
    omega
  rw [e, div_sub' hR.ne', abs_div, abs_of_pos hR]
  apply div_le_div_of_nonneg_right _ hR.le
  unfold pyInt
  rw [if_pos hx, abs_le]
  have h1 := Int.floor_le (((high - low : ℤ) : ℝ) * pZero)
  have h2 := Int.lt_floor_add_one (((high - low : ℤ) : ℝ) * pZero)
  rcases le_total 1 ⌊((high - low : ℤ) : ℝ) * pZero⌋ with hc | hc
  · rw [max_eq_right hc]
    constructor <;> linarith
  · rw [max_eq_left hc]
    have h3 : (⌊((high - low : ℤ) : ℝ) * pZero⌋ : ℝ) ≤ 1 := by exact_mod_cast hc
    push_cast at *
    constructor <;> linarith

/-- **C43 (one symbol).** After any message, encoding one more symbol narrows the interval by the probability that the
model gives the symbol, up to one unit: `out` bits later the interval is `2 ^ out` times as wide as the part that was kept. -/
theorem C43_symbol_width (hN : 1 ≤ N) (hP : P.UpdateLawful I [false, true] W) (hw : W 1) (st : σ) (hst : I st)
    (msg : List Bool) (b : Bool) (fuel : ℕ) (o o' : List Bool) (s s' : Enc) (st1 st2 : σ) (r : ℝ)
    (h : encodeAll P N fuel (Enc.init N) st msg = .ok (o, s, st1)) (hu : P.update st1 b [] 1 = .ok (r, st2))
    (he : encode P N fuel s st1 b = .ok (o', s', st2)) :
    |((s'.high - s'.low : ℤ) : ℝ) / 2 ^ o'.length - ((s.high - s.low : ℤ) : ℝ) * Real.exp r| ≤ 1 := by
  obtain ⟨hs, hst1⟩ := encodeAll_ok hN hP hw (Enc.ok_init hN) hst h
  obtain ⟨e1, _⟩ := exp_update_lt hP hw hst1 hu
  obtain ⟨e2, e3⟩ := encP_lt e1 b
  simp only [encode, bind_eq_ok, pure_eq_ok, Except.ok.injEq, Prod.mk.injEq, Prod.exists] at he
  obtain ⟨r', st', hu', o'', s'', hw', rfl, rfl, rfl⟩ := he
  rw [liftRun_ok, hu] at hu'
  simp only [Except.ok.injEq, Prod.mk.injEq] at hu'
  obtain ⟨rfl, -⟩ := hu'
  have hk := (encodeWith_ok hN hs e2 hw').2
  have hpos : s.low < s.high := by have := hs.straddle; omega
  have hR : (0 : ℝ) < ((s.high - s.low : ℤ) : ℝ) := by exact_mod_cast (by omega : 0 < s.high - s.low)
  have hn := C43_fraction_near_probability s.low s.high hpos (encP r b) e3
  rw [div_sub' hR.ne', abs_div, abs_of_pos hR, div_le_div_iff_of_pos_right hR, abs_le] at hn
  rw [hk]
  push_cast at hn ⊢
  rw [mul_div_assoc, div_self (by positivity), mul_one, abs_le]
  cases b with
  | true =>
    simp only [encP, if_true] at hn ⊢
    constructor <;> linarith [hn.1, hn.2]
  | false =>
    simp only [encP, Bool.false_eq_true, if_false] at hn ⊢
    constructor <;> linarith [hn.1, hn.2]

/-- **C43.** The code of a message has at most two bits more than the sum over its symbols of `-log2` of the fraction of the
interval that the encoder keeps. -/
theorem C43_code_length (hN : 1 ≤ N) (hP : P.UpdateLawful I [false, true] W) (hw : W 1) (st : σ) (hst : I st)
    (msg code : List Bool) (fuel : ℕ) (qs : List ℝ) (hq : Fractions P N fuel (Enc.init N) st msg qs)
    (hpos : ∀ q ∈ qs, 0 < q) (hc : compress P N fuel st msg = .ok code) :
    (code.length : ℝ) ≤ 2 + (qs.map fun q => - Real.logb 2 q).sum := by
  simp only [compress, bind_eq_ok, pure_eq_ok, Except.ok.injEq, Prod.exists] at hc
  obtain ⟨o, s, t, h, rfl⟩ := hc
  have hs := (encodeAll_ok hN hP hw (Enc.ok_init hN) hst h).1
  have hfl : (s.flush N).length = 2 := by
    unfold Enc.flush
    rw [hs.follow]
    split_ifs <;> rfl
  have hwd := encodeAll_width hN hP hw (Enc.ok_init hN) hst h hq
  have htop : ((Enc.init N).high - (Enc.init N).low : ℤ) = top N := by simp [Enc.init]
  rw [htop] at hwd
  have hT : (0 : ℝ) < ((top N : ℤ) : ℝ) := by
    have := top_eq hN
    have := half_pos hN
    exact_mod_cast (by omega : 0 < top N)
  have hle : ((s.high - s.low : ℤ) : ℝ) ≤ ((top N : ℤ) : ℝ) := by
    have := hs.high
    have := hs.low
    exact_mod_cast (by omega : s.high - s.low ≤ top N)
  have hpr : 0 < qs.prod := List.prod_pos hpos
  have hb : qs.prod * 2 ^ o.length ≤ 1 := by
    rw [hwd, mul_assoc] at hle
    by_contra hcon
    push Not at hcon
    nlinarith
  have hlog : Real.logb 2 (qs.prod * 2 ^ o.length) ≤ 0 :=
    Real.logb_nonpos (by norm_num) (by positivity) hb
  rw [Real.logb_mul hpr.ne' (by positivity), Real.logb_pow, Real.logb_self_eq_one (by norm_num), mul_one] at hlog
  have hsum : ∀ l : List ℝ, (∀ q ∈ l, 0 < q) → (l.map fun q => - Real.logb 2 q).sum = - Real.logb 2 l.prod := by
    intro l
    induction l with
    | nil => simp
    | cons q l ih =>
      intro hl
      rw [List.map_cons, List.sum_cons, ih fun x hx => hl x (by simp [hx]), List.prod_cons,
        Real.logb_mul (hl q (by simp)).ne' (List.prod_pos fun x hx => hl x (by simp [hx])).ne']
      ring
  rw [hsum qs hpos, List.length_append, hfl]
  push_cast
  linarith

/-! ## C44: bytes -/

/-- **C44 (the code violates it).** With a new `ctw.KT` the byte 1 is compressed to the byte 129, which is decompressed to
the byte 128. -/
theorem C44_ctw_KT_byte_one :
    ∃ st, CKT.init [false, true] none = .ok st ∧
      compressBytes (CKT.probSeq (α := Bool)).toPredictor 32 100 st [1] = .ok [129] ∧
      decompressBytes (CKT.probSeq (α := Bool)).toPredictor 32 100 st [129] 1 = .ok [128] := by
  refine ⟨_, KTI.init_eq, ?_, ?_⟩
  · have hc : Sim.compress KTI.num KTI.den 32 100 (unpack [1]) =
        some [true, false, false, false, false, false, false, true] := by decide +kernel
    have := Sim.compress_sound KTI.rational hc (st := KTI.state 0 0 0) ⟨0, rfl⟩
    simp only [compressBytes, this, ok_bind, pure_eq_ok, Except.ok.injEq]
    rw [pack_tail (by simp) (by simp)]
    rfl
  · have hc : Sim.decompress KTI.num KTI.den 32 100 (unpack [129]) (1 * 8) =
        some [true, false, false, false, false, false, false, false] := by decide +kernel
    have := Sim.decompress_sound KTI.rational hc (st := KTI.state 0 0 0) ⟨0, rfl⟩
    simp only [decompressBytes, this, ok_bind, pure_eq_ok, Except.ok.injEq]
    rw [pack_tail (by simp) (by simp)]
    rfl

/-- **C44 (partial).** With a model that always gives both symbols probability one half, every byte string comes back:
compression reverses the bits of each byte, and decompression reverses them again.  Missing: other models, for which the
statement is false (`C44_ctw_KT_byte_one`). -/
theorem C44_bytes_round_trip_partial (hN : 9 ≤ N) (hP : P.Lawful I [false, true] W) (hw : W 1)
    (hpure : ∀ s r t, I s → P.logPredict s false [] = .ok (r, t) → Indist P s t)
    (hU : ∀ s r t, I s → P.logPredict s false [] = .ok (r, t) → Real.exp r = 1 / 2) (st : σ) (hst : I st)
    (data : List ℕ) (hd : ∀ m ∈ data, m < 256) : ∃ c, ∀ fuel, 2 ^ N + N + 2 ≤ fuel →
      compressBytes P N fuel st data = .ok c ∧ decompressBytes P N fuel st c data.length = .ok data := by
  have htop : (top N).toNat = 2 ^ N := by
    unfold top
    rw [show (2 : ℤ) ^ N = ((2 ^ N : ℕ) : ℤ) by push_cast; rfl, Int.toNat_natCast]
  refine ⟨data.map (fun m => fromBits (bits8 m)) ++ pack [false, true], fun fuel hf => ⟨?_, ?_⟩⟩
  · obtain ⟨j, rfl⟩ := Nat.exists_eq_add_of_le (show 2 ≤ fuel by omega)
    simp only [compressBytes, uniform_compress (N := N) (by omega) hP hw hU hst j (unpack data), ok_bind, pure_eq_ok, pack_unpack]
  · have hb : unpack (data.map (fun m => fromBits (bits8 m)) ++ pack [false, true]) =
        (data.flatMap fun m => (bits8 m).reverse) ++ bits8 64 := by
      rw [unpack_append, unpack_reversed hd, pack_tail (by simp) (by simp)]
      rfl
    have ht := uniform_trace (N := N) (by omega) hP hw hU hst (data.flatMap fun m => (bits8 m).reverse) (tail := bits8 64)
      (by rw [bits8_length]; omega)
    have hl : data.length * 8 = (data.flatMap fun m => (bits8 m).reverse).length := by
      clear hb ht hd
      induction data with
      | nil => rfl
      | cons m ms ih =>
        rw [List.flatMap_cons, List.length_append, ← ih, List.length_reverse, bits8_length, List.length_cons]
        ring
    obtain ⟨res, hr⟩ := decompress_total (by omega) hP hw hpure (fun s r t hs h => (hU s r t hs h).ge) hst (fuel := fuel)
      (by omega) ht
    have := decompress_trace (by omega) hP hw hpure hst ht hr
    subst this
    simp only [decompressBytes, hb, hl, hr, ok_bind, pure_eq_ok, pack_reversed hd]

/-- A model to which the previous theorem applies. -/
example : (scripted fun _ => 1 / 2).Lawful (fun _ => True) [false, true] (fun _ => True) ∧
    (scripted fun _ => 1 / 2).PurePredict ∧
    ∀ s r t, (scripted fun _ => 1 / 2).logPredict s false [] = .ok (r, t) → Real.exp r = 1 / 2 := by
  refine ⟨scripted_lawful (fun _ => by norm_num), scripted_pure _, ?_⟩
  intro s r t h
  simp only [scripted, Bool.false_eq_true, if_false, Except.ok.injEq, Prod.mk.injEq] at h
  rw [← h.1, Real.exp_log (by norm_num)]

/-! ## C45: calling the models -/

/-- **C45 (the code violates it: decoder).** With any model of model.py, decompressing any code of a nonempty message raises
`TypeError`: `predict` has a mandatory second parameter. -/
theorem C45_decompress_raises_TypeError (c : ModelClass) (P : Predictor σ Bool) (hN : 2 ≤ N) (st : σ) (code : List Bool)
    (n : ℕ) (hn : 0 < n) (fuel : ℕ) (hf : N ≤ fuel) :
    decompress (asCalled c P) N fuel st code n = .error (.raised .typeError) :=
  decompress_raises hN (by cases c <;> rfl) hn code hf

/-- **C45 (the code violates it: encoder).** The encoder raises `TypeError` on every nonempty message exactly for the classes
whose `update` has a mandatory history; for the other classes its calls reach the model. -/
theorem C45_compress_calls (c : ModelClass) (P : Predictor σ Bool) (st : σ) :
    (c ∈ [ModelClass.CTW, .CTW_KT, .Factored, .Dumb] → ∀ msg fuel, msg ≠ [] →
      compress (asCalled c P) N fuel st msg = .error (.raised .typeError)) ∧
    (c ∉ [ModelClass.CTW, .CTW_KT, .Factored, .Dumb] → ∀ msg fuel,
      compress (asCalled c P) N fuel st msg = compress P N fuel st msg) := by
  constructor
  · intro hc msg fuel hm
    exact compress_raises (fun b => by cases c <;> simp_all <;> rfl) hm fuel
  · intro hc msg fuel
    have hu : (asCalled c P).update = P.update := by
      funext s b h w
      cases c <;> simp_all <;> rfl
    have : ∀ (msg : List Bool) s st, encodeAll (asCalled c P) N fuel s st msg = encodeAll P N fuel s st msg := by
      intro msg
      induction msg with
      | nil => exact fun _ _ => rfl
      | cons b bs ih =>
        intro s st
        simp only [encodeAll, encode, hu, ih]
    simp only [compress, this]

end Verif
