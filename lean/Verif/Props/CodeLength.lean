import Verif.Proofs.CodeLength
import Verif.Props.Sources

/-! C110: the length of the code against the probability of the message. -/

namespace Verif

open Predictor AC

variable {σ : Type} {P : Predictor σ Bool} {N : ℕ} {I : σ → Prop} {W : ℝ → Prop}

/-- **C110 (every message).** The code of a message of `n` bits has at most `2 + n` bits more than `-log2` of the
probability that the model gives the message.  No assumption is made on the widths of the intervals. -/
theorem C110_code_length (hN : 1 ≤ N) (hP : P.UpdateLawful I [false, true] W) (hw : W 1) (st : σ) (hst : I st)
    (msg code : List Bool) (fuel : ℕ) (h : compress P N fuel st msg = .ok code) :
    ∃ r st', P.run st (msg.map fun b => ⟨b, [], 1⟩) = .ok (r, st') ∧
      (code.length : ℝ) ≤ 2 + msg.length + -Real.logb 2 (Real.exp r) := by
  obtain ⟨r, st', hr, hl⟩ := length_of_keeps hN hP hw (by norm_num) hst (keeps_half hN hP hw (Enc.ok_init hN) hst msg) h
  refine ⟨r, st', hr, hl.trans_eq ?_⟩
  rw [show (1 / 2 : ℝ) = 2⁻¹ by norm_num, Real.logb_inv, Real.logb_self_eq_one (by norm_num)]
  ring

/-- **C110 (wide intervals).** If the part of the interval that the probability asks for is, at every symbol, at least `M`
units wide, then the loss is at most `log2 (M / (M - 1))` bits for each symbol. -/
theorem C110_code_length_wide (hN : 1 ≤ N) (hP : P.UpdateLawful I [false, true] W) (hw : W 1) (st : σ) (hst : I st)
    (msg code : List Bool) (fuel : ℕ) (M : ℝ) (hM : 1 < M) (hwide : Wide P N fuel M (Enc.init N) st msg)
    (h : compress P N fuel st msg = .ok code) :
    ∃ r st', P.run st (msg.map fun b => ⟨b, [], 1⟩) = .ok (r, st') ∧
      (code.length : ℝ) ≤ 2 + -Real.logb 2 (Real.exp r) + msg.length * Real.logb 2 (M / (M - 1)) := by
  obtain ⟨r, st', hr, hl⟩ := length_of_keeps hN hP hw (div_pos (by linarith) (by linarith)) hst
    (keeps_wide hN hP hw hM (Enc.ok_init hN) hst hwide) h
  refine ⟨r, st', hr, hl.trans_eq ?_⟩
  rw [← Real.logb_inv 2 ((M - 1) / M), inv_div]

/-- With probabilities one half, every interval is the whole one, and `M` can be `2 ^ 31`. -/
example (st msg : List Bool) : Wide (scripted fun _ => 1 / 2) 32 40 (2 ^ 31) (Enc.init 32) st msg := by
  induction msg generalizing st with
  | nil => trivial
  | cons b bs ih =>
    intro r st' o s' hu he
    simp only [scripted, Except.ok.injEq, Prod.mk.injEq] at hu
    obtain ⟨rfl, rfl⟩ := hu
    have e : Real.exp (Real.log (if b = true then 1 - 1 / 2 else 1 / 2)) = 1 / 2 := by
      rw [show (if b = true then (1 : ℝ) - 1 / 2 else 1 / 2) = 1 / 2 by cases b <;> norm_num, Real.exp_log (by norm_num)]
    have e2 : encP (Real.log (if b = true then 1 - 1 / 2 else 1 / 2)) b = 1 / 2 := by
      rw [encP, e]
      split_ifs <;> norm_num
    rw [e2, uniform_encodeWith (by norm_num) b 38,
      Except.ok.injEq, Prod.mk.injEq] at he
    obtain ⟨-, rfl⟩ := he
    refine ⟨?_, ih _⟩
    rw [e]
    norm_num [Enc.init, top]

/-- The loss of the default `ctw.KT` in bits, against any coin. -/
theorem ctw_KT_bits (st : CKT Bool) (hst : CKT.init [false, true] none = .ok st) (msg : List Bool) (hne : msg ≠ []) (r : ℝ)
    (st' : CKT Bool) (hr : (CKT.probSeq (α := Bool)).toPredictor.run st (msg.map fun b => ⟨b, [], 1⟩) = .ok (r, st'))
    (θ : ℝ) (h0 : 0 ≤ θ) (h1 : θ ≤ 1) (hpos : 0 < bernProb θ (msg.map fun b => ⟨b, [], 1⟩)) :
    -Real.logb 2 (Real.exp r) ≤ 1 + 1 / 2 * Real.logb 2 msg.length +
      -Real.logb 2 (bernProb θ (msg.map fun b => ⟨b, [], 1⟩)) := by
  have hsame := CKT.sameBinary hst
  have hw : ∀ o ∈ msg.map (fun b => (⟨b, [], 1⟩ : Obs Bool)), o.weight = 1 := by
    intro o ho
    obtain ⟨b, _, rfl⟩ := List.mem_map.mp ho
    rfl
  obtain ⟨r', s', hr', hb⟩ := C51_KTBinary_redundancy (msg.map fun b => ⟨b, [], 1⟩) hw (by simpa using hne) θ h0 h1
  rcases corrRes_cases (CKT.homBinary.run hsame _ fun o ho => by rw [hw o ho]; exact zero_le_one) with
    ⟨e, g, _⟩ | ⟨r2, s2, t2, g1, g2, _⟩
  · rw [hr] at g; simp at g
  rw [hr] at g1
  rw [hr'] at g2
  simp only [Except.ok.injEq, Prod.mk.injEq] at g1 g2
  obtain rfl : r = r' := g1.1.trans g2.1.symm
  have hn : (0 : ℝ) < msg.length := by exact_mod_cast List.length_pos_of_ne_nil hne
  have hlog := Real.logb_le_logb_of_le (b := 2) (by norm_num) hpos hb
  rw [List.length_map, Real.logb_mul (by positivity) (Real.exp_pos r).ne', Real.logb_mul (by norm_num) (by positivity),
    Real.logb_self_eq_one (by norm_num), Real.sqrt_eq_rpow, Real.logb_rpow_eq_mul_logb_of_pos hn] at hlog
  linarith

theorem ctw_KT_good {st : CKT Bool} (hst : CKT.init [false, true] none = .ok st) : CKT.Good [false, true] st := by
  rw [CKT.init_default (by simp) (by simp), Except.ok.injEq] at hst
  subst hst
  exact CKT.good_default (by simp)

/-- **C110 (coins).** With the default `ctw.KT`, the code of `n ≥ 1` bits has at most `3 + n + log2(n) / 2` bits more than
`-log2` of the probability that any coin gives the message. -/
theorem C110_ctw_KT (hN : 1 ≤ N) (st : CKT Bool) (hst : CKT.init [false, true] none = .ok st) (msg code : List Bool)
    (fuel : ℕ) (hne : msg ≠ []) (h : compress (CKT.probSeq (α := Bool)).toPredictor N fuel st msg = .ok code)
    (θ : ℝ) (h0 : 0 ≤ θ) (h1 : θ ≤ 1) (hpos : 0 < bernProb θ (msg.map fun b => ⟨b, [], 1⟩)) :
    (code.length : ℝ) ≤ 3 + msg.length + 1 / 2 * Real.logb 2 msg.length +
      -Real.logb 2 (bernProb θ (msg.map fun b => ⟨b, [], 1⟩)) := by
  obtain ⟨r, st', hr, hl⟩ := C110_code_length hN (CKT.lawful (α := Bool) (by simp) (by simp)).updateLawful zero_le_one st
    (ctw_KT_good hst) msg code fuel h
  linarith [ctw_KT_bits st hst msg hne r st' hr θ h0 h1 hpos]

/-- `ctw.CTW(d)` over the default `ctw.KT` can drive the coder. -/
theorem ctw_CTW_lawful (d : ℕ) {fr : CKT Bool} (hfr : CKT.init [false, true] none = .ok fr) :
    ∃ I : CCTW (CKT Bool) Bool → Prop, (CCTW.probSeq CKT.probSeq fr d false).toPredictor.UpdateLawful I [false, true] (fun w => 0 ≤ w) ∧
      I (CCTW.init fr) := by
  have hl : (CKT.probSeq (α := Bool)).lp fr = 0 := by
    rw [CKT.init_default (by simp) (by simp), Except.ok.injEq] at hfr
    subst hfr; rfl
  exact ⟨_, (CCTW.lawful (d := d) (zero := false) (fresh := fr) CKT.tracks (fun s a r t h => CKT.predict_lp h) hl
      (CKT.lawful (by simp) (by simp))).updateLawful,
    ⟨_, CCTWNode.Rel.new (Q := CKT.probSeq) (fresh := fr) hl d, CTWNode.WF.new (ctw_KT_good hfr) d⟩⟩

/-- The loss of `ctw.CTW(d)` over the default `ctw.KT` in bits, against any tree source of depth at most `d`. -/
theorem ctw_CTW_bits (d : ℕ) (fr : CKT Bool) (hfr : CKT.init [false, true] none = .ok fr) (msg : List Bool) (r : ℝ)
    (st' : CCTW (CKT Bool) Bool)
    (hr : (CCTW.probSeq CKT.probSeq fr d false).toPredictor.run (CCTW.init fr) (msg.map fun b => ⟨b, [], 1⟩) = .ok (r, st'))
    (T : TreeSource Bool d) (hT : T.Valid)
    (hpos : 0 < T.prob (withCtx (recent d false) (addHist [] (msg.map fun b => ⟨b, [], 1⟩)))) :
    -Real.logb 2 (Real.exp r) ≤ T.shape.cost +
      Real.logb 2 (T.price (withCtx (recent d false) (addHist [] (msg.map fun b => ⟨b, [], 1⟩)))) +
      -Real.logb 2 (T.prob (withCtx (recent d false) (addHist [] (msg.map fun b => ⟨b, [], 1⟩)))) := by
  have hsame := CKT.sameBinary hfr
  have hl : (CKT.probSeq (α := Bool)).lp fr = 0 := by
    rw [CKT.init_default (by simp) (by simp), Except.ok.injEq] at hfr
    subst hfr; rfl
  have hwt : ∀ (hi : List Bool) (bs : List Bool), ∀ o ∈ addHist hi (bs.map fun b => (⟨b, [], 1⟩ : Obs Bool)), o.weight = 1 := by
    intro hi bs
    induction bs generalizing hi with
    | nil => simp [addHist]
    | cons b bs ih =>
      intro o ho
      simp only [List.map_cons, addHist, List.mem_cons] at ho
      rcases ho with rfl | ho
      · rfl
      · exact ih _ o ho
  rcases corrRes_cases (CCTW.run_corr (zero := false) (s := CCTW.init fr) CKT.tracks hl (.new hl d)
      (msg.map fun b => ⟨b, [], 1⟩)) with ⟨e, g, _⟩ | ⟨r2, s2, m, g1, g2, _⟩
  · rw [hr] at g; simp at g
  rw [hr] at g1
  simp only [Except.ok.injEq, Prod.mk.injEq] at g1
  obtain ⟨rfl, rfl⟩ := g1
  replace g2 : (CTW.predictor CKT.probSeq.toPredictor fr (recent d false)).run (CTW.init fr)
      (addHist [] (msg.map fun b => ⟨b, [], 1⟩)) = .ok (r, m) := g2
  have hH := CTWNode.hom (f := Equiv.refl Bool) CKT.homBinary (fresh := fr) (fresh' := KTBinary.init none) hsame
    (ctx := recent d false) (ctx' := recent d false) (by intro h; simp)
  have hcorr : CTWNode.TCorr (fun s t => CKT.Same [false, true] s t.toKT) (Equiv.refl Bool) (CTW.init fr)
      (CTW.init (KTBinary.init none)) := CTWNode.tcorr_new hsame
  rcases corrRes_cases (hH.run hcorr _ fun o ho => by rw [hwt [] msg o ho]; exact zero_le_one) with
    ⟨e, g, _⟩ | ⟨r3, s3, t3, g3, g4, _⟩
  · rw [g2] at g; simp at g
  rw [g2] at g3
  simp only [Except.ok.injEq, Prod.mk.injEq] at g3
  obtain ⟨rfl, -⟩ := g3
  have hb := C52_CTW_redundancy (recent d false) d _ (fun o _ => recent_length d false o.hist) (hwt _ _) r t3 g4 T hT
  have hpr := T.price_pos (withCtx (recent d false) (addHist [] (msg.map fun b => ⟨b, [], 1⟩)))
  have hlog := Real.logb_le_logb_of_le (b := 2) (by norm_num) hpos hb
  rw [Real.logb_mul (by positivity) (Real.exp_pos r).ne', Real.logb_mul (by positivity) hpr.ne', Real.logb_pow,
    Real.logb_self_eq_one (by norm_num)] at hlog
  linarith

/-- **C110 (tree sources).** With `ctw.CTW(d)` over the default `ctw.KT`, the code of `n` bits has at most `2 + n` bits more
than the cost of the tree, plus `log2` of the price of its parameters, plus `-log2` of the probability that any tree source of
depth at most `d` gives the message. -/
theorem C110_ctw_CTW (hN : 1 ≤ N) (d : ℕ) (fr : CKT Bool) (hfr : CKT.init [false, true] none = .ok fr)
    (msg code : List Bool) (fuel : ℕ)
    (h : compress (CCTW.probSeq CKT.probSeq fr d false).toPredictor N fuel (CCTW.init fr) msg = .ok code)
    (T : TreeSource Bool d) (hT : T.Valid)
    (hpos : 0 < T.prob (withCtx (recent d false) (addHist [] (msg.map fun b => ⟨b, [], 1⟩)))) :
    (code.length : ℝ) ≤ 2 + msg.length + T.shape.cost +
      Real.logb 2 (T.price (withCtx (recent d false) (addHist [] (msg.map fun b => ⟨b, [], 1⟩)))) +
      -Real.logb 2 (T.prob (withCtx (recent d false) (addHist [] (msg.map fun b => ⟨b, [], 1⟩)))) := by
  obtain ⟨I, hI, h0⟩ := ctw_CTW_lawful d hfr
  obtain ⟨r, st', hr, hlen⟩ := C110_code_length hN hI zero_le_one _ h0 msg code fuel h
  linarith [ctw_CTW_bits d fr hfr msg r st' hr T hT hpos]

/-- The source without context that draws fair bits gives `1 0` the probability one quarter. -/
example : (TreeSource.leaf (1 / 2) : TreeSource Bool 3).prob
    (withCtx (recent 3 false) (addHist [] ([true, false].map fun b => ⟨b, [], 1⟩))) = 1 / 4 := by
  norm_num [TreeSource.prob, withCtx, addHist, bernProb]

/-! ## The loss is not bounded by a constant -/

namespace Lossy

/-- The numerator of the probability of a zero. -/
def num (h : List Bool) : ℕ := if h.length % 3 = 0 then 2 ^ 31 + 1 else if h.length % 3 = 1 then 2 ^ 31 - 1 else 3

/-- The denominator. -/
def den (h : List Bool) : ℕ := if h.length % 3 = 0 then 2 ^ 32 else if h.length % 3 = 1 then 2 ^ 31 + 1 else 4

theorem num_lt (h : List Bool) : 0 < num h ∧ num h < den h := by
  unfold num den
  split_ifs <;> norm_num

/-- Zero, one, zero, repeated. -/
def msg : ℕ → List Bool
  | 0 => []
  | k + 1 => false :: true :: false :: msg k

/-- The code of the repetitions. -/
def out : ℕ → List Bool
  | 0 => []
  | k + 1 => (false :: List.replicate 31 true) ++ out k

theorem msg_length (k : ℕ) : (msg k).length = 3 * k := by
  induction k with
  | zero => rfl
  | succ k ih => simp only [msg, List.length_cons, ih]; ring

theorem out_length (k : ℕ) : (out k).length = 32 * k := by
  induction k with
  | zero => rfl
  | succ k ih => simp only [out, List.length_append, List.length_cons, List.length_replicate, ih]; ring

theorem norm1 : normLoop 32 33 ⟨0, 2 ^ 31 + 1, 0⟩ = .ok ([], ⟨0, 2 ^ 31 + 1, 0⟩) := by rfl
theorem norm2 : normLoop 32 33 ⟨2 ^ 31 - 1, 2 ^ 31 + 1, 0⟩ = .ok ([], ⟨2 ^ 31 - 1, 2 ^ 31 + 1, 0⟩) := by rfl
theorem norm3 : normLoop 32 33 ⟨2 ^ 31 - 1, 2 ^ 31, 0⟩ = .ok (false :: List.replicate 31 true, Enc.init 32) := by rfl

/-- One symbol of the encoder in integers. -/
theorem step {N fuel : ℕ} {s s' s'' : Enc} {b : Bool} {h h'' bs o o' : List Bool} (hpos : ¬ s.high - s.low < 0)
    (hn : normLoop N fuel (if b then { s with low := s.low + max 1 (Sim.cut num den (s.high - s.low) h) }
      else { s with high := s.low + max 1 (Sim.cut num den (s.high - s.low) h) }) = .ok (o, s'))
    (hr : Sim.encodeAll num den N fuel s' (b :: h) bs = some (o', s'', h'')) :
    Sim.encodeAll num den N fuel s h (b :: bs) = some (o ++ o', s'', h'') := by
  rw [Sim.encodeAll, if_neg hpos, hn]
  simp only [hr]

theorem encode (k : ℕ) (h : List Bool) (hh : h.length % 3 = 0) :
    ∃ h', Sim.encodeAll num den 32 33 (Enc.init 32) h (msg k) = some (out k, Enc.init 32, h') := by
  induction k generalizing h with
  | zero => exact ⟨h, rfl⟩
  | succ k ih =>
    obtain ⟨h', ih⟩ := ih (false :: true :: false :: h) (by simp only [List.length_cons]; omega)
    refine ⟨h', ?_⟩
    have c1 : Sim.cut num den ((Enc.init 32).high - (Enc.init 32).low) h = 2 ^ 31 + 1 := by
      simp only [Sim.cut, num, den, if_pos hh]
      rfl
    have c2 : Sim.cut num den ((2 ^ 31 + 1 : ℤ) - 0) (false :: h) = 2 ^ 31 - 1 := by
      have : (false :: h).length % 3 = 1 := by simp only [List.length_cons]; omega
      simp only [Sim.cut, num, den, this]
      rfl
    have c3 : Sim.cut num den ((2 ^ 31 + 1 : ℤ) - (2 ^ 31 - 1)) (true :: false :: h) = 1 := by
      have : (true :: false :: h).length % 3 = 2 := by simp only [List.length_cons]; omega
      simp only [Sim.cut, num, den, this]
      rfl
    refine step (o := []) (s' := ⟨0, 2 ^ 31 + 1, 0⟩) (o' := out (k + 1)) (by decide) ?_ ?_
    · rw [c1]
      exact norm1
    refine step (o := []) (s' := ⟨2 ^ 31 - 1, 2 ^ 31 + 1, 0⟩) (o' := out (k + 1)) (by decide) ?_ ?_
    · simp only
      rw [c2]
      exact norm2
    refine step (by decide) ?_ ih
    · simp only
      rw [c3]
      exact norm3

theorem run (k : ℕ) (h : List Bool) (hh : h.length % 3 = 0) :
    ∃ r st', (scripted fun h => (num h : ℝ) / (den h : ℝ)).run h ((msg k).map fun b => ⟨b, [], 1⟩) = .ok (r, st') ∧
      Real.exp r = (3 / 2 ^ 33) ^ k := by
  induction k generalizing h with
  | zero => exact ⟨0, h, rfl, by simp⟩
  | succ k ih =>
    obtain ⟨r, st', hr, he⟩ := ih (false :: true :: false :: h) (by simp only [List.length_cons]; omega)
    have l1 : (false :: h).length % 3 = 1 := by simp only [List.length_cons]; omega
    have l2 : (true :: false :: h).length % 3 = 2 := by simp only [List.length_cons]; omega
    refine ⟨_, st', by
      simp only [msg, List.map_cons, Predictor.run, scripted, ok_bind]
      change (do
        let (r', s'') ← (do
          let (r', s'') ← (do
            let (r', s'') ← (scripted fun h => (num h : ℝ) / (den h : ℝ)).run (false :: true :: false :: h)
              ((msg k).map fun b => ⟨b, [], 1⟩)
            pure (_ + r', s''))
          pure (_ + r', s''))
        pure (_ + r', s'')) = _
      rw [hr]
      simp only [ok_bind, pure_eq_ok]
      rfl, ?_⟩
    simp only [num, den, l1, l2, hh, Bool.false_eq_true, if_false, if_true, one_ne_zero, OfNat.ofNat_ne_zero,
      OfNat.ofNat_ne_one]
    rw [Real.exp_add, Real.exp_add, Real.exp_add, Real.exp_log (by norm_num), Real.exp_log (by norm_num),
      Real.exp_log (by norm_num), he, pow_succ]
    norm_num
    ring

end Lossy

/-- **C110 (the loss grows with the message).** There is a model, with probabilities that sum to one, under which the code of
`n` bits, for every multiple `n` of three, is more than `n / 6` bits longer than `-log2` of the probability of the message.
The cause is line 77: `_3_4` is one half, so an interval around the middle is never widened and shrinks to two units, where
every probability counts as one half. -/
theorem C110_loss_grows :
    ∃ p : List Bool → ℝ, (scripted p).Lawful (fun _ => True) [false, true] (fun _ => True) ∧ (scripted p).PurePredict ∧
      ∀ k : ℕ, ∃ msg code r st', msg.length = 3 * k ∧ (∀ fuel, 33 ≤ fuel → compress (scripted p) 32 fuel [] msg = .ok code) ∧
        (scripted p).run [] (msg.map fun b => ⟨b, [], 1⟩) = .ok (r, st') ∧
        2 + (msg.length : ℝ) / 6 + -Real.logb 2 (Real.exp r) ≤ code.length := by
  refine ⟨fun h => (Lossy.num h : ℝ) / (Lossy.den h : ℝ), scripted_lawful (fun h => ?_), scripted_pure _, fun k => ?_⟩
  · have h1 := Lossy.num_lt h
    have h2 : (0 : ℝ) < Lossy.num h := by exact_mod_cast h1.1
    have h3 : (Lossy.num h : ℝ) < Lossy.den h := by exact_mod_cast h1.2
    exact ⟨div_pos h2 (by linarith), (div_lt_one (by linarith)).mpr h3⟩
  obtain ⟨h', he⟩ := Lossy.encode k [] rfl
  obtain ⟨r, st', hr, hx⟩ := Lossy.run k [] rfl
  have hc : Sim.compress Lossy.num Lossy.den 32 33 (Lossy.msg k) = some (Lossy.out k ++ [false, true]) := by
    rw [Sim.compress, he]
    rfl
  refine ⟨Lossy.msg k, Lossy.out k ++ [false, true], r, st', Lossy.msg_length k, ?_, hr, ?_⟩
  · intro fuel hf
    obtain ⟨j, rfl⟩ := Nat.exists_eq_add_of_le hf
    exact compress_mono (Sim.compress_sound (scriptedRational Lossy.num_lt) hc rfl) j
  · rw [hx, Real.logb_pow, List.length_append, Lossy.out_length, Lossy.msg_length]
    have h3 : (31 : ℝ) + 1 / 2 ≥ -Real.logb 2 (3 / 2 ^ 33) := by
      rw [ge_iff_le, neg_le, Real.le_logb_iff_rpow_le (by norm_num) (by norm_num)]
      rw [show (-(31 + 1 / 2) : ℝ) = (1 / 2 : ℝ) + ((-32 : ℤ) : ℝ) by norm_num, Real.rpow_add (by norm_num),
        Real.rpow_intCast, ← Real.sqrt_eq_rpow]
      have : Real.sqrt 2 ≤ 3 / 2 := by
        rw [Real.sqrt_le_left (by norm_num)]
        norm_num
      calc Real.sqrt 2 * (2 : ℝ) ^ (-32 : ℤ) ≤ 3 / 2 * (2 : ℝ) ^ (-32 : ℤ) := by gcongr
        _ ≤ 3 / 2 ^ 33 := by norm_num
    have hk : (0 : ℝ) ≤ k := Nat.cast_nonneg k
    simp only [List.length_cons, List.length_nil]
    push_cast
    nlinarith

end Verif
