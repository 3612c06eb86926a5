import Verif.Proofs.RoundingCode
import Verif.Props.RoundingAC
import Verif.Props.FileSize

/-! The length of the code when encoder and model compute in rounded arithmetic, without the bit per symbol of C113. -/

namespace Verif

open Predictor AC Arith Layer

variable {R : Arith} {ε : ℝ}

/-- **C126 (every message).** Let the encoder and the model compute in rounded arithmetic, and let the probabilities along the message keep the distance `m ≥ 16 ε`
from 0 and 1.  Then the encoder succeeds, and up to two bits and the factor `(N - 1) / (N - 1 - 2 k)` the code is as long as `-log2` of the product of the
probabilities that the model reports, plus `log2(e) / 2 ^ k + log2 (1 / (1 - 8 ε / m))` bits for each bit of the message. -/
theorem C126_code_length (hR : R.Accurate ε) {σ : Type} (P : Predictor σ Bool) (N : ℕ) (hN : 2 ≤ N) (m : ℝ) (hm0 : 0 < m) (hm : 16 * ε ≤ m) (st : σ)
    (msg : List Bool) (hW : Within P m st msg) (fuel : ℕ) (hf : N < fuel) :
    ∃ code r st', R.acCompress P N fuel st msg = .ok code ∧ P.run st (msg.map fun b => ⟨b, [], 1⟩) = .ok (r, st') ∧ ∀ k : ℕ, 2 * k + 1 ≤ N →
      ((N : ℝ) - 1 - 2 * k) * ((code.length : ℝ) - 2) ≤
        ((N : ℝ) - 1) * (-Real.logb 2 (Real.exp r) + msg.length * (1 / (2 ^ k * Real.log 2) + Real.logb 2 (1 / (1 - 8 * ε / m)))) := by
  obtain ⟨code, -, -, hc, -⟩ := C113_code_length hR P N (by omega) m hm0 hm st msg hW fuel hf
  obtain ⟨r, st', hr, hl⟩ := ac_length_amortised hR hm0 hm hN hW hc
  refine ⟨code, r, st', hc, hr, fun k hk => (hl k hk).trans_eq ?_⟩
  rw [one_div (1 - _), Real.logb_inv]

/-- **C126 (models over models).** Compress `n` bits with any tower of `CTW` and `PTW` over `KTBinary`, computing everything in rounded arithmetic.  If the precision
suffices for the length, then nothing raises, and the same bound holds with the probability that the tower gives the message in exact arithmetic, and a bound of the
rounding errors. -/
theorem C126_tower (hR : R.Accurate ε) (ls : List Layer) (H : ℕ) (msg : List Bool) (hT : 1 ≤ msg.length) (hTH : msg.length ≤ 2 ^ H)
    (hend : ∀ l ∈ ls, l.Endless) (hfit : ∀ l ∈ ls, l.Fits H msg.length)
    (hε : 16 * msg.length ^ 2 * (cost H ls * (ε * (10 * msg.length * Real.log (2 * msg.length) + 4))) ≤ 1) (N : ℕ) (hN : 2 ≤ N) (fuel : ℕ) (hf : N < fuel) :
    ∃ code r st, R.acCompress (rounded R ls) N fuel (new ls) msg = .ok code ∧
      (Layer.exact ls).run (new ls) (msg.map fun b => ⟨b, [], 1⟩) = .ok (r, st) ∧ ∀ k : ℕ, 2 * k + 1 ≤ N →
      ((N : ℝ) - 1 - 2 * k) * ((code.length : ℝ) - 2) ≤
        ((N : ℝ) - 1) * (-Real.logb 2 (Real.exp r) + msg.length / (2 ^ k * Real.log 2) + cost H ls * ε * msg.length ^ 2 * (15 * Real.log (2 * msg.length) + 102)) := by
  have e0 := hR.nonneg
  have hn : (1 : ℝ) ≤ msg.length := by exact_mod_cast hT
  have hρ := log_ge hT
  have hc : (1 : ℝ) ≤ cost H ls := by exact_mod_cast cost_pos H ls
  have hlen : (msg.map fun b => (⟨b, [], 1⟩ : Obs Bool)).length = msg.length := by simp
  have h100 : 100 * (cost H ls : ℝ) * ε * msg.length ≤ 1 := by
    refine le_trans ?_ hε
    have k1 : (100 : ℝ) ≤ 16 * (msg.length * (10 * msg.length * Real.log (2 * msg.length) + 4)) := by nlinarith
    have k2 : 0 ≤ (cost H ls : ℝ) * ε * msg.length := by positivity
    have k3 := mul_le_mul_of_nonneg_left k1 k2
    linarith
  obtain ⟨Sim, hB, hi, -⟩ := tower_sim hR hT hTH ls hfit h100
  obtain ⟨I, hL, hI⟩ := tower_lawful ls hend
  have hW := hB.within hL hT (by linarith) msg 0 _ _ (by omega) hi hI
  have hcε : ε ≤ cost H ls * ε := by nlinarith
  have hx : 64 * msg.length * ε ≤ 1 := by
    have := mul_le_mul_of_nonneg_left hcε (by positivity : (0 : ℝ) ≤ msg.length)
    have : 0 ≤ ε * msg.length := by positivity
    linarith
  obtain ⟨code, r', st', h1, h2, h3⟩ := C126_code_length hR (rounded R ls) N hN (1 / (4 * msg.length)) (by positivity)
    (by rw [le_div_iff₀ (by positivity)]; linarith) (new ls) msg hW fuel hf
  obtain ⟨r'', q', r, q, k1, k2, k3⟩ := C112_tower_sum hR ls H (msg.map fun b => ⟨b, [], 1⟩)
    (fun o ho => by obtain ⟨b, -, rfl⟩ := List.mem_map.1 ho; rfl) (by rwa [hlen]) (by rwa [hlen])
    (by rwa [hlen]) (by rwa [hlen])
  rw [h2] at k1
  simp only [Except.ok.injEq, Prod.mk.injEq] at k1
  obtain ⟨rfl, -⟩ := k1
  rw [hlen] at k3
  have hN' : (0 : ℝ) ≤ (N : ℝ) - 1 := by
    have : (2 : ℝ) ≤ N := by exact_mod_cast hN
    linarith
  refine ⟨code, r, q, h1, k2, fun k hk => (h3 k hk).trans (mul_le_mul_of_nonneg_left ?_ hN')⟩
  have hl2 : 2 / 3 ≤ Real.log 2 := by linarith [Real.log_two_gt_d9]
  have hl0 : 0 < Real.log 2 := by linarith
  have hxx : 8 * ε / (1 / (4 * msg.length)) = 32 * msg.length * ε := by field_simp; ring
  rw [hxx, mul_add, mul_one_div]
  set x := 32 * msg.length * ε with hxd
  have hx0 : 0 ≤ x := by positivity
  have hx2 : x ≤ 1 / 2 := by linarith
  have a1 : Real.logb 2 (1 / (1 - x)) ≤ 3 * x := by
    rw [Real.logb, div_le_iff₀ hl0]
    have := Real.log_le_sub_one_of_pos (x := 1 / (1 - x)) (by apply one_div_pos.2; linarith)
    have e : 1 / (1 - x) - 1 ≤ 2 * x := by
      rw [tsub_le_iff_right, div_le_iff₀ (by linarith)]
      nlinarith
    nlinarith
  have a2 : -Real.logb 2 (Real.exp r') ≤ -Real.logb 2 (Real.exp r) + 3 / 2 * |r' - r| := by
    simp only [Real.logb, Real.log_exp]
    have : (r - r') / Real.log 2 ≤ 3 / 2 * |r' - r| := by
      rw [div_le_iff₀ hl0]
      have := neg_abs_le (r' - r)
      nlinarith [abs_nonneg (r' - r)]
    rw [sub_div] at this
    linarith
  have a3 := mul_le_mul_of_nonneg_left a1 (by positivity : (0 : ℝ) ≤ msg.length)
  have a4 : (msg.length : ℝ) * (3 * x) ≤ 96 * (cost H ls * ε * msg.length ^ 2) := by
    have := mul_le_mul_of_nonneg_right hcε (by positivity : (0 : ℝ) ≤ msg.length ^ 2)
    rw [hxd]
    linarith
  have a5 := mul_le_mul_of_nonneg_left k3 (by norm_num : (0 : ℝ) ≤ 3 / 2)
  linarith

/-- **C126 (coins).** In rounded arithmetic, the code that the KT estimator makes of `n` bits, against every coin. -/
theorem C126_KT (hR : R.Accurate ε) (H : ℕ) (msg : List Bool) (hT : 1 ≤ msg.length) (hTH : msg.length ≤ 2 ^ H)
    (hε : 16 * msg.length ^ 2 * (cost H [] * (ε * (10 * msg.length * Real.log (2 * msg.length) + 4))) ≤ 1) (N : ℕ) (hN : 2 ≤ N) (fuel : ℕ) (hf : N < fuel) :
    ∃ code, R.acCompress (rounded R []) N fuel (KTBinary.init none) msg = .ok code ∧
      ∀ (k : ℕ) (_ : 2 * k + 1 ≤ N) (θ : ℝ) (_ : 0 ≤ θ) (_ : θ ≤ 1) (_ : 0 < bernProb θ (msg.map fun b => ⟨b, [], 1⟩)),
        ((N : ℝ) - 1 - 2 * k) * ((code.length : ℝ) - 2) ≤ ((N : ℝ) - 1) * (-Real.logb 2 (bernProb θ (msg.map fun b => ⟨b, [], 1⟩)) + 1 +
          1 / 2 * Real.logb 2 msg.length + msg.length / (2 ^ k * Real.log 2) + cost H [] * ε * msg.length ^ 2 * (15 * Real.log (2 * msg.length) + 102)) := by
  obtain ⟨code, r, st, h1, h2, h3⟩ := C126_tower hR [] H msg hT hTH (by simp) (by simp) hε N hN fuel hf
  refine ⟨code, h1, fun k hk θ h0 h1' hpos => (h3 k hk).trans (mul_le_mul_of_nonneg_left ?_ ?_)⟩
  · obtain ⟨r', s', hr', hb⟩ := C51_KTBinary_redundancy (msg.map fun b => ⟨b, [], 1⟩) (weight_plainObs msg) (by
      rintro h
      rw [List.map_eq_nil_iff] at h
      simp [h] at hT) θ h0 h1'
    change KTBinary.predictor.run (KTBinary.init none) _ = _ at h2
    obtain rfl : r = r' := congrArg Prod.fst (Except.ok.inj (h2.symm.trans hr'))
    have hn : (0 : ℝ) < (msg.length : ℝ) := by exact_mod_cast hT
    have hlog := Real.logb_le_logb_of_le (b := 2) (by norm_num) hpos hb
    rw [List.length_map, Real.logb_mul (by positivity) (Real.exp_pos r).ne', Real.logb_mul (by norm_num) (by positivity),
      Real.logb_self_eq_one (by norm_num), Real.sqrt_eq_rpow, Real.logb_rpow_eq_mul_logb_of_pos hn] at hlog
    linarith
  · have : (2 : ℝ) ≤ N := by exact_mod_cast hN
    linarith

/-- **C126 (changing coins).** In rounded arithmetic, the code that `PTW` over the KT estimator makes of `n` bits, against every coin that changes at multiples of
`2 ^ h0`. -/
theorem C126_PTW (hR : R.Accurate ε) (h0 H : ℕ) (h0H : h0 ≤ H) (msg : List Bool) (hT : 1 ≤ msg.length) (hTH : msg.length ≤ 2 ^ H)
    (hε : 16 * msg.length ^ 2 * (cost H [.ptw h0] * (ε * (10 * msg.length * Real.log (2 * msg.length) + 4))) ≤ 1) (N : ℕ) (hN : 2 ≤ N) (fuel : ℕ)
    (hf : N < fuel) :
    ∃ code, R.acCompress (rounded R [.ptw h0]) N fuel (PTW.init (KTBinary.init none) h0) msg = .ok code ∧
      ∀ (k : ℕ) (_ : 2 * k + 1 ≤ N) (θ : ℕ → ℝ) (_ : ∀ i, 0 ≤ θ i ∧ θ i ≤ 1) (_ : ∀ i ∈ changeTimes θ 0 msg.length, 2 ^ h0 ∣ i)
        (_ : 0 < pieceProb θ 0 (msg.map fun b => ⟨b, [], 1⟩)),
        ((N : ℝ) - 1 - 2 * k) * ((code.length : ℝ) - 2) ≤ ((N : ℝ) - 1) * (-Real.logb 2 (pieceProb θ 0 (msg.map fun b => ⟨b, [], 1⟩)) +
          changeBits (levelsFor h0 msg.length) (changeTimes θ 0 msg.length).card (ktPrice msg.length) +
          msg.length / (2 ^ k * Real.log 2) + cost H [.ptw h0] * ε * msg.length ^ 2 * (15 * Real.log (2 * msg.length) + 102)) := by
  obtain ⟨code, r, st, h1, h2, h3⟩ := C126_tower hR [.ptw h0] H msg hT hTH (by simp [Layer.Endless]) (by simpa [Layer.Fits] using h0H) hε N hN fuel hf
  refine ⟨code, h1, fun k hk θ hθ hal hpos => (h3 k hk).trans (mul_le_mul_of_nonneg_left ?_ ?_)⟩
  · have hb := C53_PTW_redundancy h0 (msg.map fun b => ⟨b, [], 1⟩) (weight_plainObs msg) r st h2 θ hθ (by rwa [List.length_map])
    rw [List.length_map] at hb
    have := bits_of_redundancy (lt_of_lt_of_le one_pos (Redundancy.one_le_ktPrice _)) hpos hb
    linarith
  · have : (2 : ℝ) ≤ N := by exact_mod_cast hN
    linarith

/-- A thousand bits, `PTW` over the KT estimator in double precision, as `-m PTW` of `z.py`: the hypotheses hold, and with `k = 4` the code has at most
`1.35 (-log2 p + 91) + 2` bits, where `p` is the exact probability. -/
example (msg : List Bool) (h : msg.length = 1000) :
    ∃ code r st, Double.arith.acCompress (rounded Double.arith [.ptw 0]) 32 33 (new [.ptw 0]) msg = .ok code ∧
      (Layer.exact [.ptw 0]).run (new [.ptw 0]) (msg.map fun b => ⟨b, [], 1⟩) = .ok (r, st) ∧
      23 * ((code.length : ℝ) - 2) ≤ 31 * (-Real.logb 2 (Real.exp r) + 91) := by
  have hc : cost 10 [.ptw 0] = 528 := by decide
  have h1 : Real.log (2 * (1000 : ℕ)) ≤ Real.log (2 ^ 11) := Real.log_le_log (by norm_num) (by norm_num)
  rw [Real.log_pow] at h1
  have h2 := Real.log_two_lt_d9
  push_cast at h1
  have h3 : Real.log (2 * 1000) ≤ 8 := by linarith
  obtain ⟨code, r, st, k1, k2, k3⟩ := C126_tower C113_double.1 [.ptw 0] 10 msg (by omega) (by omega)
    (by simp [Layer.Endless]) (by simp [Layer.Fits]) (by
      rw [hc, h]
      push_cast
      generalize Real.log (2 * 1000) = x at h3
      norm_num
      linarith) 32 (by norm_num) 33 (by norm_num)
  refine ⟨code, r, st, k1, k2, ?_⟩
  have k4 := k3 4 (by norm_num)
  rw [hc, h] at k4
  push_cast at k4
  have h5 : (1000 : ℝ) / (2 ^ 4 * Real.log 2) ≤ 90.2 := by
    rw [div_le_iff₀ (by have := Real.log_two_gt_d9; linarith)]
    have := Real.log_two_gt_d9
    linarith
  generalize (1000 : ℝ) / (2 ^ 4 * Real.log 2) = y at *
  generalize Real.log (2 * 1000) = x at *
  norm_num at k4
  linarith

end Verif
