import Mathlib.Analysis.Complex.ExponentialBounds
import Verif.Proofs.CodeLengthAmortised
import Verif.Props.CodeLength
import Verif.Props.FMNSources
import Verif.Props.Z

/-!
# C118: the size of the code against the best source

The bound of C110 allows one bit for every bit of the message.  Here the rounding of the interval is bounded by a small
part of the message and of its code.
-/

namespace Verif

open Predictor AC

section Code

variable {σ : Type} {P : Predictor σ Bool} {N : ℕ} {I : σ → Prop} {W : ℝ → Prop}

/-- **C118 (every message).** Up to two bits and the factor `(N - 1) / (N - 1 - 2 k)`, the code of a message is as long as
`-log2` of the probability that the model gives it, plus `log2(e) / 2 ^ k` bits for each bit of the message.  The number `k`
can be chosen: with `N = 32` bits and `k = 4`, the code has at most `1.35 (-log2 p + 0.091 n) + 2` bits, and with `k = 12`
at most `4.43 (-log2 p + 0.00036 n) + 2`. -/
theorem C118_code_length (hN : 2 ≤ N) (hP : P.UpdateLawful I [false, true] W) (hw : W 1) (st : σ) (hst : I st)
    (msg code : List Bool) (fuel : ℕ) (h : compress P N fuel st msg = .ok code) :
    ∃ r st', P.run st (msg.map fun b => ⟨b, [], 1⟩) = .ok (r, st') ∧ ∀ k : ℕ, 2 * k + 1 ≤ N →
      ((N : ℝ) - 1 - 2 * k) * ((code.length : ℝ) - 2) ≤
        ((N : ℝ) - 1) * (-Real.logb 2 (Real.exp r) + msg.length / (2 ^ k * Real.log 2)) := by
  have hN1 : 1 ≤ N := by omega
  simp only [compress, bind_eq_ok, pure_eq_ok, Except.ok.injEq, Prod.exists] at h
  obtain ⟨o, s, t, h, rfl⟩ := h
  have hs := (encodeAll_ok hN1 hP hw (Enc.ok_init hN1) hst h).1
  have hfl : (s.flush N).length = 2 := by
    unfold Enc.flush
    rw [hs.follow]
    split_ifs <;> rfl
  obtain ⟨r, hr, -⟩ := encodeAll_account (k := 0) hN hP hw (by omega) (Enc.ok_init hN1) hst h
  refine ⟨r, t, hr, fun k hk => ?_⟩
  obtain ⟨r', hr', hC⟩ := encodeAll_account (k := k) hN hP hw (by omega) (Enc.ok_init hN1) hst h
  rw [hr, Except.ok.injEq, Prod.mk.injEq] at hr'
  obtain rfl := hr'.1
  have htop : ((Enc.init N).high - (Enc.init N).low : ℤ) = 2 ^ N := by simp [Enc.init, top]
  have hlogT : Real.logb 2 (((2 : ℤ) ^ N : ℤ) : ℝ) = N := by
    rw [Int.cast_pow, Int.cast_ofNat, Real.logb_pow, Real.logb_self_eq_one (by norm_num), mul_one]
  have h2 := hC _ rfl
  rw [htop, hlogT] at h2
  have hM : ((N - 1 : ℕ) : ℝ) = (N : ℝ) - 1 := by rw [Nat.cast_sub hN1]; simp
  have hN' : (2 : ℝ) ≤ N := by exact_mod_cast hN
  have hk' : (k : ℝ) + 1 ≤ N := by exact_mod_cast (by omega : k + 1 ≤ N)
  have s1 : short (k : ℝ) (((2 : ℤ) ^ N : ℤ) : ℝ) = 0 := by
    rw [short, hlogT]
    exact max_eq_left (by linarith)
  have s2 : short ((N - 1 : ℕ) : ℝ) (((2 : ℤ) ^ N : ℤ) : ℝ) = 0 := by
    rw [short, hlogT, hM]
    exact max_eq_left (by linarith)
  rw [s1, s2, hM] at h2
  have hw1 : (1 : ℝ) ≤ ((s.high - s.low : ℤ) : ℝ) := by
    exact_mod_cast (by have := hs.straddle; omega : 1 ≤ s.high - s.low)
  have hwT : ((s.high - s.low : ℤ) : ℝ) ≤ 2 ^ N := by
    have a := hs.high
    have b := hs.low
    unfold top at a
    exact_mod_cast (by omega : s.high - s.low ≤ 2 ^ N)
  have hlw : Real.logb 2 ((s.high - s.low : ℤ) : ℝ) ≤ N := by
    have := Real.logb_le_logb_of_le (b := 2) (by norm_num) (by linarith) hwT
    rwa [Real.logb_pow, Real.logb_self_eq_one (by norm_num), mul_one] at this
  have hlw0 : 0 ≤ Real.logb 2 ((s.high - s.low : ℤ) : ℝ) := Real.logb_nonneg (by norm_num) hw1
  generalize ((s.high - s.low : ℤ) : ℝ) = w at *
  generalize hLw : Real.logb 2 w = Lw at *
  have hd0 : (0 : ℝ) < (N : ℝ) - 1 := by linarith
  have hphi : ((N : ℝ) - 1) * short k w ≤ k * short ((N : ℝ) - 1) w := by
    rcases le_total (k - Real.logb 2 w) 0 with hc | hc
    · rw [short, max_eq_left hc, mul_zero]
      exact mul_nonneg (Nat.cast_nonneg k) (short_nonneg _ _)
    · have : (N : ℝ) - 1 - Real.logb 2 w ≤ short ((N : ℝ) - 1) w := le_max_right _ _
      rw [short, max_eq_right hc]
      have := mul_le_mul_of_nonneg_left this (Nat.cast_nonneg (α := ℝ) k)
      rw [hLw] at this ⊢
      nlinarith
  have key := mul_le_mul_of_nonneg_left h2 hd0.le
  have e1 : ((N : ℝ) - 1) * (k / ((N : ℝ) - 1)) = k := by field_simp
  have e2 : ((N : ℝ) - 1) * (-Real.logb 2 (Real.exp r) + msg.length * (1 / (2 ^ k * Real.log 2)) + (short k w - 0) +
      k / ((N : ℝ) - 1) * (0 - short ((N : ℝ) - 1) w) + 2 * (k / ((N : ℝ) - 1)) * ((o.length : ℝ) + N - Lw)) =
      ((N : ℝ) - 1) * (-Real.logb 2 (Real.exp r) + msg.length / (2 ^ k * Real.log 2)) + (((N : ℝ) - 1) * short k w -
        k * short ((N : ℝ) - 1) w) + 2 * k * ((o.length : ℝ) + N - Lw) := by
    rw [mul_one_div]
    linear_combination (-short ((N : ℝ) - 1) w + 2 * ((o.length : ℝ) + N - Lw)) * e1
  rw [e2] at key
  rw [List.length_append, hfl]
  push_cast
  have hc : 2 * (k : ℝ) + 1 ≤ N := by exact_mod_cast hk
  have := mul_nonneg (show (0 : ℝ) ≤ (N : ℝ) - 1 - 2 * k by linarith) (show (0 : ℝ) ≤ N - Lw by linarith)
  linarith

/-- **C118 (coins).** The code of the default `ctw.KT` against every coin. -/
theorem C118_ctw_KT (hN : 2 ≤ N) (st : CKT Bool) (hst : CKT.init [false, true] none = .ok st) (msg code : List Bool)
    (fuel : ℕ) (hne : msg ≠ []) (h : compress (CKT.probSeq (α := Bool)).toPredictor N fuel st msg = .ok code)
    (θ : ℝ) (h0 : 0 ≤ θ) (h1 : θ ≤ 1) (hpos : 0 < bernProb θ (msg.map fun b => ⟨b, [], 1⟩)) (k : ℕ) (hk : 2 * k + 1 ≤ N) :
    ((N : ℝ) - 1 - 2 * k) * ((code.length : ℝ) - 2) ≤
      ((N : ℝ) - 1) * (1 + 1 / 2 * Real.logb 2 msg.length + -Real.logb 2 (bernProb θ (msg.map fun b => ⟨b, [], 1⟩)) +
        msg.length / (2 ^ k * Real.log 2)) := by
  obtain ⟨r, st', hr, hl⟩ := C118_code_length hN (CKT.lawful (α := Bool) (by simp) (by simp)).updateLawful zero_le_one st
    (ctw_KT_good hst) msg code fuel h
  refine (hl k hk).trans (mul_le_mul_of_nonneg_left ?_ ?_)
  · linarith [ctw_KT_bits st hst msg hne r st' hr θ h0 h1 hpos]
  · have : (2 : ℝ) ≤ N := by exact_mod_cast hN
    linarith

/-- **C118 (tree sources).** The code of `ctw.CTW(d)` over the default `ctw.KT` against every tree source of depth at
most `d`. -/
theorem C118_ctw_CTW (hN : 2 ≤ N) (d : ℕ) (fr : CKT Bool) (hfr : CKT.init [false, true] none = .ok fr)
    (msg code : List Bool) (fuel : ℕ)
    (h : compress (CCTW.probSeq CKT.probSeq fr d false).toPredictor N fuel (CCTW.init fr) msg = .ok code)
    (T : TreeSource Bool d) (hT : T.Valid)
    (hpos : 0 < T.prob (withCtx (recent d false) (addHist [] (msg.map fun b => ⟨b, [], 1⟩)))) (k : ℕ) (hk : 2 * k + 1 ≤ N) :
    ((N : ℝ) - 1 - 2 * k) * ((code.length : ℝ) - 2) ≤
      ((N : ℝ) - 1) * (T.shape.cost +
        Real.logb 2 (T.price (withCtx (recent d false) (addHist [] (msg.map fun b => ⟨b, [], 1⟩)))) +
        -Real.logb 2 (T.prob (withCtx (recent d false) (addHist [] (msg.map fun b => ⟨b, [], 1⟩)))) +
        msg.length / (2 ^ k * Real.log 2)) := by
  obtain ⟨I, hI, h0⟩ := ctw_CTW_lawful d hfr
  obtain ⟨r, st', hr, hl⟩ := C118_code_length hN hI zero_le_one _ h0 msg code fuel h
  refine (hl k hk).trans (mul_le_mul_of_nonneg_left ?_ ?_)
  · linarith [ctw_CTW_bits d fr hfr msg r st' hr T hT hpos]
  · have : (2 : ℝ) ≤ N := by exact_mod_cast hN
    linarith

/-- A message of `n` zeros, with `k = 12` and the coin that never shows one. -/
example (st : CKT Bool) (hst : CKT.init [false, true] none = .ok st) (n : ℕ) (hn : n ≠ 0) (code : List Bool) (fuel : ℕ)
    (h : compress (CKT.probSeq (α := Bool)).toPredictor 32 fuel st (List.replicate n false) = .ok code) :
    (code.length : ℝ) ≤ 7 + 3 * Real.logb 2 n + n / 600 := by
  have hb : bernProb 0 ((List.replicate n false).map fun b => (⟨b, [], 1⟩ : Obs Bool)) = 1 := by
    rw [bernProb, List.map_map]
    exact List.prod_eq_one (by simp)
  have hl := C118_ctw_KT (N := 32) (by norm_num) st hst (List.replicate n false) code fuel
    (by rwa [Ne, List.replicate_eq_nil_iff]) h 0 le_rfl zero_le_one (by rw [hb]; exact one_pos) 12 (by norm_num)
  rw [hb, List.length_replicate, Real.logb_one] at hl
  have hn1 : (1 : ℝ) ≤ n := by exact_mod_cast Nat.one_le_iff_ne_zero.2 hn
  have hlog : 0 ≤ Real.logb 2 n := Real.logb_nonneg (by norm_num) hn1
  have hl2 : (2 : ℝ) / 3 ≤ Real.log 2 := by linarith [Real.log_two_gt_d9]
  have hd : (n : ℝ) / (2 ^ 12 * Real.log 2) ≤ n * (3 / 8192) := by
    rw [div_le_iff₀ (by positivity)]
    nlinarith
  push_cast at hl
  linarith

end Code

/-! ## Files -/

namespace Z

theorem asCalled_run {σ : Type} {c : AC.ModelClass} (hc : c.update.bind 1 = .ok ()) (P : Predictor σ Bool) (s : σ)
    (xs : List (Obs Bool)) : (AC.asCalled c P).run s xs = P.run s xs := by
  induction xs generalizing s with
  | nil => rfl
  | cons o xs ih =>
    have hu : (AC.asCalled c P).update = P.update := by
      funext s b h w
      simp only [AC.asCalled, hc, ok_bind]
    simp only [Predictor.run, hu, ih]

/-- The models of `working`, with what they compute. -/
theorem working_run {m : ModelName} (hm : m ∈ [ModelName.KT, .PTW, .FMN]) :
    ∃ (σ : Type) (P : Predictor σ Bool) (I : σ → Prop) (W : ℝ → Prop) (st : σ), P.UpdateLawful I [false, true] W ∧ W 1 ∧
      I st ∧ (∀ fuel depth data, compressed fuel m depth data = yielded P 32 fuel st data) ∧
      ∀ xs r st', P.run st xs = .ok (r, st') →
        (m = .KT → ∃ s, KTBinary.predictor.run (KTBinary.init none) xs = .ok (r, s)) ∧
        (m = .PTW → ∃ s, (PTW.predictor KTBinary.predictor (KTBinary.init none) 0).run (PTW.init (KTBinary.init none) 0) xs =
          .ok (r, s)) ∧
        (m = .FMN → ∃ s0 s, FMN.init (LogStore.store KTBinary) KTBinary.predictor (KTBinary.init none) 10 = .ok s0 ∧
          (FMN.predictor (LogStore.store KTBinary) KTBinary.predictor 10).run s0 xs = .ok (r, s)) := by
  have hk := KTBinary.lawful.updateLawful
  have hk0 : 0 < (KTBinary.init none).c0 ∧ 0 < (KTBinary.init none).c1 := by norm_num [KTBinary.init]
  simp only [List.mem_cons, List.not_mem_nil, or_false] at hm
  rcases hm with rfl | rfl | rfl
  · refine ⟨_, _, _, _, (KTBinary.init none).toKT, asCalled_lawful (c := .KT) rfl (KT.lawful (A := [false, true]) (by simp) (by simp)),
      zero_le_one, ?_, fun fuel depth data => ?_, fun xs r st' hr => ?_⟩
    · have := KT.init_default (A := [false, true]) (by simp) (by simp)
      rw [C04_KTBinary_eq_KT.1, Except.ok.injEq] at this
      rw [this]
      exact KT.good_default (by simp)
    · simp only [compressed, C04_KTBinary_eq_KT.1]
    · rw [asCalled_run rfl, C04_KTBinary_runs] at hr
      refine ⟨fun _ => ?_, by simp, by simp⟩
      cases h : KTBinary.predictor.run (KTBinary.init none) xs with
      | error e => simp [h, Except.map] at hr
      | ok p =>
        simp only [h, Except.map, Except.ok.injEq, Prod.mk.injEq] at hr
        exact ⟨p.2, by rw [← hr.1]⟩
  · refine ⟨_, _, _, _, _, asCalled_lawful (c := .PTW) rfl (PTW.updateLawful (m := 0) hk hk0), zero_le_one,
      ⟨[], by simp [GoodObs], PTW.inv_init, hk0⟩, fun fuel depth data => rfl, fun xs r st' hr => ?_⟩
    rw [asCalled_run rfl] at hr
    exact ⟨by simp, fun _ => ⟨st', hr⟩, by simp⟩
  · have hn := C34_FMN_normalised (LogStore.store KTBinary) LogStore.add _ KTBinary.predictor (LogStore.lawful _) _ _ _ hk
      (fun s hs => ⟨s, rfl, hs, fun _ => rfl⟩) (KTBinary.init none) hk0 10
    obtain ⟨s0, r, s, h1, -⟩ := hn [] (by simp) [] 1 zero_le_one
    have hL : (FMN.predictor (LogStore.store KTBinary) KTBinary.predictor 10).UpdateLawful _ [false, true] fun w => 0 ≤ w :=
      Predictor.updateLawful_of_runs (s0 := s0) (by
        intro xs hx h w hw
        obtain ⟨s0', r, s, g1, g2⟩ := hn xs hx h w hw
        rw [h1, Except.ok.injEq] at g1
        subst g1
        exact ⟨r, s, g2⟩)
    refine ⟨_, _, _, _, s0, asCalled_lawful (c := .FMN) rfl hL, zero_le_one, ⟨[], 0, by simp [GoodObs], rfl⟩,
      fun fuel depth data => ?_, fun xs r st' hr => ?_⟩
    · simp only [compressed, h1]
    · rw [asCalled_run rfl] at hr
      exact ⟨by simp, by simp, fun _ => ⟨s0, st', h1, hr⟩⟩

theorem pack_length (l : List Bool) : 8 * (AC.pack l).length ≤ l.length + 7 := by
  induction hn : l.length using Nat.strong_induction_on generalizing l with
  | _ n ih =>
    by_cases h : l = []
    · subst h
      rw [pack_nil]
      simp
    · rw [pack_cons h, List.length_cons]
      have hp := List.length_pos_of_ne_nil h
      have := ih (l.drop 8).length (by rw [List.length_drop]; omega) _ rfl
      rw [List.length_drop] at this
      rcases le_total l.length 8 with hc | hc
      · rw [List.drop_of_length_le hc, pack_nil] at this ⊢
        simp only [List.length_nil]
        omega
      · omega

variable {Path : Type} [DecidableEq Path]

/-- The size of the output file in terms of what the model reports. -/
theorem size_of_run {m : ModelName} (hm : m ∈ [ModelName.KT, .PTW, .FMN]) (little : Bool) (depth : ℤ) (inp out : Path)
    (hne : inp ≠ out) (fs : Files Path) (data : List ℕ) (hd : fs inp = some data) (h1 : 1 ≤ data.length)
    (h2 : data.length < 2 ^ 32) : ∃ file r,
      (∀ fuel, 33 ≤ fuel → main fuel little .compress m (some depth) inp out fs =
        (fun p => if p = out then some file else fs p, .ok ())) ∧
      (∀ k : ℕ, k ≤ 15 → (31 - 2 * (k : ℝ)) * (8 * (file.length : ℝ) - 41) ≤
        31 * (-Real.logb 2 (Real.exp r) + 8 * data.length / (2 ^ k * Real.log 2))) ∧
      (m = .KT → ∃ s, KTBinary.predictor.run (KTBinary.init none) (plainObs (AC.unpack data)) = .ok (r, s)) ∧
      (m = .PTW → ∃ s, (PTW.predictor KTBinary.predictor (KTBinary.init none) 0).run (PTW.init (KTBinary.init none) 0)
        (plainObs (AC.unpack data)) = .ok (r, s)) ∧
      (m = .FMN → ∃ s0 s, FMN.init (LogStore.store KTBinary) KTBinary.predictor (KTBinary.init none) 10 = .ok s0 ∧
        (FMN.predictor (LogStore.store KTBinary) KTBinary.predictor 10).run s0 (plainObs (AC.unpack data)) = .ok (r, s)) := by
  obtain ⟨header, hh⟩ := toBytes4_isOk (little := little) h2
  obtain ⟨σ, P, I, W, st, hP, hw, hst, hc, hrun⟩ := working_run hm
  obtain ⟨c, hc'⟩ := yielded_ok hP hw hst data
  obtain ⟨hl, hv⟩ := toBytes4_ok hh
  have hcon : m.construct = .ok () := by
    simp only [List.mem_cons, List.not_mem_nil, or_false] at hm
    rcases hm with rfl | rfl | rfl <;> rfl
  have hcb := (hc' 33 le_rfl).1
  simp only [AC.compressBytes, bind_eq_ok, pure_eq_ok, Except.ok.injEq] at hcb
  obtain ⟨code, hcode, rfl⟩ := hcb
  obtain ⟨r, st', hr, hlen⟩ := C118_code_length (by norm_num) hP hw st hst _ _ _ hcode
  refine ⟨header ++ AC.pack code, r, fun fuel hf => ?_, fun k hk => ?_, hrun _ _ _ hr⟩
  · rw [main_compress hcon hd hh, if_neg hne, hc, (hc' fuel hf).2]
    simp only [if_neg (show ¬ data.length = 0 by omega), Prod.mk.injEq, and_true]
    funext p
    simp only [Function.update_apply]
  · have h3 := hlen k (by omega)
    rw [unpack_length] at h3
    have h4 := pack_length code
    have h4' : 8 * ((AC.pack code).length : ℝ) ≤ code.length + 7 := by exact_mod_cast h4
    have hk' : (k : ℝ) ≤ 15 := by exact_mod_cast hk
    rw [List.length_append, hl]
    push_cast at h3 ⊢
    have h5 := mul_le_mul_of_nonneg_left (show 8 * (4 + ((AC.pack code).length : ℝ)) - 41 ≤ code.length - 2 by linarith)
      (show (0 : ℝ) ≤ 31 - 2 * k by linarith)
    refine h5.trans (le_trans (le_of_eq ?_) (h3.trans (le_of_eq ?_)))
    · ring
    · ring

end Z

open Z

variable {Path : Type} [DecidableEq Path]

theorem weight_plainObs (bits : List Bool) : ∀ o ∈ plainObs bits, o.weight = 1 := by
  intro o ho
  obtain ⟨b, _, rfl⟩ := List.mem_map.mp ho
  rfl

theorem length_plainObs_unpack (data : List ℕ) : (plainObs (AC.unpack data)).length = 8 * data.length := by
  rw [plainObs, List.length_map, unpack_length]

/-- **C118 (files, KT).** `z.py compress -m KT` turns a file of `n` bytes into one of `4 + L` bytes, where `8 L` is, up to nine
bits and the factor `31 / (31 - 2 k)`, at most `1 + log2(8 n) / 2` bits more than `-log2` of the probability that any coin gives
the bits of the file, and `8 log2(e) / 2 ^ k` bits for each of its bytes. -/
theorem C118_file_KT (little : Bool) (depth : ℤ) (inp out : Path) (hne : inp ≠ out) (fs : Files Path) (data : List ℕ)
    (hd : fs inp = some data) (h1 : 1 ≤ data.length) (h2 : data.length < 2 ^ 32) :
    ∃ file, (∀ fuel, 33 ≤ fuel → main fuel little .compress .KT (some depth) inp out fs =
        (fun p => if p = out then some file else fs p, .ok ())) ∧
      ∀ (k : ℕ) (_ : k ≤ 15) (θ : ℝ) (_ : 0 ≤ θ) (_ : θ ≤ 1) (_ : 0 < bernProb θ (plainObs (AC.unpack data))),
        (31 - 2 * (k : ℝ)) * (8 * (file.length : ℝ) - 41) ≤ 31 * (-Real.logb 2 (bernProb θ (plainObs (AC.unpack data))) +
          (1 + 1 / 2 * Real.logb 2 (8 * data.length)) + 8 * data.length / (2 ^ k * Real.log 2)) := by
  obtain ⟨file, r, hmain, hsize, hkt, -, -⟩ := size_of_run (m := .KT) (by simp) little depth inp out hne fs data hd h1 h2
  refine ⟨file, hmain, fun k hk θ h0 h1' hpos => (hsize k hk).trans (mul_le_mul_of_nonneg_left ?_ (by norm_num))⟩
  obtain ⟨s, hr⟩ := hkt rfl
  have hlen := length_plainObs_unpack data
  have hxs : plainObs (AC.unpack data) ≠ [] := by
    intro h
    rw [h, List.length_nil] at hlen
    omega
  obtain ⟨r', s', hr', hb⟩ := C51_KTBinary_redundancy _ (weight_plainObs _) hxs θ h0 h1'
  rw [hr, Except.ok.injEq, Prod.mk.injEq] at hr'
  obtain rfl := hr'.1
  have hn : (0 : ℝ) < ((8 * data.length : ℕ) : ℝ) := by exact_mod_cast (by omega : 0 < 8 * data.length)
  have hlog := Real.logb_le_logb_of_le (b := 2) (by norm_num) hpos hb
  rw [hlen, Real.logb_mul (by positivity) (Real.exp_pos r).ne', Real.logb_mul (by norm_num) (by positivity),
    Real.logb_self_eq_one (by norm_num), Real.sqrt_eq_rpow, Real.logb_rpow_eq_mul_logb_of_pos hn] at hlog
  push_cast at hlog
  linarith

/-- What a source that changes costs: `levels` doublings, `c` changes, and the price `p` for each piece, in bits. -/
noncomputable def changeBits (levels c : ℕ) (p : ℝ) : ℝ :=
  levels * Real.logb 2 (3 / 2) + (2 * c * levels + 1) + (c * levels + 1) * Real.logb 2 p

theorem bits_of_redundancy {levels c : ℕ} {p q r : ℝ} (hp : 0 < p) (hq : 0 < q)
    (h : q ≤ (3/2 : ℝ) ^ levels * 2 ^ (2 * c * levels + 1) * p ^ (c * levels + 1) * Real.exp r) :
    -Real.logb 2 (Real.exp r) ≤ -Real.logb 2 q + changeBits levels c p := by
  have hlog := Real.logb_le_logb_of_le (b := 2) (by norm_num) hq h
  rw [Real.logb_mul (by positivity) (Real.exp_pos r).ne', Real.logb_mul (by positivity) (by positivity),
    Real.logb_mul (by positivity) (by positivity), Real.logb_pow, Real.logb_pow, Real.logb_pow,
    Real.logb_self_eq_one (by norm_num)] at hlog
  unfold changeBits
  push_cast at hlog
  linarith

/-- **C118 (files, PTW).** The same for `-m PTW` and sources whose parameter changes at any times. -/
theorem C118_file_PTW (little : Bool) (depth : ℤ) (inp out : Path) (hne : inp ≠ out) (fs : Files Path) (data : List ℕ)
    (hd : fs inp = some data) (h1 : 1 ≤ data.length) (h2 : data.length < 2 ^ 32) :
    ∃ file, (∀ fuel, 33 ≤ fuel → main fuel little .compress .PTW (some depth) inp out fs =
        (fun p => if p = out then some file else fs p, .ok ())) ∧
      ∀ (k : ℕ) (_ : k ≤ 15) (θ : ℕ → ℝ) (_ : ∀ i, 0 ≤ θ i ∧ θ i ≤ 1) (_ : 0 < pieceProb θ 0 (plainObs (AC.unpack data))),
        (31 - 2 * (k : ℝ)) * (8 * (file.length : ℝ) - 41) ≤ 31 * (-Real.logb 2 (pieceProb θ 0 (plainObs (AC.unpack data))) +
          changeBits (levelsFor 0 (8 * data.length)) (changeTimes θ 0 (8 * data.length)).card (ktPrice (8 * data.length)) +
          8 * data.length / (2 ^ k * Real.log 2)) := by
  obtain ⟨file, r, hmain, hsize, -, hptw, -⟩ := size_of_run (m := .PTW) (by simp) little depth inp out hne fs data hd h1 h2
  refine ⟨file, hmain, fun k hk θ hθ hpos => (hsize k hk).trans (mul_le_mul_of_nonneg_left ?_ (by norm_num))⟩
  obtain ⟨s, hr⟩ := hptw rfl
  have hb := C53_PTW_redundancy 0 _ (weight_plainObs _) r s hr θ hθ (by simp)
  rw [length_plainObs_unpack] at hb
  have := bits_of_redundancy (lt_of_lt_of_le one_pos (Redundancy.one_le_ktPrice _)) hpos hb
  linarith

/-- **C118 (files, FMN).** The same for `-m FMN` and sources whose parameter changes at multiples of 1024 bits. -/
theorem C118_file_FMN (little : Bool) (depth : ℤ) (inp out : Path) (hne : inp ≠ out) (fs : Files Path) (data : List ℕ)
    (hd : fs inp = some data) (h1 : 1 ≤ data.length) (h2 : data.length < 2 ^ 32) :
    ∃ file, (∀ fuel, 33 ≤ fuel → main fuel little .compress .FMN (some depth) inp out fs =
        (fun p => if p = out then some file else fs p, .ok ())) ∧
      ∀ (k : ℕ) (_ : k ≤ 15) (θ : ℕ → ℝ) (_ : ∀ i, 0 ≤ θ i ∧ θ i ≤ 1) (_ : 0 < pieceProb θ 0 (plainObs (AC.unpack data)))
        (_ : ∀ i ∈ changeTimes θ 0 (8 * data.length), 1024 ∣ i),
        (31 - 2 * (k : ℝ)) * (8 * (file.length : ℝ) - 41) ≤ 31 * (-Real.logb 2 (pieceProb θ 0 (plainObs (AC.unpack data))) +
          changeBits (levelsFor 10 (8 * data.length)) (changeTimes θ 0 (8 * data.length)).card
            (storeSize 10 (8 * data.length) * ktPrice (8 * data.length)) +
          8 * data.length / (2 ^ k * Real.log 2)) := by
  obtain ⟨file, r, hmain, hsize, -, -, hfmn⟩ := size_of_run (m := .FMN) (by simp) little depth inp out hne fs data hd h1 h2
  refine ⟨file, hmain, fun k hk θ hθ hpos hal => (hsize k hk).trans (mul_le_mul_of_nonneg_left ?_ (by norm_num))⟩
  obtain ⟨s0, s, h0, hr⟩ := hfmn rfl
  have hb := C119_FMN_redundancy 10 _ (weight_plainObs _) s0 s r h0 hr θ hθ (by
    rw [length_plainObs_unpack]
    exact fun i hi => hal i hi)
  rw [length_plainObs_unpack] at hb
  have hK : (0 : ℝ) < storeSize 10 (8 * data.length) := by exact_mod_cast storeSize_pos _ _
  have := bits_of_redundancy (mul_pos hK (lt_of_lt_of_le one_pos (Redundancy.one_le_ktPrice _))) hpos hb
  linarith

/-- A file whose first byte is 255 and the second 0, and a source that gives it the probability one and changes once. -/
example : pieceProb (fun i => if i < 8 then 1 else 0) 0 (plainObs (AC.unpack [255, 0])) = 1 := by
  have : AC.unpack [255, 0] = List.replicate 8 true ++ List.replicate 8 false := by decide
  rw [this]
  norm_num [plainObs, pieceProb, List.replicate]

end Verif
