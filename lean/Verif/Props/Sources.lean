import Verif.Proofs.SourceRegret
import Verif.Props.Estimators
import Verif.Props.CTW
import Verif.Props.PTW

/-!
# C51-C53: redundancy of KT, CTW and PTW against sources with real parameters
-/

namespace Verif

open Predictor Redundancy

/-- **C51.** The binary KT estimator gives every sequence of `n` unit-weight symbols at least `1 / (2 sqrt n)` times the
probability that any Bernoulli source, with whatever parameter, gives it. -/
theorem C51_KTBinary_redundancy (xs : List (Obs Bool)) (hw : ∀ o ∈ xs, o.weight = 1) (hne : xs ≠ []) (θ : ℝ)
    (h0 : 0 ≤ θ) (h1 : θ ≤ 1) :
    ∃ r s, KTBinary.predictor.run (KTBinary.init none) xs = .ok (r, s) ∧
      bernProb θ xs ≤ 2 * Real.sqrt xs.length * Real.exp r := by
  obtain ⟨r, s, hr, hp⟩ := run_ktP hw 0 0
  have e : KTBinary.init none = ⟨((0 : ℕ) : ℝ) + 1 / 2, ((0 : ℕ) : ℝ) + 1 / 2⟩ := by simp [KTBinary.init]
  refine ⟨r, s, by rw [e, hr], ?_⟩
  have hp' : Real.exp r = ktP (zeros xs) (ones xs) := by simpa [ktP, rise] using hp
  have hlen := zeros_add_ones xs
  have : 1 ≤ zeros xs + ones xs := by
    rw [hlen]
    exact List.length_pos_of_ne_nil hne
  rw [bernProb_eq, hp', ← hlen]
  exact bern_le_ktP this h0 h1

/-- **C51 (loss).** In nats: the total loss is at most that of the source plus `log 2 + (1/2) log n`. -/
theorem C51_KTBinary_redundancy_loss (xs : List (Obs Bool)) (hw : ∀ o ∈ xs, o.weight = 1) (hne : xs ≠ []) (θ : ℝ)
    (h0 : 0 ≤ θ) (h1 : θ ≤ 1) (hpos : 0 < bernProb θ xs) :
    ∃ r s, KTBinary.predictor.run (KTBinary.init none) xs = .ok (r, s) ∧
      -r ≤ -Real.log (bernProb θ xs) + Real.log 2 + 1 / 2 * Real.log xs.length := by
  obtain ⟨r, s, hr, hb⟩ := C51_KTBinary_redundancy xs hw hne θ h0 h1
  refine ⟨r, s, hr, ?_⟩
  have hn : (0 : ℝ) < xs.length := by exact_mod_cast List.length_pos_of_ne_nil hne
  have := Real.log_le_log hpos hb
  rw [Real.log_mul (by positivity) (Real.exp_pos r).ne', Real.log_exp, Real.log_mul (by norm_num) (by positivity),
    Real.log_sqrt hn.le] at this
  linarith

/-- **C51 for `KT`.** The same for `KT` with the alphabet `[0, 1]`. -/
theorem C51_KT_redundancy (xs : List (Obs Bool)) (hw : ∀ o ∈ xs, o.weight = 1) (hne : xs ≠ []) (θ : ℝ)
    (h0 : 0 ≤ θ) (h1 : θ ≤ 1) :
    ∃ s0 r s, KT.init [false, true] none = .ok s0 ∧ KT.predictor.run s0 xs = .ok (r, s) ∧
      bernProb θ xs ≤ 2 * Real.sqrt xs.length * Real.exp r := by
  obtain ⟨r, s, hr, hb⟩ := C51_KTBinary_redundancy xs hw hne θ h0 h1
  refine ⟨_, r, s.toKT, C04_KTBinary_eq_KT.1, ?_, hb⟩
  rw [C04_KTBinary_runs, hr]
  rfl

/-- The factor `2 sqrt n` is not slack at `n = 1`: a source certain of a one gives it twice the KT probability. -/
theorem C51_KTBinary_redundancy_tight :
    ∃ r s, KTBinary.predictor.run (KTBinary.init none) [⟨true, [], 1⟩] = .ok (r, s) ∧
      bernProb 1 [⟨true, [], 1⟩] = 2 * Real.sqrt (1 : ℕ) * Real.exp r := by
  obtain ⟨r, s, hr, hp⟩ := run_ktP (xs := [⟨true, [], 1⟩]) (by simp) 0 0
  have e : KTBinary.init none = ⟨((0 : ℕ) : ℝ) + 1 / 2, ((0 : ℕ) : ℝ) + 1 / 2⟩ := by simp [KTBinary.init]
  refine ⟨r, s, by rw [e, hr], ?_⟩
  have : Real.exp r = 1 / 2 := by simpa [ktP, rise, zeros, ones] using hp
  rw [this]
  simp [bernProb]

/-- Hypotheses are met by, for example, `1 1 0` with parameter `2/3`, whose probability is `4/27`. -/
example : bernProb (2/3) [⟨true, [], 1⟩, ⟨true, [], 1⟩, ⟨false, [], 1⟩] = 4 / 27 := by norm_num [bernProb]

/-- **C52.** `CTW` over binary KT estimators loses, against every tree source with real parameters at its leaves, at
most one bit per node of the tree above the maximal depth, and a factor `2 sqrt n` for each leaf with `n ≥ 1`
symbols. -/
theorem C52_CTW_redundancy {κ : Type} [Fintype κ] [DecidableEq κ] (ctx : List Bool → List κ) (d : ℕ)
    (xs : List (Obs Bool)) (hc : ∀ o ∈ xs, (ctx o.hist).length = d) (hw : ∀ o ∈ xs, o.weight = 1) (r : ℝ)
    (n : CTWNode KTBinary κ)
    (hr : (CTW.predictor KTBinary.predictor (KTBinary.init none) ctx).run (CTW.init (KTBinary.init none)) xs =
      .ok (r, n)) (T : TreeSource κ d) (hT : T.Valid) :
    T.prob (withCtx ctx xs) ≤ 2 ^ T.shape.cost * T.price (withCtx ctx xs) * Real.exp r := by
  have h1 := C16_CTW_regret KTBinary.predictor (KTBinary.init none) ctx d xs hc r n hr T.shape
  have h2 := T.prob_le hT (withCtx ctx xs) (by
    intro p hp
    simp only [withCtx, List.mem_map] at hp
    obtain ⟨o, ho, rfl⟩ := hp
    exact hw o ho)
  have hp := T.price_pos (withCtx ctx xs)
  refine h2.trans ?_
  have h3 : T.shape.prob (KTBinary.predictor.seqProb (KTBinary.init none)) (withCtx ctx xs) ≤
      2 ^ T.shape.cost * Real.exp r := by
    have := mul_le_mul_of_nonneg_left h1 (show (0 : ℝ) ≤ 2 ^ T.shape.cost by positivity)
    rwa [← mul_assoc, ← mul_pow, show (2 : ℝ) * (1 / 2) = 1 by norm_num, one_pow, one_mul] at this
  calc _ ≤ _ := mul_le_mul_of_nonneg_left h3 hp.le
    _ = _ := by ring

/-- A source of depth 1 whose parameter is the previous symbol: it predicts `1 1 0`, seen after `0`, `1`, `1`, with
probability zero, and `0 1 1`, seen after the same symbols, with probability one. -/
example : (TreeSource.split (d := 0) fun c : Bool => .leaf (if c then 1 else 0)).prob
    (withCtx id [⟨false, [false], 1⟩, ⟨true, [true], 1⟩, ⟨true, [true], 1⟩]) = 1 := by
  simp [TreeSource.prob, withCtx, subCtx, bernProb]

/-- **C53.** For any labelling of times that changes only at multiples of the minimum block length, some binary
temporal partition has constant labels on every segment and at most `levels` segments per change, plus one. -/
theorem C53_partition_exists {γ β : Type} [DecidableEq γ] (θ : ℕ → γ) (m k : ℕ) (xs : List β)
    (hl : xs.length ≤ 2 ^ (m + k)) (hal : ∀ i ∈ changeTimes θ 0 xs.length, 2 ^ m ∣ i) :
    ∃ T : TPart k, T.size ≤ (changeTimes θ 0 xs.length).card * k + 1 ∧
      ∀ g ∈ T.segments m 0 xs, ∀ i < g.2.length, θ (g.1 + i) = θ g.1 :=
  exists_partition θ m k 0 xs (dvd_zero _) hl hal

/-- **C53 (fixed length).** `PTWFixedLength` over binary KT estimators, on `n` symbols, loses against every source
whose parameter changes `c` times at most `2 c h + 1` bits and `c h + 1` factors `2 sqrt n`, where `h` is the number of
levels. -/
theorem C53_PTWFixedLength_redundancy (m height : ℕ) (xs : List (Obs Bool)) (hl : xs.length ≤ 2 ^ max m height)
    (hw : ∀ o ∈ xs, o.weight = 1) (r : ℝ) (s : PTW KTBinary)
    (hr : (PTWFixedLength.predictor KTBinary.predictor (KTBinary.init none) m height).run
      (PTW.init (KTBinary.init none) m) xs = .ok (r, s))
    (θ : ℕ → ℝ) (hθ : ∀ i, 0 ≤ θ i ∧ θ i ≤ 1) (hal : ∀ i ∈ changeTimes θ 0 xs.length, 2 ^ m ∣ i) :
    pieceProb θ 0 xs ≤ 2 ^ (2 * (changeTimes θ 0 xs.length).card * (height - m) + 1) *
      ktPrice xs.length ^ ((changeTimes θ 0 xs.length).card * (height - m) + 1) * Real.exp r := by
  obtain ⟨T, hs, hconst⟩ := C53_partition_exists θ m (height - m) xs (by
    rw [show m + (height - m) = max m height by omega]
    exact hl) hal
  have h1 := C28_PTWFixedLength_regret KTBinary.predictor (KTBinary.init none) m height xs hl r s hr T
  have h2 := prod_pieces_le (n := xs.length) hθ (T.segments m 0 xs)
    (fun g hg => (segments_mem_sub m T 0 xs g hg).1)
    (fun g hg o ho => hw o ((segments_mem_sub m T 0 xs g hg).2 o ho)) hconst
  rw [← pieceProb_segments, TPart.segments_length] at h2
  have hcost := T.cost_lt
  set C := (changeTimes θ 0 xs.length).card * (height - m) with hC
  have hk := one_le_ktPrice xs.length
  have hq : (T.segments m 0 xs |>.map fun g => KTBinary.predictor.seqProb (KTBinary.init none) g.2).prod ≤
      2 ^ (2 * C + 1) * Real.exp r := by
    have := mul_le_mul_of_nonneg_left h1 (show (0 : ℝ) ≤ 2 ^ T.cost by positivity)
    rw [← mul_assoc, ← mul_pow, show (2 : ℝ) * (1 / 2) = 1 by norm_num, one_pow, one_mul] at this
    refine this.trans (mul_le_mul_of_nonneg_right ?_ (Real.exp_pos r).le)
    exact pow_le_pow_right₀ (by norm_num) (by omega)
  have hkp : (0 : ℝ) ≤ ktPrice xs.length ^ T.size := by positivity
  have hexp : (0 : ℝ) ≤ 2 ^ (2 * C + 1) * Real.exp r := by positivity
  rw [show 2 * (changeTimes θ 0 xs.length).card * (height - m) = 2 * C by rw [hC]; ring]
  calc pieceProb θ 0 xs ≤ _ := h2
    _ ≤ ktPrice xs.length ^ T.size * (2 ^ (2 * C + 1) * Real.exp r) := mul_le_mul_of_nonneg_left hq hkp
    _ ≤ ktPrice xs.length ^ (C + 1) * (2 ^ (2 * C + 1) * Real.exp r) :=
        mul_le_mul_of_nonneg_right (pow_le_pow_right₀ hk hs) hexp
    _ = _ := by ring

/-- **C53 (unknown length).** `PTW` loses in addition at most a factor `3/2` per doubling of the sequence. -/
theorem C53_PTW_redundancy (m : ℕ) (xs : List (Obs Bool)) (hw : ∀ o ∈ xs, o.weight = 1) (r : ℝ) (s : PTW KTBinary)
    (hr : (PTW.predictor KTBinary.predictor (KTBinary.init none) m).run (PTW.init (KTBinary.init none) m) xs =
      .ok (r, s))
    (θ : ℕ → ℝ) (hθ : ∀ i, 0 ≤ θ i ∧ θ i ≤ 1) (hal : ∀ i ∈ changeTimes θ 0 xs.length, 2 ^ m ∣ i) :
    pieceProb θ 0 xs ≤ (3/2 : ℝ) ^ levelsFor m xs.length *
      2 ^ (2 * (changeTimes θ 0 xs.length).card * levelsFor m xs.length + 1) *
      ktPrice xs.length ^ ((changeTimes θ 0 xs.length).card * levelsFor m xs.length + 1) * Real.exp r := by
  set k := levelsFor m xs.length with hkdef
  have hlk : xs.length ≤ 2 ^ (m + k) := by
    rw [hkdef, levelsFor]
    exact Nat.find_spec (p := fun k => xs.length ≤ 2 ^ (m + k)) _
  obtain ⟨T, hs, hconst⟩ := C53_partition_exists θ m k xs hlk hal
  have h1 := C28_PTW_regret KTBinary.predictor (KTBinary.init none) m xs r s hr T
  have h2 := prod_pieces_le (n := xs.length) hθ (T.segments m 0 xs)
    (fun g hg => (segments_mem_sub m T 0 xs g hg).1)
    (fun g hg o ho => hw o ((segments_mem_sub m T 0 xs g hg).2 o ho)) hconst
  rw [← pieceProb_segments, TPart.segments_length] at h2
  have hcost := T.cost_lt
  set C := (changeTimes θ 0 xs.length).card * k with hC
  have hk := one_le_ktPrice xs.length
  have hq : (T.segments m 0 xs |>.map fun g => KTBinary.predictor.seqProb (KTBinary.init none) g.2).prod ≤
      (3/2 : ℝ) ^ k * 2 ^ (2 * C + 1) * Real.exp r := by
    have := mul_le_mul_of_nonneg_left h1 (show (0 : ℝ) ≤ (3/2) ^ k * 2 ^ T.cost by positivity)
    have e : ∀ x : ℝ, (3/2 : ℝ) ^ k * 2 ^ T.cost * ((2/3 : ℝ) ^ k * ((1/2 : ℝ) ^ T.cost * x)) = x := by
      intro x
      rw [show (3/2 : ℝ) ^ k * 2 ^ T.cost * ((2/3 : ℝ) ^ k * ((1/2 : ℝ) ^ T.cost * x)) =
        ((3/2 : ℝ) ^ k * (2/3 : ℝ) ^ k) * ((2 : ℝ) ^ T.cost * (1/2 : ℝ) ^ T.cost) * x by ring,
        ← mul_pow, ← mul_pow, show (3/2 : ℝ) * (2/3) = 1 by norm_num, show (2 : ℝ) * (1/2) = 1 by norm_num]
      simp
    refine (le_trans (e _).ge this).trans (mul_le_mul_of_nonneg_right ?_ (Real.exp_pos r).le)
    exact mul_le_mul_of_nonneg_left (pow_le_pow_right₀ (by norm_num) (by omega)) (by positivity)
  have hkp : (0 : ℝ) ≤ ktPrice xs.length ^ T.size := by positivity
  have hexp : (0 : ℝ) ≤ (3/2 : ℝ) ^ k * 2 ^ (2 * C + 1) * Real.exp r := by positivity
  rw [show 2 * (changeTimes θ 0 xs.length).card * k = 2 * C by rw [hC]; ring]
  calc pieceProb θ 0 xs ≤ _ := h2
    _ ≤ ktPrice xs.length ^ T.size * ((3/2 : ℝ) ^ k * 2 ^ (2 * C + 1) * Real.exp r) :=
        mul_le_mul_of_nonneg_left hq hkp
    _ ≤ ktPrice xs.length ^ (C + 1) * ((3/2 : ℝ) ^ k * 2 ^ (2 * C + 1) * Real.exp r) :=
        mul_le_mul_of_nonneg_right (pow_le_pow_right₀ hk hs) hexp
    _ = _ := by ring

/-- A source that emits ones until time 3 and zeros from then on changes once; it gives `1 1 1 0` probability one. -/
example : pieceProb (fun i => if i < 3 then 1 else 0) 0
    [⟨true, [], 1⟩, ⟨true, [], 1⟩, ⟨true, [], 1⟩, ⟨false, [], 1⟩] = 1 ∧
    changeTimes (fun i => if i < 3 then (1 : ℝ) else 0) 0 4 = {3} := by
  constructor
  · norm_num [pieceProb]
  · ext i
    simp only [changeTimes, Finset.mem_filter, Finset.mem_Ioo, Finset.mem_singleton]
    constructor
    · rintro ⟨⟨h1, h2⟩, h3⟩
      by_contra hne
      apply h3
      have : i = 1 ∨ i = 2 := by omega
      rcases this with rfl | rfl <;> norm_num
    · rintro rfl
      norm_num

end Verif
