import Verif.Proofs.Vectors

/-!
# C59-C61: returns, traces, running means, scaling
-/

namespace Verif

open Vectors

/-- **C59 (discount).** For a discount below one the return at step `i` is the discounted sum of all rewards from `i` on;
the horizon is not used. -/
theorem C59_discounted (r : List ℝ) (g : ℝ) (hg : g < 1) (horizon : Option ℤ) :
    calculateReturn r (some g) horizon = .ok ((List.range r.length).map fun i =>
      ∑ k ∈ Finset.range (r.length - i), g ^ k * r.getD (i + k) 0) := by
  unfold calculateReturn
  by_cases h : r.length = 0
  · rw [if_pos h, List.length_eq_zero_iff.mp h]
    rfl
  · rw [if_neg h]
    simp only
    rw [if_neg (by linarith), discountLoop_eq]

/-- **C59 (bound).** For a discount in `[0, 1)` and rewards of size at most `M`, every return has size at most
`M / (1 - g)`, whatever the length of the sequence. -/
theorem C59_bounded (r : List ℝ) (g M : ℝ) (h0 : 0 ≤ g) (hg : g < 1) (hM : ∀ x ∈ r, |x| ≤ M) (horizon : Option ℤ)
    (out : List ℝ) (h : calculateReturn r (some g) horizon = .ok out) :
    out.length = r.length ∧ ∀ y ∈ out, |y| ≤ M / (1 - g) := by
  rw [C59_discounted r g hg horizon] at h
  simp only [Except.ok.injEq] at h
  subst h
  refine ⟨by simp, ?_⟩
  intro y hy
  obtain ⟨i, hi, rfl⟩ := List.mem_map.mp hy
  rw [List.mem_range] at hi
  have hM0 : 0 ≤ M := by
    have := hM r[i] (List.getElem_mem _)
    exact (abs_nonneg _).trans this
  have hb : ∀ j, |r.getD j 0| ≤ M := by
    intro j
    rw [List.getD_eq_getElem?_getD]
    cases hj : r[j]? with
    | none => simpa using hM0
    | some x => exact hM x (List.mem_of_getElem? hj)
  calc |∑ k ∈ Finset.range (r.length - i), g ^ k * r.getD (i + k) 0|
      ≤ ∑ k ∈ Finset.range (r.length - i), |g ^ k * r.getD (i + k) 0| := Finset.abs_sum_le_sum_abs _ _
    _ ≤ ∑ k ∈ Finset.range (r.length - i), g ^ k * M := by
        apply Finset.sum_le_sum
        intro k _
        rw [abs_mul, abs_of_nonneg (pow_nonneg h0 k)]
        exact mul_le_mul_of_nonneg_left (hb _) (pow_nonneg h0 k)
    _ = (∑ k ∈ Finset.range (r.length - i), g ^ k) * M := by rw [Finset.sum_mul]
    _ ≤ (1 - g)⁻¹ * M := by
        apply mul_le_mul_of_nonneg_right _ hM0
        rw [← tsum_geometric_of_lt_one h0 hg]
        exact (summable_geometric_of_lt_one h0 hg).sum_le_tsum _ fun k _ => pow_nonneg h0 k
    _ = M / (1 - g) := by rw [div_eq_mul_inv, mul_comm]

/-- The rewards of the docstring with discount one half. -/
example : ∀ x ∈ [(0 : ℝ), 1, 0, 0, 0, 1], |x| ≤ 1 := by
  intro x hx
  simp only [List.mem_cons, List.not_mem_nil, or_false] at hx
  rcases hx with rfl | rfl | rfl | rfl | rfl | rfl <;> norm_num

/-- **C59 (horizon).** Without a discount, or with one of at least one, the return at step `i` is the sum of the next
`horizon` rewards, fewer at the end. -/
theorem C59_horizon (r : List ℝ) (gamma : Option ℝ) (hg : ∀ g ∈ gamma, 1 ≤ g) (h : ℕ) :
    calculateReturn r gamma (some h) = .ok ((List.range r.length).map fun i =>
      ∑ k ∈ Finset.range (min h (r.length - i)), r.getD (i + k) 0) := by
  unfold calculateReturn
  by_cases h0 : r.length = 0
  · rw [if_pos h0, List.length_eq_zero_iff.mp h0]
    rfl
  · have hs : horizonSums r h = (List.range r.length).map fun i =>
        ∑ k ∈ Finset.range (min h (r.length - i)), r.getD (i + k) 0 := by
      apply List.map_congr_left
      intro i hi
      exact pySlice_sum r i h (List.mem_range.mp hi)
    rw [if_neg h0]
    cases gamma with
    | none => simp only [hs]
    | some g =>
      simp only
      rw [if_pos (hg g rfl), hs]

/-- **C59 (default arguments).** With the default discount and horizon every non-empty sequence raises TypeError. -/
theorem C59_default_raises (r : List ℝ) (hr : r ≠ []) : calculateReturn r (some 1) none = .error .typeError := by
  have h : r.length ≠ 0 := by simpa using hr
  unfold calculateReturn
  rw [if_neg h]
  simp

/-- **C59 (accumulating trace).** Without replacement `decay_trace` at step `t` is the sum of the features up to `t`,
discounted by age. -/
theorem C59_trace (f : List ℝ) (hf : f ≠ []) (c : ℝ) :
    decayTrace f c false = .ok ((List.range f.length).map fun t =>
      ∑ k ∈ Finset.range (t + 1), c ^ k * f.getD (t - k) 0) := by
  obtain ⟨m, hm, -⟩ := pyMax_spec hf
  obtain ⟨x, xs, rfl⟩ := List.exists_cons_of_ne_nil hf
  simp only [decayTrace, hm, ok_bind, pure_eq_ok]
  rw [traceLoop_eq]
  congr 1
  apply List.map_congr_left
  intro t _
  rw [Finset.sum_range_succ, Nat.sub_self, List.getD_cons_zero, add_comm]
  congr 1
  apply Finset.sum_congr rfl
  intro k hk
  rw [Finset.mem_range] at hk
  rw [show t - k = (t - 1 - k) + 1 by omega, List.getD_cons_succ]

/-- **C59 (duality).** The accumulating trace is the discounted return read backwards. -/
theorem C59_trace_return (f : List ℝ) (hf : f ≠ []) (c : ℝ) (hc : c < 1) (horizon : Option ℤ) :
    ∃ out, decayTrace f c false = .ok out ∧ calculateReturn f.reverse (some c) horizon = .ok out.reverse := by
  refine ⟨_, C59_trace f hf c, ?_⟩
  rw [C59_discounted _ _ hc]
  congr 1
  apply List.ext_getElem (by simp)
  intro i h1 h2
  simp only [List.length_map, List.length_range, List.length_reverse] at h1
  rw [List.getElem_reverse]
  simp only [List.getElem_map, List.getElem_range, List.length_map, List.length_range, List.length_reverse]
  have : f.length - 1 - i + 1 = f.length - i := by omega
  rw [this]
  apply Finset.sum_congr rfl
  intro k hk
  rw [Finset.mem_range] at hk
  congr 1
  rw [List.getD_eq_getElem?_getD, List.getD_eq_getElem?_getD, List.getElem?_reverse (by omega)]
  congr 2
  omega

/-- **C59 (replacing trace).** With replacement no value of the trace exceeds the largest feature; and for features and
decay that are not negative the trace never falls below the feature. -/
theorem C59_replacing (f : List ℝ) (hf : f ≠ []) (c : ℝ) :
    ∃ out, decayTrace f c true = .ok out ∧ out.length = f.length ∧ (∃ m ∈ f, ∀ d ∈ out, d ≤ m) ∧
      (0 ≤ c → (∀ x ∈ f, 0 ≤ x) → ∀ (i : ℕ) (h : i < f.length), f[i] ≤ out.getD i 0) := by
  obtain ⟨m, hm, hmem, hle⟩ := pyMax_spec hf
  obtain ⟨x, xs, rfl⟩ := List.exists_cons_of_ne_nil hf
  have hr := traceLoop_replacing c m x xs fun y hy => hle y (by simp [hy])
  refine ⟨x :: traceLoop c m true x xs, ?_, by simp [traceLoop_length], ⟨m, hmem, ?_⟩, ?_⟩
  · simp only [decayTrace, hm, ok_bind, pure_eq_ok]
  · intro d hd
    rcases List.mem_cons.mp hd with rfl | hd
    · exact hle d (by simp)
    · exact hr.1 d hd
  · intro hc hx i hi
    cases i with
    | zero => simp
    | succ i =>
      simp only [List.getElem_cons_succ, List.getD_cons_succ]
      exact hr.2 hc (hx x (by simp)) (fun y hy => hx y (by simp [hy])) i (by simpa using hi)

/-- **C60.** For a window of at least two, `running_mean` returns the means over all windows, `n - 1` fewer than the data
(none if the data are shorter than the window). -/
theorem C60_running_mean_partial (data : List ℝ) (hd : data ≠ []) (n : ℕ) (hn : 2 ≤ n) :
    runningMean data n = .ok ((List.range (data.length + 1 - n)).map fun i =>
      (∑ m ∈ Finset.range n, data.getD (i + m) 0) / n) :=
  runningMean_eq data n hn hd

/-- **C60 fails for a window of one.** The result is empty instead of the data. -/
theorem C60_window_one (data : List ℝ) (hd : data ≠ []) : runningMean data 1 = .ok [] := by
  simp only [runningMean, convolve, hd, false_or]
  rw [if_neg (by simp)]
  simp [sliceToMinus]

/-- **C60 (errors).** Empty data and a window of zero raise ValueError. -/
theorem C60_errors (data : List ℝ) (n : ℕ) (h : data = [] ∨ n = 0) : runningMean data n = .error .valueError := by
  have : data = [] ∨ List.replicate n (1 / (n : ℝ)) = [] := by
    rcases h with h | rfl
    · exact Or.inl h
    · exact Or.inr rfl
  simp only [runningMean, convolve, if_pos this, error_bind]

/-- **C61 (scaling).** With the default arguments `scale_features` maps a feature that is not constant into `[0, 1]`,
reaching both ends and keeping the order; the cap changes nothing. -/
theorem C61_scale (f : List ℝ) (a b : ℝ) (ha : a ∈ f) (hb : b ∈ f) (hab : a ≠ b) :
    ∃ (s : ℝ → ℝ), scaleFeatures f none none 1 = .ok (f.map s) ∧ scaleFeatures f none none 0 = .ok (f.map s) ∧
      (∀ x ∈ f, 0 ≤ s x ∧ s x ≤ 1) ∧ (∃ x ∈ f, s x = 0) ∧ (∃ x ∈ f, s x = 1) ∧ StrictMono s := by
  have hf : f ≠ [] := List.ne_nil_of_mem ha
  obtain ⟨m, hm, hmm, hml⟩ := pyMin_spec hf
  obtain ⟨M, hM, hMm, hMl⟩ := pyMax_spec hf
  have hlt : m < M := by
    rcases lt_or_gt_of_ne hab with h | h
    · exact (hml a ha).trans_lt (h.trans_le (hMl b hb))
    · exact (hml b hb).trans_lt (h.trans_le (hMl a ha))
  have hd : 0 < M - m := sub_pos.mpr hlt
  have h01 : ∀ x ∈ f, 0 ≤ (x - m) / (M - m) ∧ (x - m) / (M - m) ≤ 1 := by
    intro x hx
    refine ⟨div_nonneg (sub_nonneg.mpr (hml x hx)) hd.le, ?_⟩
    rw [div_le_one hd]
    linarith [hMl x hx]
  refine ⟨fun x => (x - m) / (M - m), ?_, ?_, h01, ⟨m, hmm, by simp⟩, ⟨M, hMm, div_self hd.ne'⟩, ?_⟩
  · simp only [scaleFeatures, hm, hM, ok_bind, pure_eq_ok, if_neg hd.ne', ne_eq, one_ne_zero, not_false_eq_true, if_true,
      List.map_map]
    congr 1
    apply List.map_congr_left
    intro x hx
    obtain ⟨h1, h2⟩ := h01 x hx
    simp only [Function.comp, clip]
    rw [max_eq_left h1, min_eq_left h2]
  · simp only [scaleFeatures, hm, hM, ok_bind, pure_eq_ok, if_neg hd.ne', ne_eq, not_true_eq_false, if_false]
  · intro x y hxy
    exact (div_lt_div_iff_of_pos_right hd).mpr (by linarith)

example : (1 : ℝ) ∈ [(1 : ℝ), 5, 3] ∧ (5 : ℝ) ∈ [(1 : ℝ), 5, 3] ∧ (1 : ℝ) ≠ 5 := by norm_num

/-- **C61 (constants).** A constant feature is returned as it is, even if it lies outside `[0, 1]`. -/
theorem C61_constant (f : List ℝ) (c : ℝ) (hf : f ≠ []) (hc : ∀ x ∈ f, x = c) (cap : ℝ) :
    scaleFeatures f none none cap = .ok f := by
  obtain ⟨m, hm, hmm, -⟩ := pyMin_spec hf
  obtain ⟨M, hM, hMm, -⟩ := pyMax_spec hf
  have : M - m = 0 := by rw [hc m hmm, hc M hMm]; ring
  simp only [scaleFeatures, hm, hM, ok_bind, pure_eq_ok, if_pos this]

/-- **C61 (given range).** With a range `a < b` and a cap that is positive every value is clipped to `[0, cap]`. -/
theorem C61_given_range (f : List ℝ) (a b cap : ℝ) (hab : a < b) (hcap : 0 < cap) :
    scaleFeatures f (some a) (some b) cap = .ok (f.map fun x => min (max ((x - a) / (b - a)) 0) cap) ∧
      ∀ x : ℝ, 0 ≤ min (max ((x - a) / (b - a)) 0) cap ∧ min (max ((x - a) / (b - a)) 0) cap ≤ cap := by
  constructor
  · have hd : b - a ≠ 0 := (sub_pos.mpr hab).ne'
    simp only [scaleFeatures, ok_bind, pure_eq_ok, if_neg hd, ne_eq, hcap.ne', not_false_eq_true, if_true, List.map_map]
    rfl
  · intro x
    exact ⟨le_min (le_max_right _ _) hcap.le, min_le_right _ _⟩

/-- **C61 (log of a sum).** `log_sum_exp` is the logarithm of the sum of the exponentials, for every non-empty list. -/
theorem C61_logSumExp (v : List ℝ) (hv : v ≠ []) : logSumExp v = .ok (Real.log ((v.map Real.exp).sum)) :=
  logSumExp_eq v hv

/-- **C61 (unit vectors).** `get_unitizer(n)` maps a label below `n` to the vector that is one at the label and zero
elsewhere, and raises IndexError for a larger one. -/
theorem C61_unitizer (n label : ℕ) :
    (label < n → unitizer n label = .ok ((List.range n).map fun i => if i = label then 1 else 0)) ∧
    (n ≤ label → unitizer n label = .error .indexError) := by
  constructor
  · intro h
    rw [unitizer, if_pos h]
    congr 1
    apply List.ext_getElem (by simp)
    intro i h1 h2
    simp only [List.getElem_set, List.getElem_replicate, List.getElem_map, List.getElem_range]
    by_cases hi : i = label
    · simp [hi]
    · simp [hi, Ne.symm hi]
  · intro h
    rw [unitizer, if_neg (by omega)]

/-- **C61 (argmax).** `argmax` returns the index of a largest value, for every way of choosing among them. -/
theorem C61_argmax (choose : List ℕ → ℕ) (hc : ∀ l, l ≠ [] → choose l ∈ l) (values : List ℝ) (hv : values ≠ []) :
    ∃ (i : ℕ) (h : i < values.length), argmax choose values = .ok i ∧ ∀ x ∈ values, x ≤ values[i] := by
  obtain ⟨m, hm, hmem, hle⟩ := pyMax_spec hv
  have hne : (List.range values.length).filter (fun i => decide (values.getD i 0 = m)) ≠ [] := by
    obtain ⟨i, hi, he⟩ := List.getElem_of_mem hmem
    apply List.ne_nil_of_mem (a := i)
    rw [List.mem_filter, List.mem_range]
    refine ⟨hi, ?_⟩
    rw [List.getD_eq_getElem?_getD, List.getElem?_eq_getElem hi]
    simpa using he
  have h1 := hc _ hne
  rw [List.mem_filter, List.mem_range] at h1
  refine ⟨_, h1.1, ?_, ?_⟩
  · simp only [argmax, hm, ok_bind, pure_eq_ok]
  · intro x hx
    have h2 := h1.2
    rw [List.getD_eq_getElem?_getD, List.getElem?_eq_getElem h1.1] at h2
    simp only [Option.getD_some, decide_eq_true_eq] at h2
    rw [h2]
    exact hle x hx

/-- Choosing the first index is one way of choosing. -/
example : ∀ l : List ℕ, l ≠ [] → l.headD 0 ∈ l := by
  intro l hl
  obtain ⟨x, xs, rfl⟩ := List.exists_cons_of_ne_nil hl
  simp

end Verif
