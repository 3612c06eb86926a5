import Verif.Proofs.MinimaxMany
import Verif.Props.Minimax
import Verif.Props.Categorical

/-!
# C166: how good a model of several symbols can be

The KT estimator with initial counts 1/2 loses (k - 1)/2 log n, up to a constant that depends on `k` only, on every sequence of `n` symbols out of `k`; no
model does better in the worst case.  The default counts, 1/k, lose less on sequences of few symbols, and do not lose more in the worst case.
-/

namespace Verif

open Predictor Categorical

variable {σ α : Type} [DecidableEq α]

namespace MinimaxMany

theorem freq_dist {A : List α} (hA : A.Nodup) {xs : List (Obs α)} (hx : ∀ o ∈ xs, o.sym ∈ A) (hne : xs ≠ []) :
    IsDist A fun a => (cnt xs a : ℝ) / xs.length := by
  have hn : (0 : ℝ) < xs.length := by exact_mod_cast List.length_pos_of_ne_nil hne
  refine ⟨fun a _ => by positivity, ?_⟩
  have h := sum_cnt (S := A.toFinset) (xs := xs) fun o ho => by simpa using hx o ho
  rw [← List.sum_toFinset _ hA, ← Finset.sum_div, div_eq_one_iff_eq hn.ne', ← h]
  push_cast
  rfl

theorem freq_prob {A : List α} {xs : List (Obs α)} (hx : ∀ o ∈ xs, o.sym ∈ A) :
    catProb (fun a => (cnt xs a : ℝ) / xs.length) xs * (xs.length : ℝ) ^ xs.length = ∏ a ∈ A.toFinset, (cnt xs a : ℝ) ^ cnt xs a := by
  have hxS : ∀ o ∈ xs, o.sym ∈ A.toFinset := fun o ho => by simpa using hx o ho
  have h := sum_cnt hxS
  have hL : (xs.length : ℝ) ^ xs.length = (xs.length : ℝ) ^ (∑ a ∈ A.toFinset, cnt xs a) := by rw [h]
  rw [catProb_eq hxS, hL, ← Finset.prod_pow_eq_pow_sum, ← Finset.prod_mul_distrib]
  refine Finset.prod_congr rfl fun a _ => ?_
  rw [← mul_pow]
  rcases Nat.eq_zero_or_pos xs.length with h0 | h0
  · have : cnt xs a = 0 := by
      rw [List.length_eq_zero_iff] at h0
      subst h0
      rfl
    rw [this]
    simp
  · rw [div_mul_cancel₀]
    exact_mod_cast h0.ne'

end MinimaxMany

/-- **C166 (initial counts 1/2).** On every sequence of `n ≥ 1` symbols out of `k`, `KT` with the initial count 1/2 for each symbol loses at least
`(k-1)/2 log n - k log (2k)` against some distribution, and at most `(k-1)/2 log n + log (2k)` against each. -/
theorem C166_KT (A : List α) (hA : A.Nodup) (hAne : A ≠ []) (xs : List (Obs α)) (hx : ∀ o ∈ xs, o.sym ∈ A ∧ o.weight = 1) (hne : xs ≠ []) :
    ∃ s0 r s, KT.init A (some (A.map fun a => (a, 1 / 2))) = .ok s0 ∧ KT.predictor.run s0 xs = .ok (r, s) ∧
      (∃ q, IsDist A q ∧ 0 < catProb q xs ∧
        -Real.log (catProb q xs) + ((A.length : ℝ) - 1) / 2 * Real.log xs.length - A.length * Real.log (2 * A.length) ≤ -r) ∧
      ∀ q, IsDist A q → 0 < catProb q xs →
        -r ≤ -Real.log (catProb q xs) + ((A.length : ℝ) - 1) / 2 * Real.log xs.length + Real.log (2 * A.length) := by
  obtain ⟨s0, r, s, h0, -, hr, he⟩ := MinimaxMany.run_equal (p := 1 / 2) (by norm_num) hA hAne hx
  have hxA : ∀ o ∈ xs, o.sym ∈ A := fun o ho => (hx o ho).1
  have hxS : ∀ o ∈ xs, o.sym ∈ A.toFinset := fun o ho => by simpa using hxA o ho
  have hsum := sum_cnt hxS
  have hcard := List.toFinset_card_of_nodup hA
  have hk1 : 1 ≤ A.length := List.length_pos_of_ne_nil hAne
  have hk0 : (0 : ℝ) < A.length := by exact_mod_cast hk1
  have hn1 : 1 ≤ xs.length := List.length_pos_of_ne_nil hne
  have hn : (0 : ℝ) < xs.length := by exact_mod_cast hn1
  have hs : 0 < Real.sqrt xs.length := Real.sqrt_pos.mpr hn
  have hN : (0 : ℝ) < (xs.length : ℝ) ^ xs.length := by positivity
  refine ⟨s0, r, s, h0, hr, ⟨_, MinimaxMany.freq_dist hA hxA hne, ?_⟩, ?_⟩
  · have h1 := MinimaxMany.ktC_upper (S := A.toFinset) (by rw [hcard]; exact hk1) (cnt xs) (by rw [hsum]; exact hn1)
    rw [hsum, hcard, ← he, ← MinimaxMany.freq_prob hxA] at h1
    have h2 : Real.sqrt xs.length ^ (A.length - 1) * Real.exp r ≤
        (2 * (A.length : ℝ)) ^ A.length * catProb (fun a => (cnt xs a : ℝ) / xs.length) xs := by
      refine le_of_mul_le_mul_right (a := (xs.length : ℝ) ^ xs.length) ?_ hN
      linarith
    have h3 : 0 < Real.sqrt xs.length ^ (A.length - 1) * Real.exp r := by positivity
    have h4 : 0 < catProb (fun a => (cnt xs a : ℝ) / xs.length) xs :=
      (mul_pos_iff_of_pos_left (show (0 : ℝ) < (2 * (A.length : ℝ)) ^ A.length by positivity)).mp (h3.trans_le h2)
    refine ⟨h4, ?_⟩
    have h5 := Real.log_le_log h3 h2
    rw [Real.log_mul (by positivity) (Real.exp_pos r).ne', Real.log_exp, Real.log_mul (by positivity) h4.ne', Real.log_pow, Real.log_pow,
      Real.log_sqrt hn.le, Nat.cast_sub hk1, Nat.cast_one] at h5
    linarith
  · intro q hq hpos
    obtain ⟨q0, q1⟩ := hq.finset hA
    have h1 := (cat_le q0 q1.le (cnt xs)).trans (MinimaxMany.ktC_lower (S := A.toFinset) (by rw [hcard]; exact hk1) (cnt xs) (by rw [hsum]; exact hn1))
    rw [hsum, hcard, ← he, ← catProb_eq hxS] at h1
    have h2 : catProb q xs ≤ 2 * A.length * Real.sqrt xs.length ^ (A.length - 1) * Real.exp r := by
      refine le_of_mul_le_mul_left (a := (xs.length : ℝ) ^ xs.length) ?_ hN
      linarith
    have h5 := Real.log_le_log hpos h2
    rw [Real.log_mul (by positivity) (Real.exp_pos r).ne', Real.log_exp, Real.log_mul (by positivity) (by positivity), Real.log_pow,
      Real.log_sqrt hn.le, Nat.cast_sub hk1, Nat.cast_one] at h5
    linarith

/-- **C166 (no model does better in the worst case).** For every model of `k` symbols and every length `n ≥ 1` there is a sequence on which the loss of the
model is at least `(k-1)/2 log n - k log (2k)` more than that of some distribution. -/
theorem C166_worst_case {P : Predictor σ α} {I : σ → Prop} {A : List α} {V : ℝ → Prop} (hP : P.UpdateLawful I A V) (hV : V 1) (hA : A.Nodup)
    (hAne : A ≠ []) (s : σ) (hs : I s) (n : ℕ) (hn : 1 ≤ n) (h : List α) :
    ∃ xs : List α, xs.length = n ∧ (∀ x ∈ xs, x ∈ A) ∧ ∃ r t q, P.run s (drawn h xs) = .ok (r, t) ∧ IsDist A q ∧ 0 < catProb q (drawn h xs) ∧
      -Real.log (catProb q (drawn h xs)) + ((A.length : ℝ) - 1) / 2 * Real.log n - A.length * Real.log (2 * A.length) ≤ -r := by
  obtain ⟨s0, -, -, h0, hg, -, -⟩ := MinimaxMany.run_equal (p := 1 / 2) (by norm_num) hA hAne (xs := []) (by simp)
  obtain ⟨xs, h1, h2, h3⟩ := C157_no_better hP hV (KT.lawful hA hAne) zero_le_one s hs s0 hg n h
  have hw := drawn_mem (h := h) h2
  have hl : (drawn h xs).length = n := by rw [drawn_length, h1]
  obtain ⟨s0', r', s', h0', hr', ⟨q, e1, e2, e3⟩, -⟩ := C166_KT A hA hAne (drawn h xs) hw (by
    intro e
    rw [e] at hl
    simp at hl
    omega)
  rw [h0, Except.ok.injEq] at h0'
  subst h0'
  obtain ⟨r, t, hr, -⟩ := hP.run_ok (xs := drawn h xs) hs (fun o ho => ⟨(hw o ho).1, (hw o ho).2 ▸ hV⟩)
  refine ⟨xs, h1, h2, r, t, q, hr, e1, e2, ?_⟩
  rw [seqProb_of_run hr, seqProb_of_run hr', Real.exp_le_exp] at h3
  rw [hl] at e3
  linarith

/-- **C166 (whatever is put together).** -/
theorem C166_worst_case_built {P : Predictor σ α} {A : List α} {cp co : Bool} {s : σ} (hA : A.Nodup) (hAne : A ≠ []) (hb : Built A cp co σ P s) (n : ℕ)
    (hn : 1 ≤ n) (h : List α) :
    ∃ xs : List α, xs.length = n ∧ (∀ x ∈ xs, x ∈ A) ∧ ∃ r t q, P.run s (drawn h xs) = .ok (r, t) ∧ IsDist A q ∧ 0 < catProb q (drawn h xs) ∧
      -Real.log (catProb q (drawn h xs)) + ((A.length : ℝ) - 1) / 2 * Real.log n - A.length * Real.log (2 * A.length) ≤ -r :=
  C166_worst_case Compose.fine_update zero_le_one hA hAne s (Compose.fine hA hAne hb) n hn h

/-- **C166 (the default counts in the worst case).** `KT` with the default counts `1/k` is close to the best possible: for every model of `k ≥ 2` symbols and
every length there is a sequence and a distribution against which the model loses at least as much as `KT` loses against any distribution on any sequence of
that length, less a constant that depends on `k` only. -/
theorem C166_default {P : Predictor σ α} {I : σ → Prop} {A : List α} {V : ℝ → Prop} (hP : P.UpdateLawful I A V) (hV : V 1) (hA : A.Nodup)
    (hk : 2 ≤ A.length) (s : σ) (hs : I s) (n : ℕ) (hn : 1 ≤ n) (h : List α) (ys : List (Obs α)) (hy : ∀ o ∈ ys, o.sym ∈ A ∧ o.weight = 1)
    (hyn : ys.length = n) (p : α → ℝ) (hp : IsDist A p) (hpos : 0 < catProb p ys) :
    ∃ (s0 : KT α) (r' : ℝ) (s' : KT α) (xs : List α) (r : ℝ) (t : σ) (q : α → ℝ), KT.init A none = .ok s0 ∧ KT.predictor.run s0 ys = .ok (r', s') ∧
      xs.length = n ∧ (∀ x ∈ xs, x ∈ A) ∧ P.run s (drawn h xs) = .ok (r, t) ∧ IsDist A q ∧ 0 < catProb q (drawn h xs) ∧
      -r' - -Real.log (catProb p ys) ≤ -r - -Real.log (catProb q (drawn h xs)) + (2 * A.length * Real.log A.length + 1) := by
  have hAne : A ≠ [] := by
    rintro rfl
    simp at hk
  obtain ⟨s0, r', s', h0, hr', hb⟩ := C93_KT_redundancy_loss A hA hk ys hy (by
    rintro rfl
    simp at hyn
    omega) p hp hpos
  obtain ⟨xs, h1, h2, r, t, q, h3, h4, h5, h6⟩ := C166_worst_case hP hV hA hAne s hs n hn h
  refine ⟨s0, r', s', xs, r, t, q, h0, hr', h1, h2, h3, h4, h5, ?_⟩
  have hk0 : (0 : ℝ) < A.length := by exact_mod_cast (by omega : 0 < A.length)
  rw [hyn, Real.log_div hk0.ne' two_ne_zero] at hb
  rw [Real.log_mul two_ne_zero hk0.ne'] at h6
  linarith

/-- **C166 (the default counts on a constant sequence).** On `n` times the same symbol, `KT` with the default counts loses between `(1 - 1/k) log (n + 1)`
and `log n + log k`, less than the `(k-1)/2 log n` of the counts 1/2 for more than three symbols. -/
theorem C166_constant (A : List α) (hA : A.Nodup) (a : α) (ha : a ∈ A) (xs : List (Obs α)) (hx : ∀ o ∈ xs, o.sym = a ∧ o.weight = 1) (hne : xs ≠ []) :
    ∃ s0 r s, KT.init A none = .ok s0 ∧ KT.predictor.run s0 xs = .ok (r, s) ∧
      (1 - 1 / (A.length : ℝ)) * Real.log (xs.length + 1) ≤ -r ∧ -r ≤ Real.log xs.length + Real.log A.length := by
  have hAne := List.ne_nil_of_mem ha
  obtain ⟨s0, r, s, h0, hr, he⟩ := run_init hA hAne (xs := xs) fun o ho => ⟨(hx o ho).1 ▸ ha, (hx o ho).2⟩
  refine ⟨s0, r, s, h0, hr, ?_⟩
  have hcard := List.toFinset_card_of_nodup hA
  have hk1 : 1 ≤ A.length := List.length_pos_of_ne_nil hAne
  have hk0 : (1 : ℝ) ≤ A.length := by exact_mod_cast hk1
  have hc : ∀ b, cnt xs b = if b = a then xs.length else 0 := by
    intro b
    unfold cnt
    split_ifs with hb
    · subst hb
      rw [List.countP_eq_length]
      intro o ho
      simp [(hx o ho).1]
    · rw [List.countP_eq_zero]
      intro o ho
      simp [(hx o ho).1, Ne.symm hb]
  set p : ℝ := 1 / (A.length : ℝ) with hp
  have hp0 : 0 < p := by positivity
  have hp1 : p ≤ 1 := by
    rw [hp, div_le_one (by linarith)]
    exact hk0
  have hprob : Real.exp r = riseP p xs.length / (xs.length.factorial : ℝ) := by
    rw [he]
    unfold ktK
    have e1 : ∑ b ∈ A.toFinset, cnt xs b = xs.length := sum_cnt fun o ho => by simpa [(hx o ho).1] using ha
    have e2 : ∏ b ∈ A.toFinset, riseP p (cnt xs b) = riseP p xs.length := by
      rw [Finset.prod_eq_single a]
      · rw [hc, if_pos rfl]
      · intro b _ hb
        rw [hc, if_neg hb]
        simp [riseP]
      · intro h
        exact absurd (by simpa using ha) h
    rw [e1, hcard, ← hp, e2]
  have hupper : ∀ n : ℕ, riseP p n * ((n : ℝ) + 1) ^ (1 - p) ≤ n.factorial := by
    intro n
    induction n with
    | zero => simp [riseP]
    | succ n ih =>
      rw [riseP_succ, Nat.factorial_succ]
      push_cast
      have hn : (0 : ℝ) ≤ n := by positivity
      have hn1 : (0 : ℝ) < (n : ℝ) + 1 := by positivity
      have h1 : ((n : ℝ) + p) * ((n : ℝ) + 1 + 1) ^ (1 - p) ≤ ((n : ℝ) + 1) * ((n : ℝ) + 1) ^ (1 - p) := by
        have h2 : ((n : ℝ) + 1 + 1) ^ (1 - p) = ((n : ℝ) + 1) ^ (1 - p) * (1 + 1 / ((n : ℝ) + 1)) ^ (1 - p) := by
          rw [← Real.mul_rpow (by positivity) (by positivity)]
          congr 1
          field_simp
        have h3 : (1 + 1 / ((n : ℝ) + 1)) ^ (1 - p) ≤ 1 + (1 - p) * (1 / ((n : ℝ) + 1)) :=
          rpow_one_add_le_one_add_mul_self (by linarith [show (0 : ℝ) < 1 / ((n : ℝ) + 1) by positivity]) (by linarith) (by linarith)
        have h4 : ((n : ℝ) + p) * (1 + (1 - p) * (1 / ((n : ℝ) + 1))) ≤ (n : ℝ) + 1 := by
          have e : ((n : ℝ) + p) * (1 + (1 - p) * (1 / ((n : ℝ) + 1))) = ((n : ℝ) + 1) - (1 - p) * (1 - p) / ((n : ℝ) + 1) := by
            field_simp
            ring
          rw [e]
          have : 0 ≤ (1 - p) * (1 - p) / ((n : ℝ) + 1) := div_nonneg (mul_self_nonneg _) hn1.le
          linarith
        have h5 : (0 : ℝ) ≤ ((n : ℝ) + 1) ^ (1 - p) := by positivity
        rw [h2]
        have h6 := mul_le_mul_of_nonneg_left h3 (show (0 : ℝ) ≤ (n : ℝ) + p by positivity)
        nlinarith
      have h0 := (riseP_pos hp0 n).le
      calc riseP p n * ((n : ℝ) + p) * ((n : ℝ) + 1 + 1) ^ (1 - p) = riseP p n * (((n : ℝ) + p) * ((n : ℝ) + 1 + 1) ^ (1 - p)) := by ring
        _ ≤ riseP p n * (((n : ℝ) + 1) * ((n : ℝ) + 1) ^ (1 - p)) := mul_le_mul_of_nonneg_left h1 h0
        _ = ((n : ℝ) + 1) * (riseP p n * ((n : ℝ) + 1) ^ (1 - p)) := by ring
        _ ≤ _ := mul_le_mul_of_nonneg_left ih hn1.le
  have hlower : ∀ n : ℕ, (n + 1).factorial * p ≤ riseP p (n + 1) * ((n : ℝ) + 1) := by
    intro n
    induction n with
    | zero => simp [riseP]
    | succ n ih =>
      rw [riseP_succ p (n + 1), Nat.factorial_succ (n + 1)]
      push_cast at ih ⊢
      have hn : (0 : ℝ) ≤ n := by positivity
      have hr0 := (riseP_pos hp0 (n + 1)).le
      calc ((n : ℝ) + 1 + 1) * ((n + 1).factorial : ℝ) * p = ((n : ℝ) + 1 + 1) * (((n + 1).factorial : ℝ) * p) := by ring
        _ ≤ ((n : ℝ) + 1 + 1) * (riseP p (n + 1) * ((n : ℝ) + 1)) := mul_le_mul_of_nonneg_left ih (by positivity)
        _ ≤ ((n : ℝ) + 1 + 1) * (riseP p (n + 1) * ((n : ℝ) + 1 + p)) := by
            refine mul_le_mul_of_nonneg_left (mul_le_mul_of_nonneg_left ?_ hr0) (by positivity)
            linarith
        _ = _ := by ring
  have hn1 : 1 ≤ xs.length := List.length_pos_of_ne_nil hne
  have hn : (0 : ℝ) < xs.length := by exact_mod_cast hn1
  have hF : (0 : ℝ) < xs.length.factorial := by positivity
  constructor
  · have h1 := hupper xs.length
    have h2 : Real.exp r * ((xs.length : ℝ) + 1) ^ (1 - p) ≤ 1 := by
      rw [hprob, div_mul_eq_mul_div, div_le_one hF]
      exact h1
    have h3 := Real.log_le_log (by positivity) h2
    rw [Real.log_mul (Real.exp_pos r).ne' (by positivity), Real.log_exp, Real.log_rpow (by positivity), Real.log_one] at h3
    linarith
  · obtain ⟨n, hn'⟩ : ∃ n, xs.length = n + 1 := ⟨xs.length - 1, by omega⟩
    have h1 := hlower n
    rw [← hn'] at h1
    have h2 : p ≤ Real.exp r * xs.length := by
      rw [hprob, div_mul_eq_mul_div, le_div_iff₀ hF]
      have : ((xs.length : ℝ)) = n + 1 := by rw [hn']; push_cast; ring
      rw [this]
      linarith
    have h3 := Real.log_le_log hp0 h2
    rw [Real.log_mul (Real.exp_pos r).ne' hn.ne', Real.log_exp, hp, Real.log_div one_ne_zero (by positivity), Real.log_one] at h3
    linarith

/-- Three symbols: every model, here `PTW` over `KT`, loses at least `log n - 3 log 6` against some distribution, on some sequence. -/
example (n : ℕ) (hn : 1 ≤ n) : ∃ s0 : KT ℕ, KT.init [0, 1, 2] none = .ok s0 ∧
    ∃ xs : List ℕ, xs.length = n ∧ (∀ x ∈ xs, x ∈ [0, 1, 2]) ∧ ∃ r t q, (PTW.predictor KT.predictor s0 0).run (PTW.init s0 0) (drawn [] xs) = .ok (r, t) ∧
      IsDist [0, 1, 2] q ∧ 0 < catProb q (drawn [] xs) ∧ -Real.log (catProb q (drawn [] xs)) + Real.log n - 3 * Real.log 6 ≤ -r := by
  have h0 := KT.init_default (A := [0, 1, 2]) (by decide) (by decide)
  refine ⟨_, h0, ?_⟩
  obtain ⟨xs, h1, h2, r, t, q, h3, h4, h5, h6⟩ := C166_worst_case_built (A := [0, 1, 2]) (by decide) (by decide)
    (Built.ptw 0 (Built.kt h0)) n hn []
  refine ⟨xs, h1, h2, r, t, q, h3, h4, h5, ?_⟩
  norm_num at h6
  linarith

end Verif
