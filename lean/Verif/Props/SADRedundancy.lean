import Verif.Spec.SADRedundancy
import Verif.Proofs.SADRedundancy
import Verif.Props.CtwSeq
import Verif.Props.Categorical
import Mathlib.Analysis.Complex.ExponentialBounds

/-! Properties about the redundancy of `SAD` (C122). -/

namespace Verif

open Predictor Categorical

variable {α : Type} [DecidableEq α]

namespace SAD

theorem cnt_eq_occ (xs : List (Obs α)) (a : α) : cnt xs a = occ xs a := by
  induction xs with
  | nil => simp [cnt, occ]
  | cons o xs ih =>
    rw [cnt_cons, ih]
    simp only [occ, List.map_cons, List.count_cons, beq_iff_eq]

theorem seen_eq_used {A : List α} {xs : List (Obs α)} (hx : ∀ o ∈ xs, o.sym ∈ A) : seen A.toFinset (cnt xs) = used xs := by
  ext a
  simp only [seen, Finset.mem_filter, List.mem_toFinset, cnt_eq_occ, occ, used, ne_eq, List.count_eq_zero, not_not]
  constructor
  · exact fun h => h.2
  · intro h
    obtain ⟨o, ho, rfl⟩ := List.mem_map.mp h
    exact ⟨hx o ho, h⟩

/-- Stirling's formula for one symbol. -/
theorem pow_self_le {c : ℕ} (hc : 1 ≤ c) : (c : ℝ) ^ c ≤ Real.exp 1 ^ c * (Real.sqrt c / 2) * ((c - 1).factorial : ℝ) := by
  have h := Stirling.le_factorial_stirling c
  have hc0 : (0 : ℝ) < c := by exact_mod_cast hc
  have hs : 0 < Real.sqrt c := Real.sqrt_pos.mpr hc0
  have hss : Real.sqrt c * Real.sqrt c = c := Real.mul_self_sqrt hc0.le
  have hf : (c.factorial : ℝ) = c * ((c - 1).factorial : ℝ) := by
    obtain ⟨k, rfl⟩ : ∃ k, c = k + 1 := ⟨c - 1, by omega⟩
    rw [Nat.factorial_succ]
    push_cast
    simp
  rw [Real.sqrt_mul (by positivity), hf, div_pow] at h
  have hE : (0 : ℝ) < Real.exp 1 ^ c := by positivity
  have hp : (0 : ℝ) < (c : ℝ) ^ c / Real.exp 1 ^ c := by positivity
  have h2 : 2 * Real.sqrt c * ((c : ℝ) ^ c / Real.exp 1 ^ c) ≤ c * ((c - 1).factorial : ℝ) :=
    le_trans (by have := two_le_sqrt; gcongr) h
  have h3 : 2 * ((c : ℝ) ^ c / Real.exp 1 ^ c) ≤ Real.sqrt c * ((c - 1).factorial : ℝ) := by
    rw [← mul_le_mul_iff_right₀ hs]
    calc _ = 2 * Real.sqrt c * ((c : ℝ) ^ c / Real.exp 1 ^ c) := by ring
      _ ≤ _ := h2
      _ = _ := by rw [← mul_assoc, hss]
  calc (c : ℝ) ^ c = Real.exp 1 ^ c / 2 * (2 * ((c : ℝ) ^ c / Real.exp 1 ^ c)) := by field_simp
    _ ≤ Real.exp 1 ^ c / 2 * (Real.sqrt c * ((c - 1).factorial : ℝ)) := by gcongr
    _ = _ := by ring

theorem prod_pow_le {S : Finset α} (c : α → ℕ) :
    ∏ a ∈ S, (c a : ℝ) ^ c a ≤ Real.exp 1 ^ (∑ a ∈ S, c a) * ((∏ a ∈ seen S c, Real.sqrt (c a)) / 2 ^ (seen S c).card) *
      ∏ a ∈ S, ((c a - 1).factorial : ℝ) := by
  have h : ∀ a ∈ S, (c a : ℝ) ^ c a ≤
      Real.exp 1 ^ c a * (if c a ≠ 0 then Real.sqrt (c a) / 2 else 1) * ((c a - 1).factorial : ℝ) := by
    intro a _
    by_cases h0 : c a = 0
    · simp [h0]
    · rw [if_pos h0]
      exact pow_self_le (by omega)
  refine (Finset.prod_le_prod (fun a _ => by positivity) h).trans (le_of_eq ?_)
  rw [Finset.prod_mul_distrib, Finset.prod_mul_distrib, Finset.prod_pow_eq_pow_sum, ← Finset.prod_filter, Finset.prod_div_distrib,
    Finset.prod_const]
  rfl

theorem repCost_le {M N : ℕ} (hM : 1 ≤ M) (hMN : M ≤ N) :
    repCost M N (N - M) ≤ 8 ^ M * Real.sqrt (max 1 (Real.log ((N : ℝ) / M) / Real.log 2)) ^ M := by
  have h1 : 1 ≤ Real.sqrt (max 1 (Real.log ((N : ℝ) / M) / Real.log 2)) :=
    Real.le_sqrt_of_sq_le (by rw [one_pow]; exact le_max_left _ _)
  unfold repCost
  split_ifs with h
  · have h2 : (M + (N - M)).choose M ≤ 2 ^ (M + (N - M)) := Nat.choose_le_two_pow _ _
    have h3 : 2 ^ (M + (N - M)) ≤ 2 ^ (3 * M) := Nat.pow_le_pow_right (by norm_num) (by omega)
    have h4 : (2 : ℕ) ^ (3 * M) = 8 ^ M := by rw [pow_mul]; norm_num
    have h5 : ((M + (N - M)).choose M : ℝ) ≤ 8 ^ M := by exact_mod_cast h2.trans (h3.trans h4.le)
    refine h5.trans (le_mul_of_one_le_right (by positivity) (one_le_pow₀ h1))
  · have hM' : (0 : ℝ) < M := by exact_mod_cast hM
    have ht : (2 * M + 1 : ℝ) ≤ N := by exact_mod_cast (by omega : 2 * M + 1 ≤ N)
    have hl : 0 < Real.log 2 := Real.log_pos (by norm_num)
    refine mul_le_mul_of_nonneg_left (pow_le_pow_left₀ (Real.sqrt_nonneg _) (Real.sqrt_le_sqrt ?_) _) (by positivity)
    refine le_trans ?_ (le_max_right _ _)
    refine div_le_div_of_nonneg_right (Real.log_le_log (div_pos (by linarith) hM') ?_) hl.le
    exact div_le_div_of_nonneg_right (by linarith) hM'.le

end SAD

/-- **C122.** `SAD(n)` gives every nonempty sequence of unit-weight symbols of an alphabet of `n` symbols at least `1 / sparsePrice` times the probability
that any source of independent symbols gives it. The price depends on `n` only by the number of ways to choose the symbols that occur. -/
theorem C122_SAD_redundancy (A : List α) (hA : A.Nodup) (xs : List (Obs α)) (hx : ∀ o ∈ xs, o.sym ∈ A ∧ o.weight = 1) (hne : xs ≠ [])
    (q : α → ℝ) (hq : IsDist A q) :
    ∃ r s, SAD.predictor.run (SAD.init A.length) xs = .ok (r, s) ∧ catProb q xs ≤ sparsePrice A.length xs * Real.exp r := by
  obtain ⟨r, s, hr, hl⟩ := SAD.run_low hA hx hne
  refine ⟨r, s, hr, ?_⟩
  have hxA : ∀ o ∈ xs, o.sym ∈ A := fun o ho => (hx o ho).1
  have hxS : ∀ o ∈ xs, o.sym ∈ A.toFinset := fun o ho => by simpa using hxA o ho
  have hsum := sum_cnt hxS
  have hcard := List.toFinset_card_of_nodup hA
  obtain ⟨q0, q1⟩ := hq.finset hA
  have h1 := (cat_le q0 q1.le (cnt xs)).trans (SAD.prod_pow_le (cnt xs))
  rw [← catProb_eq hxS, hsum, SAD.seen_eq_used hxA] at h1
  have hmN := SAD.card_seen_le (S := A.toFinset) (cnt xs)
  have hmn : (SAD.seen A.toFinset (cnt xs)).card ≤ A.toFinset.card := Finset.card_filter_le _ _
  rw [SAD.seen_eq_used hxA, hsum] at hmN
  rw [SAD.seen_eq_used hxA, hcard] at hmn
  have hN : 1 ≤ xs.length := List.length_pos_of_ne_nil hne
  have hm : 1 ≤ (used xs).card := by
    obtain ⟨o, ys, rfl⟩ := List.exists_cons_of_ne_nil hne
    exact Finset.card_pos.mpr ⟨o.sym, by simp [used]⟩
  rw [SAD.seen_eq_used hxA] at hl
  unfold SAD.low at hl
  rw [SAD.seen_eq_used hxA, hsum, hcard] at hl
  have hQ : ∏ a ∈ used xs, Real.sqrt (cnt xs a) = ∏ a ∈ used xs, Real.sqrt (occ xs a) :=
    Finset.prod_congr rfl fun a _ => by rw [SAD.cnt_eq_occ]
  rw [hQ] at h1
  have hG := SAD.repCost_le hm hmN
  have hG0 := SAD.repCost_pos (t := xs.length) (s := xs.length - (used xs).card) hm
  have hf := Redundancy.factorial_le hN
  have hdf := Nat.descFactorial_eq_factorial_mul_choose A.length (used xs).card
  have hcp : (0 : ℝ) < A.length.choose (used xs).card := by exact_mod_cast Nat.choose_pos hmn
  have hℓ := SAD.one_le_fac hN
  unfold sparsePrice
  set N := xs.length with hNd
  set m := (used xs).card with hmd
  set P := ∏ a ∈ A.toFinset, ((cnt xs a - 1).factorial : ℝ) with hP
  have hP0 : 0 < P := Finset.prod_pos fun a _ => by positivity
  set Q := ∏ a ∈ used xs, Real.sqrt (occ xs a) with hQd
  have hQ0 : 0 < Q := Finset.prod_pos fun a ha => by
    refine Real.sqrt_pos.mpr ?_
    have : 0 < occ xs a := List.count_pos_iff.mpr (by simpa [used] using ha)
    exact_mod_cast this
  set ℓ := 1 + 2 * Real.log N with hℓd
  set G := SAD.repCost m N (N - m) with hGd
  set H := Real.sqrt (max 1 (Real.log ((N : ℝ) / m) / Real.log 2)) ^ m with hH
  have hN0 : (0 : ℝ) < N := by exact_mod_cast hN
  have hm0 : (0 : ℝ) < m := by exact_mod_cast hm
  have hsN : 0 < Real.sqrt N := Real.sqrt_pos.mpr hN0
  have hss : Real.sqrt N * Real.sqrt N = N := Real.mul_self_sqrt hN0.le
  have hfN : (N.factorial : ℝ) = N * ((N - 1).factorial : ℝ) := by
    obtain ⟨k, hk⟩ : ∃ k, N = k + 1 := ⟨N - 1, by omega⟩
    rw [hk, Nat.factorial_succ]
    push_cast
    simp
  have hfm : (m.factorial : ℝ) = m * ((m - 1).factorial : ℝ) := by
    obtain ⟨k, hk⟩ : ∃ k, m = k + 1 := ⟨m - 1, by omega⟩
    rw [hk, Nat.factorial_succ]
    push_cast
    simp
  have hdf' : (A.length.descFactorial m : ℝ) = m * ((m - 1).factorial : ℝ) * A.length.choose m := by
    rw [← hfm]
    exact_mod_cast hdf
  have hE : (0 : ℝ) < Real.exp 1 ^ N := by positivity
  have hNN : (0 : ℝ) < (N : ℝ) ^ N := by positivity
  -- the factorial of the length
  have h2 : ((N - 1).factorial : ℝ) * Real.sqrt N * Real.exp 1 ^ N ≤ Real.exp 1 * (N : ℝ) ^ N := by
    rw [hfN, div_pow] at hf
    rw [← mul_le_mul_iff_right₀ hsN]
    calc Real.sqrt N * (((N - 1).factorial : ℝ) * Real.sqrt N * Real.exp 1 ^ N)
        = (Real.sqrt N * Real.sqrt N) * ((N - 1).factorial : ℝ) * Real.exp 1 ^ N := by ring
      _ = N * ((N - 1).factorial : ℝ) * Real.exp 1 ^ N := by rw [hss]
      _ ≤ (Real.exp 1 * Real.sqrt N * ((N : ℝ) ^ N / Real.exp 1 ^ N)) * Real.exp 1 ^ N := by gcongr
      _ = _ := by field_simp
  -- the source
  have h3 : catProb q xs * (((N - 1).factorial : ℝ) * Real.sqrt N) ≤ Real.exp 1 * (Q / 2 ^ m) * P := by
    have hc0 : 0 ≤ catProb q xs := catProb_nonneg hq hxA
    rw [← mul_le_mul_iff_right₀ (mul_pos hE hNN)]
    calc Real.exp 1 ^ N * (N : ℝ) ^ N * (catProb q xs * (((N - 1).factorial : ℝ) * Real.sqrt N))
        = (N : ℝ) ^ N * catProb q xs * (((N - 1).factorial : ℝ) * Real.sqrt N * Real.exp 1 ^ N) := by ring
      _ ≤ (Real.exp 1 ^ N * (Q / 2 ^ m) * P) * (Real.exp 1 * (N : ℝ) ^ N) := by gcongr
      _ = _ := by ring
  -- the estimator
  have h4 : P / (((N - 1).factorial : ℝ) * (m * A.length.choose m) * ℓ ^ (m - 1) * (8 ^ m * H)) ≤ Real.exp r := by
    refine le_trans ?_ hl
    rw [hdf', div_le_div_iff₀ (by positivity) (by positivity)]
    have : 0 ≤ P * ((m - 1).factorial : ℝ) * ((N - 1).factorial : ℝ) * (m * A.length.choose m) * ℓ ^ (m - 1) := by positivity
    have := mul_le_mul_of_nonneg_left hG this
    calc _ = P * ((m - 1).factorial : ℝ) * ((N - 1).factorial : ℝ) * (m * A.length.choose m) * ℓ ^ (m - 1) * G := by ring
      _ ≤ _ := this
      _ = _ := by ring
  have h8 : (8 : ℝ) ^ m = 4 ^ m * 2 ^ m := by rw [← mul_pow]; norm_num
  have hH0 : 0 < H := by
    have : 0 < Real.sqrt (max 1 (Real.log ((N : ℝ) / m) / Real.log 2)) :=
      Real.sqrt_pos.mpr (lt_of_lt_of_le one_pos (le_max_left _ _))
    positivity
  have h5 : catProb q xs ≤ Real.exp 1 * (Q / 2 ^ m) * P / (((N - 1).factorial : ℝ) * Real.sqrt N) := by
    rw [le_div_iff₀ (by positivity)]
    exact h3
  refine h5.trans ?_
  calc Real.exp 1 * (Q / 2 ^ m) * P / (((N - 1).factorial : ℝ) * Real.sqrt N)
      = (Real.exp 1 * m * A.length.choose m * 4 ^ m * (Q / Real.sqrt N) * ℓ ^ (m - 1) * H) *
        (P / (((N - 1).factorial : ℝ) * (m * A.length.choose m) * ℓ ^ (m - 1) * (8 ^ m * H))) := by
        rw [h8]
        field_simp
    _ ≤ _ := by gcongr

/-- The symbols 0, 0, 1 of the alphabet 0, ..., 9 and the source that gives 0 twice as often as 1. -/
example : IsDist (List.range 10) (fun a => if a = 0 then 2/3 else if a = 1 then 1/3 else 0) ∧
    (∀ o ∈ [(⟨0, [], 1⟩ : Obs ℕ), ⟨0, [], 1⟩, ⟨1, [], 1⟩], o.sym ∈ List.range 10 ∧ o.weight = 1) ∧
    catProb (fun a => if a = 0 then 2/3 else if a = 1 then 1/3 else 0) [(⟨0, [], 1⟩ : Obs ℕ), ⟨0, [], 1⟩, ⟨1, [], 1⟩] = 4/27 ∧
    (used [(⟨0, [], 1⟩ : Obs ℕ), ⟨0, [], 1⟩, ⟨1, [], 1⟩]).card = 2 := by
  refine ⟨⟨?_, ?_⟩, by simp, by norm_num [catProb], by decide⟩
  · intro a _
    simp only
    split_ifs <;> norm_num
  · norm_num [List.range_succ]

namespace SAD

theorem sparsePrice_pos {A : List α} {xs : List (Obs α)} (hx : ∀ o ∈ xs, o.sym ∈ A) (hA : A.Nodup) (hne : xs ≠ []) :
    0 < sparsePrice A.length xs := by
  have hmn : (SAD.seen A.toFinset (cnt xs)).card ≤ A.toFinset.card := Finset.card_filter_le _ _
  rw [SAD.seen_eq_used hx, List.toFinset_card_of_nodup hA] at hmn
  have hN : 1 ≤ xs.length := List.length_pos_of_ne_nil hne
  have hm : 1 ≤ (used xs).card := by
    obtain ⟨o, ys, rfl⟩ := List.exists_cons_of_ne_nil hne
    exact Finset.card_pos.mpr ⟨o.sym, by simp [used]⟩
  have hcp : (0 : ℝ) < A.length.choose (used xs).card := by exact_mod_cast Nat.choose_pos hmn
  have hℓ := SAD.one_le_fac hN
  have hQ0 : 0 < ∏ a ∈ used xs, Real.sqrt (occ xs a) := Finset.prod_pos fun a ha => by
    refine Real.sqrt_pos.mpr ?_
    have : 0 < occ xs a := List.count_pos_iff.mpr (by simpa [used] using ha)
    exact_mod_cast this
  have h1 : 0 < Real.sqrt (max 1 (Real.log ((xs.length : ℝ) / (used xs).card) / Real.log 2)) :=
    Real.sqrt_pos.mpr (lt_of_lt_of_le one_pos (le_max_left _ _))
  have hN0 : (0 : ℝ) < xs.length := by exact_mod_cast hN
  have hm0 : (0 : ℝ) < (used xs).card := by exact_mod_cast hm
  have h2 : 0 < Real.sqrt xs.length := Real.sqrt_pos.mpr hN0
  unfold sparsePrice
  positivity

theorem catProb_le {A : List α} (hA : A.Nodup) {xs : List (Obs α)} (hx : ∀ o ∈ xs, o.sym ∈ A ∧ o.weight = 1) {q : α → ℝ} (hq : IsDist A q) :
    catProb q xs ≤ sparsePriceOf A.length xs * SAD.predictor.seqProb (SAD.init A.length) xs := by
  unfold sparsePriceOf
  split_ifs with h
  · subst h
    simp [catProb, seqProb, Predictor.run, probOf]
  · obtain ⟨r, s, hr, hl⟩ := C122_SAD_redundancy A hA xs hx h q hq
    simpa [seqProb, hr, probOf] using hl

theorem sparsePriceOf_pos {A : List α} {xs : List (Obs α)} (hx : ∀ o ∈ xs, o.sym ∈ A) (hA : A.Nodup) : 0 < sparsePriceOf A.length xs := by
  unfold sparsePriceOf
  split_ifs with h
  · exact one_pos
  · exact sparsePrice_pos hx hA h

section Tree

variable {κ : Type} [Fintype κ] [DecidableEq κ]

theorem tree_pos {A : List α} (hA : A.Nodup) {d : ℕ} (T : CatTree α κ d) (S : List (List κ × Obs α)) (hS : ∀ p ∈ S, p.2.sym ∈ A) :
    0 < T.sparsePrice A.length S := by
  induction T generalizing S with
  | leaf q => exact sparsePriceOf_pos (fun o ho => by
      obtain ⟨p, hp, rfl⟩ := List.mem_map.mp ho
      exact hS p hp) hA
  | split f ih => exact Finset.prod_pos fun c _ => ih c _ (CatTree.subCtx_ok (I := fun o => o.sym ∈ A) hS c)

theorem tree_le {A : List α} (hA : A.Nodup) {d : ℕ} {T : CatTree α κ d} (hT : T.Valid A) (S : List (List κ × Obs α))
    (hS : ∀ p ∈ S, p.2.sym ∈ A ∧ p.2.weight = 1) :
    T.prob S ≤ T.sparsePrice A.length S * T.shape.prob (SAD.predictor.seqProb (SAD.init A.length)) S := by
  induction T generalizing S with
  | leaf q =>
    have := catProb_le hA (xs := S.map Prod.snd) (by
      intro o ho
      obtain ⟨p, hp, rfl⟩ := List.mem_map.mp ho
      exact hS p hp) hT
    simpa [CatTree.prob, CatTree.sparsePrice, CatTree.shape, Pruning.prob] using this
  | split f ih =>
    simp only [CatTree.prob, CatTree.sparsePrice, CatTree.shape, Pruning.prob]
    rw [← Finset.prod_mul_distrib]
    refine Finset.prod_le_prod (fun c _ => CatTree.prob_nonneg (hT c) _ ?_) fun c _ => ih c (hT c) _ ?_
    · exact CatTree.subCtx_ok (I := fun o => o.sym ∈ A) (fun p hp => (hS p hp).1) c
    · exact CatTree.subCtx_ok (I := fun o => o.sym ∈ A ∧ o.weight = 1) hS c

end Tree

/-- The geometric mean of the frequencies is at most their mean. -/
theorem sum_log_occ_le {xs : List (Obs α)} (hne : xs ≠ []) :
    ∑ a ∈ used xs, Real.log (occ xs a) ≤ (used xs).card * Real.log ((xs.length : ℝ) / (used xs).card) := by
  have hN : (0 : ℝ) < xs.length := by exact_mod_cast List.length_pos_of_ne_nil hne
  have hm : (0 : ℝ) < (used xs).card := by
    obtain ⟨o, ys, rfl⟩ := List.exists_cons_of_ne_nil hne
    exact_mod_cast Finset.card_pos.mpr ⟨o.sym, by simp [used]⟩
  have hsum : ∑ a ∈ used xs, (occ xs a : ℝ) = xs.length := by
    have := sum_cnt (S := used xs) (xs := xs) fun o ho => by
      simp only [used, List.mem_toFinset, List.mem_map]
      exact ⟨o, ho, rfl⟩
    simp only [cnt_eq_occ] at this
    exact_mod_cast this
  have h : ∀ a ∈ used xs, Real.log (occ xs a) ≤
      Real.log ((xs.length : ℝ) / (used xs).card) + ((occ xs a : ℝ) * ((used xs).card / xs.length) - 1) := by
    intro a ha
    have hc : (0 : ℝ) < occ xs a := by
      have : 0 < occ xs a := List.count_pos_iff.mpr (by simpa [used] using ha)
      exact_mod_cast this
    have := Real.log_le_sub_one_of_pos (x := (occ xs a : ℝ) * ((used xs).card / xs.length)) (by positivity)
    have e : Real.log (((used xs).card : ℝ) / xs.length) = -Real.log ((xs.length : ℝ) / (used xs).card) := by
      rw [← inv_div, Real.log_inv]
    rw [Real.log_mul hc.ne' (by positivity), e] at this
    linarith
  refine (Finset.sum_le_sum h).trans (le_of_eq ?_)
  rw [Finset.sum_add_distrib, Finset.sum_sub_distrib, ← Finset.sum_mul, hsum]
  simp only [Finset.sum_const, nsmul_eq_mul, mul_one]
  field_simp
  ring

end SAD

/-- **C122 (loss).** In nats: with `m` of the `n` symbols occurring among `N` ones the total loss is at most that of the source plus
`log (n choose m) + m/2 log (N/m) - 1/2 log N + 3/2 m log (1 + 2 log N) + m log 4 + log m + 1`. -/
theorem C122_SAD_loss (A : List α) (hA : A.Nodup) (xs : List (Obs α)) (hx : ∀ o ∈ xs, o.sym ∈ A ∧ o.weight = 1) (hne : xs ≠ [])
    (q : α → ℝ) (hq : IsDist A q) (hpos : 0 < catProb q xs) :
    ∃ r s, SAD.predictor.run (SAD.init A.length) xs = .ok (r, s) ∧
      -r ≤ -Real.log (catProb q xs) + Real.log (A.length.choose (used xs).card) +
        (used xs).card / 2 * Real.log ((xs.length : ℝ) / (used xs).card) - 1 / 2 * Real.log xs.length +
        3 / 2 * (used xs).card * Real.log (1 + 2 * Real.log xs.length) + (used xs).card * Real.log 4 + Real.log (used xs).card + 1 := by
  obtain ⟨r, s, hr, hl⟩ := C122_SAD_redundancy A hA xs hx hne q hq
  refine ⟨r, s, hr, ?_⟩
  have hxA : ∀ o ∈ xs, o.sym ∈ A := fun o ho => (hx o ho).1
  have hmn : (SAD.seen A.toFinset (cnt xs)).card ≤ A.toFinset.card := Finset.card_filter_le _ _
  rw [SAD.seen_eq_used hxA, List.toFinset_card_of_nodup hA] at hmn
  have hN : 1 ≤ xs.length := List.length_pos_of_ne_nil hne
  have hm : 1 ≤ (used xs).card := by
    obtain ⟨o, ys, rfl⟩ := List.exists_cons_of_ne_nil hne
    exact Finset.card_pos.mpr ⟨o.sym, by simp [used]⟩
  have hcp : (0 : ℝ) < A.length.choose (used xs).card := by exact_mod_cast Nat.choose_pos hmn
  have hℓ := SAD.one_le_fac hN
  have hocc : ∀ a ∈ used xs, (0 : ℝ) < occ xs a := fun a ha => by
    have : 0 < occ xs a := List.count_pos_iff.mpr (by simpa [used] using ha)
    exact_mod_cast this
  have hQ0 : 0 < ∏ a ∈ used xs, Real.sqrt (occ xs a) := Finset.prod_pos fun a ha => Real.sqrt_pos.mpr (hocc a ha)
  have hN0 : (0 : ℝ) < xs.length := by exact_mod_cast hN
  have hm0 : (1 : ℝ) ≤ (used xs).card := by exact_mod_cast hm
  have h2 : 0 < Real.sqrt xs.length := Real.sqrt_pos.mpr hN0
  have hX1 : 1 ≤ max 1 (Real.log ((xs.length : ℝ) / (used xs).card) / Real.log 2) := le_max_left _ _
  have hX : max 1 (Real.log ((xs.length : ℝ) / (used xs).card) / Real.log 2) ≤ 1 + 2 * Real.log xs.length := by
    refine max_le hℓ ?_
    have hl2 := Real.log_two_gt_d9
    have hlN : 0 ≤ Real.log xs.length := Real.log_nonneg (by exact_mod_cast hN)
    rw [div_le_iff₀ (by linarith)]
    have h3 : Real.log ((xs.length : ℝ) / (used xs).card) ≤ Real.log xs.length :=
      Real.log_le_log (by positivity) (div_le_self hN0.le hm0)
    nlinarith
  have hs1 : 0 < Real.sqrt (max 1 (Real.log ((xs.length : ℝ) / (used xs).card) / Real.log 2)) := Real.sqrt_pos.mpr (by linarith)
  have hlog := Real.log_le_log hpos hl
  unfold sparsePrice at hlog
  rw [Real.log_mul (by positivity) (Real.exp_pos r).ne', Real.log_exp, Real.log_mul (by positivity) (by positivity),
    Real.log_mul (by positivity) (by positivity), Real.log_mul (by positivity) (by positivity), Real.log_mul (by positivity) (by positivity),
    Real.log_mul (by positivity) (by positivity), Real.log_mul (by positivity) (by positivity), Real.log_exp, Real.log_pow, Real.log_pow,
    Real.log_pow, Real.log_div hQ0.ne' h2.ne', Real.log_prod (fun a ha => (Real.sqrt_pos.mpr (hocc a ha)).ne'), Real.log_sqrt hN0.le,
    Real.log_sqrt (by linarith), Nat.cast_sub hm, Nat.cast_one] at hlog
  have e : ∑ a ∈ used xs, Real.log (Real.sqrt (occ xs a)) = (∑ a ∈ used xs, Real.log (occ xs a)) / 2 := by
    rw [Finset.sum_div]
    exact Finset.sum_congr rfl fun a ha => Real.log_sqrt (hocc a ha).le
  rw [e] at hlog
  have h4 := SAD.sum_log_occ_le hne
  have h5 : Real.log (max 1 (Real.log ((xs.length : ℝ) / (used xs).card) / Real.log 2)) ≤ Real.log (1 + 2 * Real.log xs.length) :=
    Real.log_le_log (by linarith) hX
  have h6 : 0 ≤ Real.log (1 + 2 * Real.log xs.length) := Real.log_nonneg hℓ
  have h7 := mul_le_mul_of_nonneg_left h5 (by linarith : (0 : ℝ) ≤ (used xs).card)
  nlinarith

/-- **C122 (CTW).** `CTW` over `SAD(n)` loses against every tree source with a distribution at each leaf at most one bit per node above the maximal depth, and
for each leaf the price for the symbols that occur there. -/
theorem C122_CTW {κ : Type} [Fintype κ] [DecidableEq κ] (A : List α) (hA : A.Nodup) (ctx : List α → List κ) (d : ℕ) (xs : List (Obs α))
    (hc : ∀ o ∈ xs, (ctx o.hist).length = d) (hx : ∀ o ∈ xs, o.sym ∈ A ∧ o.weight = 1) (r : ℝ) (n : CTWNode (SAD α) κ)
    (hr : (CTW.predictor SAD.predictor (SAD.init A.length) ctx).run (CTW.init (SAD.init A.length)) xs = .ok (r, n))
    (T : CatTree α κ d) (hT : T.Valid A) :
    T.prob (withCtx ctx xs) ≤ 2 ^ T.shape.cost * T.sparsePrice A.length (withCtx ctx xs) * Real.exp r := by
  have hS : ∀ p ∈ withCtx ctx xs, p.2.sym ∈ A ∧ p.2.weight = 1 := by
    intro p hp
    simp only [withCtx, List.mem_map] at hp
    obtain ⟨o, ho, rfl⟩ := hp
    exact hx o ho
  have h1 := C16_CTW_regret SAD.predictor (SAD.init A.length) ctx d xs hc r n hr T.shape
  have h2 := SAD.tree_le hA hT (withCtx ctx xs) hS
  have hp := SAD.tree_pos hA T (withCtx ctx xs) fun p hp => (hS p hp).1
  refine h2.trans ?_
  have h3 : T.shape.prob (SAD.predictor.seqProb (SAD.init A.length)) (withCtx ctx xs) ≤ 2 ^ T.shape.cost * Real.exp r := by
    rw [one_div, inv_pow, inv_mul_le_iff₀ (by positivity)] at h1
    exact h1
  calc _ ≤ T.sparsePrice A.length (withCtx ctx xs) * (2 ^ T.shape.cost * Real.exp r) := mul_le_mul_of_nonneg_left h3 hp.le
    _ = _ := by ring

/-- **C122 (PTW).** `PTW` over `SAD(n)` loses against every source that has its own distribution on each segment of a binary temporal partition at most a
factor two per bit of the partition, 3/2 per doubling of the length, and for each segment the price for the symbols that occur there. -/
theorem C122_PTW (A : List α) (hA : A.Nodup) (m : ℕ) (xs : List (Obs α)) (hx : ∀ o ∈ xs, o.sym ∈ A ∧ o.weight = 1) (r : ℝ) (s : PTW (SAD α))
    (hr : (PTW.predictor SAD.predictor (SAD.init A.length) m).run (PTW.init (SAD.init A.length) m) xs = .ok (r, s))
    (T : TPart (levelsFor m xs.length)) (q : ℕ → α → ℝ) (hq : ∀ i, IsDist A (q i)) :
    ((T.segments m 0 xs).map fun g => catProb (q g.1) g.2).prod ≤ (3/2 : ℝ) ^ levelsFor m xs.length * 2 ^ T.cost *
      ((T.segments m 0 xs).map fun g => sparsePriceOf A.length g.2).prod * Real.exp r := by
  have h1 := C28_PTW_regret SAD.predictor (SAD.init A.length) m xs r s hr T
  have key : ∀ l : List (ℕ × List (Obs α)), (∀ g ∈ l, ∀ o ∈ g.2, o.sym ∈ A ∧ o.weight = 1) →
      0 ≤ (l.map fun g => catProb (q g.1) g.2).prod ∧ 0 < (l.map fun g => sparsePriceOf A.length g.2).prod ∧
      (l.map fun g => catProb (q g.1) g.2).prod ≤ (l.map fun g => sparsePriceOf A.length g.2).prod *
        (l.map fun g => SAD.predictor.seqProb (SAD.init A.length) g.2).prod := by
    intro l
    induction l with
    | nil => simp
    | cons g l ih =>
      intro h
      obtain ⟨i1, i2, i3⟩ := ih fun g' hg' => h g' (by simp [hg'])
      have hg := h g (by simp)
      have c1 := catProb_nonneg (hq g.1) fun o ho => (hg o ho).1
      have c2 := SAD.sparsePriceOf_pos (fun o ho => (hg o ho).1) hA
      have c3 := SAD.catProb_le hA hg (hq g.1)
      have c4 := SAD.predictor.seqProb_nonneg (SAD.init A.length) g.2
      simp only [List.map_cons, List.prod_cons]
      refine ⟨mul_nonneg c1 i1, mul_pos c2 i2, ?_⟩
      calc _ ≤ _ := mul_le_mul c3 i3 i1 (mul_nonneg c2.le c4)
        _ = _ := by ring
  obtain ⟨-, k2, k3⟩ := key (T.segments m 0 xs) fun g hg o ho => hx o ((segments_mem_sub m T 0 xs g hg).2 o ho)
  refine k3.trans ?_
  set X := ((T.segments m 0 xs).map fun g => SAD.predictor.seqProb (SAD.init A.length) g.2).prod with hX
  have h2 : X ≤ (3/2 : ℝ) ^ levelsFor m xs.length * 2 ^ T.cost * Real.exp r := by
    have e1 : (2/3 : ℝ) ^ levelsFor m xs.length * (3/2 : ℝ) ^ levelsFor m xs.length = 1 := by rw [← mul_pow]; norm_num
    have e2 : (1/2 : ℝ) ^ T.cost * 2 ^ T.cost = 1 := by rw [← mul_pow]; norm_num
    have hp : (0 : ℝ) < (3/2 : ℝ) ^ levelsFor m xs.length * 2 ^ T.cost := by positivity
    calc X = ((2/3 : ℝ) ^ levelsFor m xs.length * (3/2 : ℝ) ^ levelsFor m xs.length) * ((1/2 : ℝ) ^ T.cost * 2 ^ T.cost) * X := by
          rw [e1, e2]; ring
      _ = (3/2 : ℝ) ^ levelsFor m xs.length * 2 ^ T.cost * ((2/3 : ℝ) ^ levelsFor m xs.length * ((1/2 : ℝ) ^ T.cost * X)) := by ring
      _ ≤ _ := mul_le_mul_of_nonneg_left h1 hp.le
  calc _ ≤ _ := mul_le_mul_of_nonneg_left h2 k2.le
    _ = _ := by ring

/-- **C122 (ctw.py).** The estimator of ctw.py has the same bound. -/
theorem C122_ctw_SAD (A : List α) (hA : A.Nodup) (xs : List (Obs α)) (hx : ∀ o ∈ xs, o.sym ∈ A ∧ o.weight = 1) (hne : xs ≠ [])
    (q : α → ℝ) (hq : IsDist A q) :
    ∃ r s, (CSAD.probSeq (α := α)).toPredictor.run (CSAD.init A.length) xs = .ok (r, s) ∧ s.logProb = r ∧
      catProb q xs ≤ sparsePrice A.length xs * Real.exp r := by
  obtain ⟨r, s, hr, hl⟩ := C122_SAD_redundancy A hA xs hx hne q hq
  have key : ∀ (xs : List (Obs α)) (s : SAD α) (t : CSAD α) (r : ℝ) (s' : SAD α), s = t.abs → SAD.predictor.run s xs = .ok (r, s') →
      ∃ t', (CSAD.probSeq (α := α)).toPredictor.run t xs = .ok (r, t') := by
    intro xs
    induction xs with
    | nil =>
      intro s t r s' _ h
      simp only [Predictor.run, pure_eq_ok, Except.ok.injEq, Prod.mk.injEq] at h
      exact ⟨t, by rw [← h.1]; rfl⟩
    | cons o xs ih =>
      intro s t r s' hst h
      obtain ⟨r1, s1, r2, h1, h2, e⟩ := Predictor.run_cons_ok.mp h
      have hu := CSAD.hom.update t s o.sym o.hist o.weight hst trivial
      rw [List.map_id, id] at hu
      rcases corrRes_cases hu with ⟨e', -, h4⟩ | ⟨r3, t1, s3, h3, h4, h5⟩
      · rw [h1] at h4
        cases h4
      · rw [h1] at h4
        simp only [Except.ok.injEq, Prod.mk.injEq] at h4
        obtain ⟨rfl, rfl⟩ := h4
        obtain ⟨t', ht⟩ := ih s1 t1 r2 s' h5 h2
        exact ⟨t', Predictor.run_cons_ok.mpr ⟨r1, t1, r2, h3, ht, e⟩⟩
  obtain ⟨t', ht⟩ := key xs _ (CSAD.init A.length) r s rfl hr
  exact ⟨r, t', ht, (C82_ctw_SAD_eq_model_SAD A.length []).2.2 _ _ _ ht, hl⟩

end Verif
