import Verif.Proofs.SAD
import Verif.Proofs.Categorical

/-! The redundancy of `SAD`. -/

namespace Verif

open Real

namespace SAD

/-- What the repetitions have cost after `t` symbols, `s` of which were repetitions, of at most `M` distinct ones. -/
noncomputable def repCost (M t s : ℕ) : ℝ :=
  if t ≤ 2 * M then ((M + s).choose M : ℝ) else 8 ^ M * Real.sqrt (Real.log (((t : ℝ) - 1) / M) / Real.log 2) ^ M

theorem repCost_pos {M t s : ℕ} (hM : 1 ≤ M) : 0 < repCost M t s := by
  unfold repCost
  split_ifs with h
  · exact_mod_cast Nat.choose_pos (by omega)
  · have hM' : (0 : ℝ) < M := by exact_mod_cast hM
    have ht : (2 * M + 1 : ℝ) ≤ t := by exact_mod_cast (by omega : 2 * M + 1 ≤ t)
    have h1 : 1 < ((t : ℝ) - 1) / M := by
      rw [lt_div_iff₀ hM']
      linarith
    have := Real.log_pos h1
    have h2 : 0 < Real.log 2 := Real.log_pos (by norm_num)
    have := Real.sqrt_pos.mpr (div_pos this h2)
    positivity

private theorem choose_le {M s : ℕ} (hs : s ≤ 2 * M) : ((M + s).choose M : ℝ) ≤ 8 ^ M := by
  have h1 : (M + s).choose M ≤ 2 ^ (M + s) := Nat.choose_le_two_pow _ _
  have h2 : 2 ^ (M + s) ≤ 2 ^ (3 * M) := Nat.pow_le_pow_right (by norm_num) (by omega)
  have h3 : (2 : ℕ) ^ (3 * M) = 8 ^ M := by rw [pow_mul]; norm_num
  exact_mod_cast h1.trans (h2.trans h3.le)

private theorem late {M : ℕ} (hM : 1 ≤ M) : (8 : ℝ) ^ M * Real.sqrt (Real.log ((((2 * M + 1 : ℕ) : ℝ) - 1) / M) / Real.log 2) ^ M = 8 ^ M := by
  have hM' : (0 : ℝ) < M := by exact_mod_cast hM
  have h2 : 0 < Real.log 2 := Real.log_pos (by norm_num)
  have : (((2 * M + 1 : ℕ) : ℝ) - 1) / M = 2 := by
    push_cast
    field_simp
    ring
  rw [this, div_self h2.ne', Real.sqrt_one, one_pow, mul_one]

theorem repCost_new {M t s : ℕ} (hM : 1 ≤ M) (hst : s ≤ t) : repCost M t s ≤ repCost M (t + 1) s := by
  unfold repCost
  have hM' : (0 : ℝ) < M := by exact_mod_cast hM
  have h2 : 0 < Real.log 2 := Real.log_pos (by norm_num)
  by_cases h : t + 1 ≤ 2 * M
  · rw [if_pos h, if_pos (by omega)]
  · rw [if_neg h]
    by_cases h' : t ≤ 2 * M
    · rw [if_pos h']
      obtain rfl : t = 2 * M := by omega
      rw [late hM]
      exact choose_le hst
    · rw [if_neg h']
      have ht : (2 * M + 1 : ℝ) ≤ t := by exact_mod_cast (by omega : 2 * M + 1 ≤ t)
      refine mul_le_mul_of_nonneg_left (pow_le_pow_left₀ (Real.sqrt_nonneg _) (Real.sqrt_le_sqrt ?_) _) (by positivity)
      refine div_le_div_of_nonneg_right (Real.log_le_log (div_pos (by linarith) hM') ?_) h2.le
      refine div_le_div_of_nonneg_right ?_ hM'.le
      push_cast
      linarith

private theorem beta_early {m t s : ℕ} (hm : 1 ≤ m) (hs : s + m = t) : betaVal m t / t ≤ (m : ℝ) / (s + 1) := by
  have hm' : (1 : ℝ) ≤ m := by exact_mod_cast hm
  have hts : (s : ℝ) + m = t := by exact_mod_cast hs
  have hs0 : (0 : ℝ) ≤ s := Nat.cast_nonneg s
  have ht : (0 : ℝ) < t := by linarith
  have hmin : min (m : ℝ) t = m := min_eq_left (by linarith)
  rw [betaVal, if_pos ht, hmin]
  have hx : (0 : ℝ) < ((t : ℝ) + 1) / m := by positivity
  have hl : ((s : ℝ) + 1) / (t + 1) ≤ Real.log (((t : ℝ) + 1) / m) := by
    have := Real.one_sub_inv_le_log_of_pos hx
    refine le_trans (le_of_eq ?_) this
    rw [inv_div]
    field_simp
    linarith
  have hp : 0 < ((s : ℝ) + 1) / (t + 1) := by positivity
  calc (m : ℝ) / (2 * Real.log (((t : ℝ) + 1) / m)) / t ≤ (m : ℝ) / (2 * (((s : ℝ) + 1) / (t + 1))) / t := by
        gcongr
    _ = m / (s + 1) * ((t + 1) / (2 * t)) := by field_simp
    _ ≤ m / (s + 1) * 1 := by
        refine mul_le_mul_of_nonneg_left ?_ (by positivity)
        rw [div_le_one (by positivity)]
        linarith
    _ = _ := mul_one _

private theorem beta_late {m M t : ℕ} (hm : 1 ≤ m) (hmM : m ≤ M) (ht : 2 * M + 1 ≤ t) :
    betaVal m t / t ≤ (M : ℝ) / 2 * (1 - Real.log (((t : ℝ) - 1) / M) / Real.log ((t : ℝ) / M)) := by
  have hm' : (1 : ℝ) ≤ m := by exact_mod_cast hm
  have hmM' : (m : ℝ) ≤ M := by exact_mod_cast hmM
  have ht' : (2 * M + 1 : ℝ) ≤ t := by exact_mod_cast ht
  have hM0 : (0 : ℝ) < M := by linarith
  have ht0 : (0 : ℝ) < t := by linarith
  rw [betaVal, if_pos ht0, min_eq_left (by linarith : (m : ℝ) ≤ t)]
  have hu : 0 < Real.log ((t : ℝ) / M) := Real.log_pos (by rw [lt_div_iff₀ hM0]; linarith)
  have h1 : Real.log ((t : ℝ) / M) ≤ Real.log (((t : ℝ) + 1) / m) := by
    refine Real.log_le_log (by positivity) ?_
    gcongr
    linarith
  have h2 : 1 / (t : ℝ) ≤ Real.log ((t : ℝ) / M) - Real.log (((t : ℝ) - 1) / M) := by
    rw [Real.log_div ht0.ne' hM0.ne', Real.log_div (by linarith) hM0.ne']
    have hx : (0 : ℝ) < t / (t - 1) := div_pos ht0 (by linarith)
    have := Real.one_sub_inv_le_log_of_pos hx
    rw [Real.log_div ht0.ne' (by linarith), inv_div] at this
    have e : 1 - ((t : ℝ) - 1) / t = 1 / t := by field_simp; ring
    linarith
  calc (m : ℝ) / (2 * Real.log (((t : ℝ) + 1) / m)) / t ≤ (M : ℝ) / (2 * Real.log ((t : ℝ) / M)) / t := by
        gcongr
    _ = (M : ℝ) / 2 * ((1 / t) / Real.log ((t : ℝ) / M)) := by field_simp
    _ ≤ (M : ℝ) / 2 * ((Real.log ((t : ℝ) / M) - Real.log (((t : ℝ) - 1) / M)) / Real.log ((t : ℝ) / M)) := by
        gcongr
    _ = _ := by rw [sub_div, div_self hu.ne']

theorem repCost_old {M m t s : ℕ} (hm : 1 ≤ m) (hmM : m ≤ M) (hs : s + m = t) :
    repCost M t s * (1 + betaVal m t / t) ≤ repCost M (t + 1) (s + 1) := by
  have hM : 1 ≤ M := by omega
  have hM' : (0 : ℝ) < M := by exact_mod_cast hM
  have h2 : 0 < Real.log 2 := Real.log_pos (by norm_num)
  unfold repCost
  by_cases h' : t ≤ 2 * M
  · rw [if_pos h']
    have h1 : ((M + s).choose M : ℝ) * (1 + betaVal m t / t) ≤ ((M + (s + 1)).choose M : ℝ) := by
      have e := Nat.choose_mul_succ_eq (M + s) M
      rw [show M + s + 1 - M = s + 1 by omega] at e
      have e' : ((M + s).choose M : ℝ) * (M + s + 1) = ((M + (s + 1)).choose M : ℝ) * (s + 1) := by
        have : ((M + s).choose M * (M + s + 1) : ℕ) = (M + (s + 1)).choose M * (s + 1) := by rw [e]; rfl
        exact_mod_cast this
      have hb := beta_early hm hs
      have hs0 : (0 : ℝ) ≤ s := Nat.cast_nonneg s
      have hb' : betaVal m t / t ≤ (M : ℝ) / (s + 1) := hb.trans (by gcongr)
      have hc : (0 : ℝ) ≤ (M + s).choose M := Nat.cast_nonneg _
      calc _ ≤ ((M + s).choose M : ℝ) * (1 + (M : ℝ) / (s + 1)) := by gcongr
        _ = ((M + s).choose M : ℝ) * (M + s + 1) / (s + 1) := by field_simp; ring
        _ = _ := by rw [e']; field_simp
    by_cases h : t + 1 ≤ 2 * M
    · rw [if_pos h]
      exact h1
    · rw [if_neg h]
      have e : t = 2 * M := by omega
      rw [e, late hM, ← e]
      exact h1.trans (choose_le (by omega))
  · rw [if_neg h', if_neg (by omega)]
    have ht : (2 * M + 1 : ℝ) ≤ t := by exact_mod_cast (by omega : 2 * M + 1 ≤ t)
    have hb := beta_late hm hmM (by omega : 2 * M + 1 ≤ t)
    have e1 : ((t + 1 : ℕ) : ℝ) - 1 = t := by push_cast; ring
    rw [e1]
    set u := Real.log ((t : ℝ) / M) with hu
    set v := Real.log (((t : ℝ) - 1) / M) with hv
    have hv0 : 0 < v := Real.log_pos (by rw [lt_div_iff₀ hM']; linarith)
    have huv : v ≤ u := Real.log_le_log (div_pos (by linarith) hM') (by gcongr; linarith)
    have hu0 : 0 < u := hv0.trans_le huv
    set y := Real.sqrt (u / v) with hy
    have hy1 : 1 ≤ y := Real.le_sqrt_of_sq_le (by rw [one_pow, le_div_iff₀ hv0]; linarith)
    have hyy : y * y = u / v := Real.mul_self_sqrt (by positivity)
    have hq : v / u = 1 / (y * y) := by rw [hyy, one_div_div]
    have h3 : 1 + betaVal m t / t ≤ y ^ M := by
      have hB := one_add_mul_le_pow (a := y - 1) (by linarith) M
      rw [show 1 + (y - 1) = y by ring] at hB
      refine le_trans ?_ hB
      have h4 : (1 - 1 / (y * y)) / 2 ≤ y - 1 := by
        have hyp : 0 < y * y := by positivity
        rw [sub_div, div_div, sub_le_iff_le_add, ← sub_le_iff_le_add', le_div_iff₀ (by positivity)]
        nlinarith [mul_nonneg (sq_nonneg (y - 1)) (by linarith : (0 : ℝ) ≤ 2 * y + 1)]
      rw [hq] at hb
      have := mul_le_mul_of_nonneg_left h4 hM'.le
      linarith
    have e2 : Real.sqrt (u / Real.log 2) = Real.sqrt (v / Real.log 2) * y := by
      rw [hy, ← Real.sqrt_mul (by positivity)]
      congr 1
      field_simp
    rw [e2, mul_pow, ← mul_assoc]
    exact mul_le_mul_of_nonneg_left h3 (by positivity)

variable {α : Type} [DecidableEq α]

/-- The symbols that have been seen. -/
def seen (S : Finset α) (c : α → ℕ) : Finset α := S.filter fun a => c a ≠ 0

/-- A lower bound of the probability that `SAD` gives to a sequence with the counts `c`, of at most `N` symbols and at most `M` distinct ones. -/
noncomputable def low (S : Finset α) (M N : ℕ) (c : α → ℕ) : ℝ :=
  (∏ a ∈ S, ((c a - 1).factorial : ℝ)) * (((seen S c).card - 1).factorial : ℝ) /
    (((∑ a ∈ S, c a) - 1).factorial * (S.card.descFactorial (seen S c).card) * (1 + 2 * Real.log N) ^ ((seen S c).card - 1) *
      repCost M (∑ a ∈ S, c a) (∑ a ∈ S, c a - (seen S c).card))

/-- The counts after another symbol. -/
def inc (c : α → ℕ) (b : α) : α → ℕ := fun a => c a + if b = a then 1 else 0

theorem sum_inc {S : Finset α} {b : α} (hb : b ∈ S) (c : α → ℕ) : ∑ a ∈ S, inc c b a = (∑ a ∈ S, c a) + 1 := by
  unfold inc
  rw [Finset.sum_add_distrib, Finset.sum_ite_eq, if_pos hb]

theorem seen_inc_old {S : Finset α} {c : α → ℕ} {b : α} (h : c b ≠ 0) : seen S (inc c b) = seen S c := by
  ext a
  simp only [seen, inc, Finset.mem_filter]
  by_cases hab : b = a
  · subst hab
    simp [h]
  · simp [hab]

theorem seen_inc_new {S : Finset α} {c : α → ℕ} {b : α} (hb : b ∈ S) (h : c b = 0) :
    (seen S (inc c b)).card = (seen S c).card + 1 := by
  have : seen S (inc c b) = insert b (seen S c) := by
    ext a
    simp only [seen, Finset.mem_filter, inc, Finset.mem_insert]
    by_cases hab : b = a
    · subst hab
      simp [hb]
    · simp [hab, Ne.symm hab]
  rw [this, Finset.card_insert_of_notMem]
  simp [seen, h]

theorem card_seen_le {S : Finset α} (c : α → ℕ) : (seen S c).card ≤ ∑ a ∈ S, c a := by
  calc (seen S c).card = ∑ a ∈ seen S c, 1 := by simp
    _ ≤ ∑ a ∈ seen S c, c a := Finset.sum_le_sum fun a ha => by
        simp only [seen, Finset.mem_filter] at ha
        omega
    _ ≤ ∑ a ∈ S, c a := Finset.sum_le_sum_of_subset (Finset.filter_subset _ _)

theorem prod_inc_old {S : Finset α} {c : α → ℕ} {b : α} (hb : b ∈ S) (h : c b ≠ 0) :
    ∏ a ∈ S, ((inc c b a - 1).factorial : ℝ) = (∏ a ∈ S, ((c a - 1).factorial : ℝ)) * c b := by
  have : ∀ a ∈ S, ((inc c b a - 1).factorial : ℝ) = ((c a - 1).factorial : ℝ) * if b = a then (c a : ℝ) else 1 := by
    intro a _
    by_cases hab : b = a
    · subst hab
      simp only [inc, if_true]
      obtain ⟨k, hk⟩ := Nat.exists_eq_succ_of_ne_zero h
      rw [hk]
      simp only [Nat.succ_eq_add_one, Nat.add_sub_cancel]
      rw [Nat.factorial_succ]
      push_cast
      ring
    · simp [inc, hab]
  rw [Finset.prod_congr rfl this, Finset.prod_mul_distrib, Finset.prod_ite_eq, if_pos hb]

theorem prod_inc_new {S : Finset α} {c : α → ℕ} {b : α} (h : c b = 0) :
    ∏ a ∈ S, ((inc c b a - 1).factorial : ℝ) = ∏ a ∈ S, ((c a - 1).factorial : ℝ) := by
  refine Finset.prod_congr rfl fun a _ => ?_
  by_cases hab : b = a
  · subst hab
    simp [inc, h]
  · simp [inc, hab]

theorem one_le_fac {N : ℕ} (hN : 1 ≤ N) : 1 ≤ 1 + 2 * Real.log N := by
  have := Real.log_nonneg (by exact_mod_cast hN : (1 : ℝ) ≤ N)
  linarith

theorem low_pos {S : Finset α} {M N : ℕ} (hM : 1 ≤ M) (hN : 1 ≤ N) (c : α → ℕ) : 0 < low S M N c := by
  unfold low
  have h1 : (0 : ℝ) < ∏ a ∈ S, ((c a - 1).factorial : ℝ) := Finset.prod_pos fun a _ => by positivity
  have h2 : (0 : ℝ) < S.card.descFactorial (seen S c).card := by
    exact_mod_cast Nat.descFactorial_pos.mpr (Finset.card_filter_le _ _)
  have h3 := one_le_fac hN
  have h4 := repCost_pos (t := ∑ a ∈ S, c a) (s := ∑ a ∈ S, c a - (seen S c).card) hM
  positivity

theorem low_old {S : Finset α} {M N : ℕ} {c : α → ℕ} {b : α} (hb : b ∈ S) (h : c b ≠ 0) (hN : 1 ≤ N) (hmM : (seen S c).card ≤ M) :
    low S M N (inc c b) ≤ low S M N c * (c b / ((∑ a ∈ S, c a : ℕ) + betaVal (seen S c).card (∑ a ∈ S, c a : ℕ))) := by
  have hm : 1 ≤ (seen S c).card := Finset.card_pos.mpr ⟨b, by simp [seen, hb, h]⟩
  have hle := card_seen_le (S := S) c
  have hM : 1 ≤ M := by omega
  unfold low
  rw [sum_inc hb, seen_inc_old h, prod_inc_old hb h]
  set t := ∑ a ∈ S, c a with ht
  set m := (seen S c).card with hmd
  set P := ∏ a ∈ S, ((c a - 1).factorial : ℝ) with hP
  have hP0 : 0 < P := Finset.prod_pos fun a _ => by positivity
  have ht0 : (0 : ℝ) < t := by exact_mod_cast (by omega : 0 < t)
  have hcb : (0 : ℝ) < c b := by exact_mod_cast Nat.pos_of_ne_zero h
  have hβ : 0 < betaVal m t := betaVal_pos fun _ => by omega
  have hrc := repCost_old hm hmM (by omega : t - m + m = t)
  rw [show t - m + 1 = t + 1 - m by omega] at hrc
  have hr0 := repCost_pos (t := t) (s := t - m) hM
  have hr1 := repCost_pos (t := t + 1) (s := t + 1 - m) hM
  have hd : (0 : ℝ) < S.card.descFactorial m := by exact_mod_cast Nat.descFactorial_pos.mpr (Finset.card_filter_le _ _)
  have hl := one_le_fac hN
  have hf : ((t + 1 - 1).factorial : ℝ) = t * ((t - 1).factorial : ℝ) := by
    obtain ⟨k, hk⟩ : ∃ k, t = k + 1 := ⟨t - 1, by omega⟩
    rw [hk]
    simp only [Nat.add_sub_cancel]
    rw [Nat.factorial_succ]
    push_cast
    ring
  rw [hf, div_mul_div_comm, div_le_div_iff₀ (by positivity) (by positivity)]
  have e : (t : ℝ) + betaVal m t = t * (1 + betaVal m t / t) := by field_simp
  rw [e]
  have : 0 ≤ P * c b * ((m - 1).factorial : ℝ) * ((t - 1).factorial : ℝ) * S.card.descFactorial m * (1 + 2 * Real.log N) ^ (m - 1) * t := by
    positivity
  have := mul_le_mul_of_nonneg_left hrc this
  calc _ = P * c b * ((m - 1).factorial : ℝ) * ((t - 1).factorial : ℝ) * S.card.descFactorial m * (1 + 2 * Real.log N) ^ (m - 1) * t *
        (repCost M t (t - m) * (1 + betaVal m t / t)) := by ring
    _ ≤ _ := this
    _ = _ := by ring

theorem low_new {S : Finset α} {M N : ℕ} {c : α → ℕ} {b : α} (hb : b ∈ S) (h : c b = 0) (ht : 1 ≤ ∑ a ∈ S, c a)
    (hN : ∑ a ∈ S, c a + 1 ≤ N) (hm : 1 ≤ (seen S c).card) (hM : 1 ≤ M) :
    low S M N (inc c b) ≤ low S M N c * (betaVal (seen S c).card (∑ a ∈ S, c a : ℕ) /
      (((S.card : ℝ) - (seen S c).card) * ((∑ a ∈ S, c a : ℕ) + betaVal (seen S c).card (∑ a ∈ S, c a : ℕ)))) := by
  have hle := card_seen_le (S := S) c
  have hlt : (seen S c).card < S.card := Finset.card_lt_card (Finset.filter_ssubset.mpr ⟨b, hb, by simp [h]⟩)
  unfold low
  rw [sum_inc hb, seen_inc_new hb h, prod_inc_new h]
  set t := ∑ a ∈ S, c a with htd
  set m := (seen S c).card with hmd
  set P := ∏ a ∈ S, ((c a - 1).factorial : ℝ) with hP
  have hP0 : 0 < P := Finset.prod_pos fun a _ => by positivity
  have ht0 : (0 : ℝ) < t := by exact_mod_cast ht
  have hm0 : (1 : ℝ) ≤ m := by exact_mod_cast hm
  have hmt : (m : ℝ) ≤ t := by exact_mod_cast hle
  have hβ : 0 < betaVal m t := betaVal_pos fun _ => by omega
  have hrc := repCost_new (M := M) (t := t) (s := t - m) hM (by omega)
  have hr0 := repCost_pos (t := t) (s := t - m) hM
  have hr1 := repCost_pos (t := t + 1) (s := t - m) hM
  have hd : (0 : ℝ) < S.card.descFactorial m := by exact_mod_cast Nat.descFactorial_pos.mpr hlt.le
  have hl := one_le_fac (by omega : 1 ≤ N)
  have hn : (0 : ℝ) < (S.card : ℝ) - m := by
    have : (m : ℝ) < S.card := by exact_mod_cast hlt
    linarith
  have hf : ((t + 1 - 1).factorial : ℝ) = t * ((t - 1).factorial : ℝ) := by
    obtain ⟨k, hk⟩ : ∃ k, t = k + 1 := ⟨t - 1, by omega⟩
    rw [hk]
    simp only [Nat.add_sub_cancel]
    rw [Nat.factorial_succ]
    push_cast
    ring
  have hfm : ((m + 1 - 1).factorial : ℝ) = m * ((m - 1).factorial : ℝ) := by
    obtain ⟨k, hk⟩ : ∃ k, m = k + 1 := ⟨m - 1, by omega⟩
    rw [hk]
    simp only [Nat.add_sub_cancel]
    rw [Nat.factorial_succ]
    push_cast
    ring
  have hdf : (S.card.descFactorial (m + 1) : ℝ) = ((S.card : ℝ) - m) * S.card.descFactorial m := by
    rw [Nat.descFactorial_succ, Nat.cast_mul, Nat.cast_sub hlt.le]
  have hpw : (1 + 2 * Real.log N) ^ (m + 1 - 1) = (1 + 2 * Real.log N) * (1 + 2 * Real.log N) ^ (m - 1) := by
    obtain ⟨k, hk⟩ : ∃ k, m = k + 1 := ⟨m - 1, by omega⟩
    rw [hk]
    simp only [Nat.add_sub_cancel]
    ring
  rw [hf, hfm, hdf, hpw, show t + 1 - (m + 1) = t - m by omega, div_mul_div_comm, div_le_div_iff₀ (by positivity) (by positivity)]
  have key : (m : ℝ) * (t + betaVal m t) ≤ betaVal m t * t * (1 + 2 * Real.log N) := by
    have hlog : 0 < Real.log (((t : ℝ) + 1) / m) := Real.log_pos (by rw [lt_div_iff₀ (by linarith)]; linarith)
    have hβe : betaVal m t * (2 * Real.log (((t : ℝ) + 1) / m)) = m := by
      rw [betaVal, if_pos ht0, min_eq_left hmt]
      field_simp
    have hN' : (t : ℝ) + 1 ≤ N := by exact_mod_cast hN
    have hlN : Real.log (((t : ℝ) + 1) / m) ≤ Real.log N := by
      refine Real.log_le_log (by positivity) ?_
      rw [div_le_iff₀ (by linarith)]
      nlinarith
    calc (m : ℝ) * (t + betaVal m t) = m * t + m * betaVal m t := by ring
      _ ≤ betaVal m t * (2 * Real.log (((t : ℝ) + 1) / m)) * t + t * betaVal m t := by
          rw [hβe]
          gcongr
      _ ≤ betaVal m t * (2 * Real.log N) * t + t * betaVal m t := by gcongr
      _ = _ := by ring
  have h5 := mul_le_mul key hrc hr0.le (by positivity)
  have h6 : 0 ≤ P * ((m - 1).factorial : ℝ) * ((t - 1).factorial : ℝ) * S.card.descFactorial m * (1 + 2 * Real.log N) ^ (m - 1) *
      ((S.card : ℝ) - m) := by positivity
  have h7 := mul_le_mul_of_nonneg_left h5 h6
  calc _ = P * ((m - 1).factorial : ℝ) * ((t - 1).factorial : ℝ) * S.card.descFactorial m * (1 + 2 * Real.log N) ^ (m - 1) *
      ((S.card : ℝ) - m) * ((m : ℝ) * (t + betaVal m t) * repCost M t (t - m)) := by ring
    _ ≤ _ := h7
    _ = _ := by ring

theorem low_first {S : Finset α} {M N : ℕ} {b : α} (hb : b ∈ S) (hM : 1 ≤ M) :
    low S M N (inc (fun _ => 0) b) = 1 / (S.card : ℝ) := by
  have h0 : (seen S fun _ => 0) = ∅ := by simp [seen]
  have hs := sum_inc hb fun _ => 0
  have hc := seen_inc_new (c := fun _ => 0) hb rfl
  rw [h0] at hc
  simp only [Finset.sum_const_zero, Finset.card_empty, zero_add] at hs hc
  unfold low
  rw [prod_inc_new (c := fun _ => 0) rfl, hs, hc, repCost, if_pos (by omega)]
  simp

/-- The state of the estimator with these counts. -/
structure At (A : List α) (c : α → ℕ) (s : SAD α) : Prop extends Over A s where
  get : ∀ a ∈ A, s.counts.get? a = if c a = 0 then none else some (c a : ℝ)
  total : s.sumCounts = (∑ a ∈ A.toFinset, c a : ℕ)

theorem At.length {A : List α} {c : α → ℕ} {s : SAD α} (h : At A c s) : s.counts.length = (seen A.toFinset c).card := by
  rw [← PyDict.length_keys, ← List.toFinset_card_of_nodup h.nodup]
  congr 1
  ext a
  simp only [seen, List.mem_toFinset, Finset.mem_filter]
  constructor
  · intro ha
    have hA := h.keys a ha
    refine ⟨hA, fun h0 => ?_⟩
    have := h.get a hA
    rw [if_pos h0] at this
    exact PyDict.get?_eq_none.mp this ha
  · rintro ⟨hA, h0⟩
    by_contra hn
    have := h.get a hA
    rw [if_neg h0, PyDict.get?_eq_none.mpr hn] at this
    cases this

theorem At.bump {A : List α} {c : α → ℕ} {s : SAD α} (h : At A c s) {b : α} (hb : b ∈ A) : At A (inc c b) (s.bump b 1) where
  toOver := h.toOver.bump hb one_pos
  get := by
    intro a ha
    unfold SAD.bump
    have hgb := h.get b hb
    by_cases hab : b = a
    · subst hab
      by_cases h0 : c b = 0
      · rw [if_pos h0] at hgb
        rw [hgb]
        simp only
        rw [PyDict.get?_set_self]
        simp [inc, h0]
      · rw [if_neg h0] at hgb
        rw [hgb]
        simp only
        rw [PyDict.get?_set_self]
        simp [inc]
    · have e : (inc c b a) = c a := by simp [inc, hab]
      rw [e]
      cases hgb' : s.counts.get? b <;>
      · simp only
        rw [PyDict.get?_set_other _ _ (Ne.symm hab)]
        exact h.get a ha
  total := by
    rw [bump_sum, h.total, sum_inc (by simpa using hb)]
    push_cast
    ring

theorem At.step {A : List α} (hA : A.Nodup) {c : α → ℕ} {s : SAD α} (h : At A c s) {b : α} (hb : b ∈ A) {M N : ℕ}
    (h1 : ∑ a ∈ A.toFinset, c a + 1 ≤ N) (h2 : (seen A.toFinset (inc c b)).card ≤ M) (h3 : 1 ≤ ∑ a ∈ A.toFinset, c a) :
    ∃ r, s.logPredict b = .ok r ∧ low A.toFinset M N (inc c b) ≤ low A.toFinset M N c * Real.exp r := by
  have hbS : b ∈ A.toFinset := by simpa using hb
  have hg := h.get b hb
  have hβ := h.beta.2
  have hnn := h.sum_nonneg
  have hlen := h.length
  have hcard : (A.toFinset.card : ℝ) = s.n := by rw [List.toFinset_card_of_nodup hA, h.size]; simp
  by_cases h0 : c b = 0
  · rw [if_pos h0] at hg
    have hlt : (s.counts.length : ℤ) < s.n := by
      rw [h.size]
      exact_mod_cast h.len_lt hb (PyDict.get?_eq_none.mp hg)
    refine ⟨_, h.logPredict_new hg hlt, ?_⟩
    have hpos : (0 : ℝ) < (s.n : ℝ) - s.counts.length := by
      have : ((s.counts.length : ℤ) : ℝ) < s.n := by exact_mod_cast hlt
      push_cast at this
      linarith
    rw [Real.exp_log (div_pos hβ (mul_pos hpos (by linarith))), hlen, h.total, ← hcard]
    rw [seen_inc_new hbS h0] at h2
    refine low_new hbS h0 h3 h1 ?_ (by omega)
    obtain ⟨a, ha, hne⟩ := Finset.exists_ne_zero_of_sum_ne_zero (by omega : ∑ a ∈ A.toFinset, c a ≠ 0)
    exact Finset.card_pos.mpr ⟨a, by simpa [seen, hne] using ha⟩
  · rw [if_neg h0] at hg
    refine ⟨_, h.logPredict_seen hg, ?_⟩
    have hc0 := h.pos _ (PyDict.mem_of_get? hg)
    rw [Real.exp_log (div_pos hc0 (by linarith)), hlen, h.total]
    rw [seen_inc_old h0] at h2
    exact low_old hbS h0 (by omega) h2

theorem seen_mono {S : Finset α} {c c' : α → ℕ} (h : ∀ a, c a ≤ c' a) : seen S c ⊆ seen S c' := by
  intro a
  simp only [seen, Finset.mem_filter]
  rintro ⟨ha, hc⟩
  exact ⟨ha, by have := h a; omega⟩

open Categorical in
theorem inc_cnt (c : α → ℕ) (o : Obs α) (xs : List (Obs α)) :
    (fun a => c a + cnt (o :: xs) a) = fun a => inc c o.sym a + cnt xs a := by
  funext a
  simp only [cnt_cons, inc]
  omega

open Categorical in
theorem At.run {A : List α} (hA : A.Nodup) {c : α → ℕ} {s : SAD α} (h : At A c s) {xs : List (Obs α)} {M N : ℕ}
    (hx : ∀ o ∈ xs, o.sym ∈ A ∧ o.weight = 1) (h1 : ∑ a ∈ A.toFinset, c a + xs.length ≤ N)
    (h2 : (seen A.toFinset fun a => c a + cnt xs a).card ≤ M) (h3 : 1 ≤ ∑ a ∈ A.toFinset, c a) :
    ∃ r s', predictor.run s xs = .ok (r, s') ∧
      low A.toFinset M N (fun a => c a + cnt xs a) ≤ low A.toFinset M N c * Real.exp r := by
  induction xs generalizing c s with
  | nil => exact ⟨0, s, rfl, by simp [cnt]⟩
  | cons o xs ih =>
    obtain ⟨hb, hw⟩ := hx o (by simp)
    have hbS : o.sym ∈ A.toFinset := by simpa using hb
    rw [inc_cnt] at h2
    simp only [List.length_cons] at h1
    obtain ⟨r1, hr1, hl1⟩ := h.step hA hb (M := M) (N := N) (by omega)
      ((Finset.card_le_card (seen_mono fun a => Nat.le_add_right _ _)).trans h2) h3
    obtain ⟨r2, s2, hr2, hl2⟩ := ih (h.bump hb) (fun o ho => hx o (by simp [ho])) (by rw [sum_inc hbS]; omega) h2
      (by rw [sum_inc hbS]; omega)
    refine ⟨r1 + r2, s2, Predictor.run_cons_ok.mpr ⟨r1, s.bump o.sym o.weight, r2, ?_, by rw [hw]; exact hr2, rfl⟩, ?_⟩
    · simp only [predictor]
      rw [update_eq, hr1]
      rfl
    · rw [inc_cnt, Real.exp_add, ← mul_assoc]
      exact hl2.trans (mul_le_mul_of_nonneg_right hl1 (Real.exp_pos _).le)

theorem at_init (A : List α) : At A (fun _ => 0) (init A.length : SAD α) where
  toOver := over_init A
  get := by simp [init, PyDict.get?]
  total := by simp [init]

open Categorical in
/-- The probability of a whole sequence. -/
theorem run_low {A : List α} (hA : A.Nodup) {xs : List (Obs α)} (hx : ∀ o ∈ xs, o.sym ∈ A ∧ o.weight = 1) (hne : xs ≠ []) :
    ∃ r s', predictor.run (init A.length) xs = .ok (r, s') ∧
      low A.toFinset (seen A.toFinset (cnt xs)).card xs.length (cnt xs) ≤ Real.exp r := by
  obtain ⟨o, xs, rfl⟩ := List.exists_cons_of_ne_nil hne
  obtain ⟨hb, hw⟩ := hx o (by simp)
  have hbS : o.sym ∈ A.toFinset := by simpa using hb
  have e := inc_cnt (fun _ => 0) o xs
  simp only [zero_add] at e
  have e' : cnt (o :: xs) = fun a => inc (fun _ => 0) o.sym a + cnt xs a := e
  have hM : 1 ≤ (seen A.toFinset (cnt (o :: xs))).card :=
    Finset.card_pos.mpr ⟨o.sym, by simp [seen, hb, cnt]⟩
  have hs := sum_inc hbS fun _ => 0
  simp only [Finset.sum_const_zero, zero_add] at hs
  obtain ⟨r2, s2, hr2, hl2⟩ := ((at_init A).bump hb).run hA (xs := xs) (M := (seen A.toFinset (cnt (o :: xs))).card) (N := (o :: xs).length)
    (fun o ho => hx o (by simp [ho])) (by rw [hs]; simp; omega) (by rw [← e']) (by rw [hs])
  have hcard : A.toFinset.card = A.length := List.toFinset_card_of_nodup hA
  have hA0 : 0 < A.length := List.length_pos_of_mem hb
  have hpos : (0 : ℝ) < 1 / (A.length : ℝ) := by positivity
  have hr1 : (init A.length : SAD α).logPredict o.sym = .ok (Real.log (1 / (A.length : ℝ))) := by
    rw [(at_init A).logPredict_new (by simp [init, PyDict.get?]) (by simpa [init] using hA0)]
    simp [init, betaVal]
  refine ⟨Real.log (1 / (A.length : ℝ)) + r2, s2,
    Predictor.run_cons_ok.mpr ⟨_, (init A.length : SAD α).bump o.sym o.weight, r2, ?_, by rw [hw]; exact hr2, rfl⟩, ?_⟩
  · simp only [predictor]
    rw [update_eq, hr1]
    rfl
  · rw [← e', low_first hbS hM, hcard] at hl2
    rw [Real.exp_add, Real.exp_log hpos]
    exact hl2

end SAD

end Verif
