import Verif.Spec.Categorical
import Verif.Proofs.KTRedundancy
import Verif.Proofs.SourceRegret
import Mathlib.Analysis.Convex.SpecificFunctions.Basic

/-! The redundancy of the KT estimator over any alphabet. -/

namespace Verif

open Real

namespace Categorical

/-- `p (p + 1) ... (p + a - 1)`. -/
noncomputable def riseP (p : ℝ) (a : ℕ) : ℝ := ∏ i ∈ Finset.range a, ((i : ℝ) + p)

theorem riseP_succ (p : ℝ) (a : ℕ) : riseP p (a + 1) = riseP p a * ((a : ℝ) + p) := Finset.prod_range_succ _ _

theorem riseP_pos {p : ℝ} (hp : 0 < p) (a : ℕ) : 0 < riseP p a := Finset.prod_pos fun i _ => by positivity

/-- `p (p+1) ... (p+a) ≥ p a! (a+1)^p`. -/
theorem riseP_ge {p : ℝ} (hp : 0 < p) (hp1 : p ≤ 1) (a : ℕ) :
    p * (a.factorial : ℝ) * ((a : ℝ) + 1) ^ p ≤ riseP p (a + 1) := by
  induction a with
  | zero => simp [riseP]
  | succ a ih =>
    rw [riseP_succ]
    have ha : (0 : ℝ) < (a : ℝ) + 1 := by positivity
    have hb := rpow_one_add_le_one_add_mul_self (s := 1 / ((a : ℝ) + 1)) (by
      have : (0 : ℝ) ≤ 1 / ((a : ℝ) + 1) := by positivity
      linarith) hp.le hp1
    have e : ((a + 1 : ℕ) : ℝ) + 1 = ((a : ℝ) + 1) * (1 + 1 / ((a : ℝ) + 1)) := by
      push_cast
      field_simp
    rw [e, mul_rpow ha.le (by positivity), Nat.factorial_succ]
    have h1 : ((a + 1 : ℕ) : ℝ) + p = ((a : ℝ) + 1) * (1 + p * (1 / ((a : ℝ) + 1))) := by
      push_cast
      field_simp
    rw [h1]
    push_cast
    have h2 := mul_le_mul ih hb (by positivity) (riseP_pos hp _).le
    have h3 := mul_le_mul_of_nonneg_left h2 ha.le
    calc _ = ((a : ℝ) + 1) * (p * (a.factorial : ℝ) * ((a : ℝ) + 1) ^ p * (1 + 1 / ((a : ℝ) + 1)) ^ p) := by ring
      _ ≤ _ := h3
      _ = _ := by ring

theorem two_le_sqrt : (2 : ℝ) ≤ Real.sqrt (2 * π) := by
  apply Real.le_sqrt_of_sq_le
  have := Real.two_le_pi
  linarith

/-- The lower bound for one symbol: for `a ≤ n`, `2 p n^(p - 1/2) (a/e)^a ≤ p (p+1) ... (p+a-1)`. -/
theorem riseP_lower {p : ℝ} (hp : 0 < p) (hp1 : p ≤ 1 / 2) {a n : ℕ} (han : a ≤ n) (hn : 1 ≤ n) :
    2 * p * (n : ℝ) ^ (p - 1 / 2) * ((a : ℝ) ^ a / Real.exp 1 ^ a) ≤ riseP p a := by
  have hn' : (1 : ℝ) ≤ n := by exact_mod_cast hn
  rcases Nat.eq_zero_or_pos a with rfl | ha
  · have h1 : (n : ℝ) ^ (p - 1 / 2) ≤ 1 := Real.rpow_le_one_of_one_le_of_nonpos hn' (by linarith)
    have h0 : 0 ≤ (n : ℝ) ^ (p - 1 / 2) := by positivity
    simp only [riseP, Finset.range_zero, Finset.prod_empty, pow_zero, div_one, mul_one]
    nlinarith
  · obtain ⟨b, rfl⟩ := Nat.exists_eq_add_of_le' ha
    have hge := riseP_ge hp (by linarith) b
    have hst := Stirling.le_factorial_stirling (b + 1)
    have hb : (0 : ℝ) < (b : ℝ) + 1 := by positivity
    have hbn : (b : ℝ) + 1 ≤ n := by exact_mod_cast han
    have hm : (n : ℝ) ^ (p - 1 / 2) ≤ ((b : ℝ) + 1) ^ (p - 1 / 2) :=
      Real.rpow_le_rpow_of_nonpos hb hbn (by linarith)
    rw [Nat.factorial_succ, Nat.cast_mul, Real.sqrt_mul (by positivity), div_pow] at hst
    push_cast at hst ⊢
    set Q : ℝ := ((b : ℝ) + 1) ^ (b + 1) / Real.exp 1 ^ (b + 1) with hQ
    have hQ0 : 0 < Q := by positivity
    have hs0 : 0 < Real.sqrt ((b : ℝ) + 1) := Real.sqrt_pos.mpr hb
    have e : ((b : ℝ) + 1) ^ (p - 1 / 2) * Real.sqrt ((b : ℝ) + 1) = ((b : ℝ) + 1) ^ p := by
      rw [Real.sqrt_eq_rpow, ← Real.rpow_add hb]
      congr 1
      ring
    have h2 : 2 * Real.sqrt ((b : ℝ) + 1) * Q ≤ ((b : ℝ) + 1) * (b.factorial : ℝ) := by
      refine le_trans ?_ hst
      have := two_le_sqrt
      exact mul_le_mul_of_nonneg_right (mul_le_mul_of_nonneg_right this hs0.le) hQ0.le
    have h3 : 2 * ((b : ℝ) + 1) ^ (p - 1 / 2) * Q ≤ (b.factorial : ℝ) * ((b : ℝ) + 1) ^ p := by
      have hr0 : 0 < ((b : ℝ) + 1) ^ (p - 1 / 2) := by positivity
      rw [← e]
      have hss : Real.sqrt ((b : ℝ) + 1) * Real.sqrt ((b : ℝ) + 1) = (b : ℝ) + 1 := Real.mul_self_sqrt hb.le
      have h4 : 2 * Q ≤ Real.sqrt ((b : ℝ) + 1) * (b.factorial : ℝ) := by
        rw [← mul_le_mul_iff_right₀ hs0]
        calc _ = 2 * Real.sqrt ((b : ℝ) + 1) * Q := by ring
          _ ≤ _ := h2
          _ = Real.sqrt ((b : ℝ) + 1) * (Real.sqrt ((b : ℝ) + 1) * (b.factorial : ℝ)) := by rw [← mul_assoc, hss]
      calc _ = ((b : ℝ) + 1) ^ (p - 1 / 2) * (2 * Q) := by ring
        _ ≤ _ := mul_le_mul_of_nonneg_left h4 hr0.le
        _ = _ := by ring
    calc 2 * p * (n : ℝ) ^ (p - 1 / 2) * Q ≤ 2 * p * ((b : ℝ) + 1) ^ (p - 1 / 2) * Q := by
          refine mul_le_mul_of_nonneg_right ?_ hQ0.le
          exact mul_le_mul_of_nonneg_left hm (by linarith)
      _ = p * (2 * ((b : ℝ) + 1) ^ (p - 1 / 2) * Q) := by ring
      _ ≤ p * ((b.factorial : ℝ) * ((b : ℝ) + 1) ^ p) := mul_le_mul_of_nonneg_left h3 hp.le
      _ = p * (b.factorial : ℝ) * ((b : ℝ) + 1) ^ p := by ring
      _ ≤ _ := hge

theorem pow_self_pos (c : ℕ) : (0 : ℝ) < (c : ℝ) ^ c := by
  rcases Nat.eq_zero_or_pos c with rfl | hc
  · norm_num
  · have : (0 : ℝ) < c := by exact_mod_cast hc
    positivity

variable {α : Type} [DecidableEq α]

/-- The probability that the KT estimator over the symbols of `S` gives to a sequence with these counts. -/
noncomputable def ktK (S : Finset α) (c : α → ℕ) : ℝ :=
  (∏ a ∈ S, riseP (1 / (S.card : ℝ)) (c a)) / ((∑ a ∈ S, c a).factorial : ℝ)

theorem ktK_pos {S : Finset α} (hS : S.Nonempty) (c : α → ℕ) : 0 < ktK S c := by
  have : (0 : ℝ) < S.card := by exact_mod_cast hS.card_pos
  exact div_pos (Finset.prod_pos fun a _ => riseP_pos (by positivity) _) (by positivity)

/-- The estimator against the maximal likelihood. -/
theorem ktK_lower {S : Finset α} (hk : 2 ≤ S.card) (c : α → ℕ) (hn : 1 ≤ ∑ a ∈ S, c a) :
    ∏ a ∈ S, (c a : ℝ) ^ c a ≤ Real.exp 1 * ((S.card : ℝ) / 2) ^ S.card *
      Real.sqrt ((∑ a ∈ S, c a : ℕ) : ℝ) ^ (S.card - 1) * ((∑ a ∈ S, c a : ℕ) : ℝ) ^ (∑ a ∈ S, c a) * ktK S c := by
  set n := ∑ a ∈ S, c a with hnd
  set k := S.card with hkd
  have hk' : (2 : ℝ) ≤ k := by exact_mod_cast hk
  have hk0 : (0 : ℝ) < k := by linarith
  have hp : (0 : ℝ) < 1 / k := by positivity
  have hp1 : (1 : ℝ) / k ≤ 1 / 2 := one_div_le_one_div_of_le (by norm_num) hk'
  have hn0 : (0 : ℝ) < n := by exact_mod_cast hn
  have hs : 0 < Real.sqrt n := Real.sqrt_pos.mpr hn0
  have h1 : ∏ a ∈ S, (2 * (1 / (k : ℝ)) * (n : ℝ) ^ (1 / (k : ℝ) - 1 / 2) * ((c a : ℝ) ^ c a / Real.exp 1 ^ c a)) ≤
      ∏ a ∈ S, riseP (1 / (k : ℝ)) (c a) := by
    refine Finset.prod_le_prod (fun a _ => ?_) fun a ha => ?_
    · have := pow_self_pos (c a)
      positivity
    · exact riseP_lower hp hp1 (Finset.single_le_sum (f := c) (fun _ _ => Nat.zero_le _) ha) hn
  rw [Finset.prod_mul_distrib, Finset.prod_const, Finset.prod_div_distrib, Finset.prod_pow_eq_pow_sum, ← hnd, ← hkd,
    mul_pow] at h1
  have e1 : ((n : ℝ) ^ (1 / (k : ℝ) - 1 / 2)) ^ k * Real.sqrt n ^ (k - 1) * Real.sqrt n = n := by
    rw [mul_assoc, ← pow_succ, Nat.sub_add_cancel (by omega), ← mul_pow, Real.sqrt_eq_rpow, ← Real.rpow_add hn0,
      ← Real.rpow_natCast, ← Real.rpow_mul hn0.le]
    have : (1 / (k : ℝ) - 1 / 2 + 1 / 2) * (k : ℝ) = 1 := by field_simp; ring
    rw [this, Real.rpow_one]
  have hf := Redundancy.factorial_le hn
  have hF : (0 : ℝ) < (n.factorial : ℝ) := by positivity
  set X := ∏ a ∈ S, (c a : ℝ) ^ c a with hX
  have hX0 : 0 < X := Finset.prod_pos fun a _ => pow_self_pos _
  have hE : (0 : ℝ) < Real.exp 1 ^ n := by positivity
  have hk2 : ((k : ℝ) / 2) ^ k * (2 * (1 / (k : ℝ))) ^ k = 1 := by
    rw [← mul_pow, show (k : ℝ) / 2 * (2 * (1 / (k : ℝ))) = 1 by field_simp, one_pow]
  unfold ktK
  rw [← hnd, ← hkd, mul_div_assoc', le_div_iff₀ hF]
  rw [div_pow] at hf
  set N : ℝ := (n : ℝ) ^ n with hN
  have hN0 : 0 < N := pow_self_pos n
  set R := ((n : ℝ) ^ (1 / (k : ℝ) - 1 / 2)) ^ k with hR
  have hR0 : 0 < R := by positivity
  set P := ∏ a ∈ S, riseP (1 / (k : ℝ)) (c a) with hP
  set K2 := ((k : ℝ) / 2) ^ k with hK2
  have hK20 : 0 < K2 := by positivity
  set T := Real.sqrt n ^ (k - 1) with hT
  have hT0 : 0 < T := by positivity
  calc X * (n.factorial : ℝ) ≤ X * (Real.exp 1 * Real.sqrt n * (N / Real.exp 1 ^ n)) :=
        mul_le_mul_of_nonneg_left hf hX0.le
    _ = Real.exp 1 * N * (X / Real.exp 1 ^ n) * Real.sqrt n := by ring
    _ ≤ Real.exp 1 * N * (X / Real.exp 1 ^ n) * (R * T) := by
        refine mul_le_mul_of_nonneg_left ?_ (by positivity)
        have hn1 : Real.sqrt n * Real.sqrt n = n := Real.mul_self_sqrt hn0.le
        have : R * T * Real.sqrt n = Real.sqrt n * Real.sqrt n := by rw [e1, hn1]
        exact (mul_right_cancel₀ hs.ne' this).ge
    _ = Real.exp 1 * N * T * (K2 * ((2 * (1 / (k : ℝ))) ^ k * R * (X / Real.exp 1 ^ n))) := by
        rw [show K2 * ((2 * (1 / (k : ℝ))) ^ k * R * (X / Real.exp 1 ^ n)) =
          (K2 * (2 * (1 / (k : ℝ))) ^ k) * (R * (X / Real.exp 1 ^ n)) by ring, hk2]
        ring
    _ ≤ Real.exp 1 * N * T * (K2 * P) := by
        refine mul_le_mul_of_nonneg_left (mul_le_mul_of_nonneg_left h1 hK20.le) (by positivity)
    _ = _ := by ring

/-- No source gives a sequence more than its relative frequencies do. -/
theorem cat_le {S : Finset α} {q : α → ℝ} (h0 : ∀ a ∈ S, 0 ≤ q a) (h1 : ∑ a ∈ S, q a ≤ 1) (c : α → ℕ) :
    ((∑ a ∈ S, c a : ℕ) : ℝ) ^ (∑ a ∈ S, c a) * ∏ a ∈ S, q a ^ c a ≤ ∏ a ∈ S, (c a : ℝ) ^ c a := by
  have key : ∀ (c : ℕ) (x : ℝ), 0 ≤ x → x ^ c ≤ (c : ℝ) ^ c * Real.exp (x - c) := by
    intro c x hx
    rcases Nat.eq_zero_or_pos c with rfl | hc
    · simpa using Real.one_le_exp hx
    · have hc' : (0 : ℝ) < c := by exact_mod_cast hc
      have h := Real.add_one_le_exp (x / c - 1)
      rw [sub_add_cancel] at h
      have h2 := pow_le_pow_left₀ (by positivity) h c
      rw [div_pow, div_le_iff₀ (by positivity), ← Real.exp_nat_mul] at h2
      refine h2.trans_eq ?_
      rw [mul_comm]
      congr 2
      field_simp
  set n := ∑ a ∈ S, c a with hn
  have hn0 : (0 : ℝ) ≤ n := by positivity
  rw [hn, ← Finset.prod_pow_eq_pow_sum, ← hn, ← Finset.prod_mul_distrib]
  calc ∏ a ∈ S, ((n : ℝ) ^ c a * q a ^ c a) ≤ ∏ a ∈ S, ((c a : ℝ) ^ c a * Real.exp (n * q a - c a)) := by
        refine Finset.prod_le_prod (fun a ha => ?_) fun a ha => ?_
        · have := h0 a ha
          positivity
        · rw [← mul_pow]
          exact key _ _ (mul_nonneg hn0 (h0 a ha))
    _ = (∏ a ∈ S, (c a : ℝ) ^ c a) * Real.exp (∑ a ∈ S, (n * q a - c a)) := by
        rw [Finset.prod_mul_distrib, Real.exp_sum]
    _ ≤ (∏ a ∈ S, (c a : ℝ) ^ c a) * 1 := by
        refine mul_le_mul_of_nonneg_left ?_ (Finset.prod_nonneg fun a _ => (pow_self_pos _).le)
        rw [Real.exp_le_one_iff, Finset.sum_sub_distrib, ← Finset.mul_sum]
        have : (∑ a ∈ S, (c a : ℝ)) = n := by rw [hn]; push_cast; rfl
        rw [this]
        nlinarith
    _ = _ := mul_one _

theorem cat_le_ktK {S : Finset α} (hk : 2 ≤ S.card) {q : α → ℝ} (h0 : ∀ a ∈ S, 0 ≤ q a) (h1 : ∑ a ∈ S, q a ≤ 1)
    (c : α → ℕ) (hn : 1 ≤ ∑ a ∈ S, c a) :
    ∏ a ∈ S, q a ^ c a ≤ Real.exp 1 * ((S.card : ℝ) / 2) ^ S.card *
      Real.sqrt ((∑ a ∈ S, c a : ℕ) : ℝ) ^ (S.card - 1) * ktK S c := by
  have hN := pow_self_pos (∑ a ∈ S, c a)
  have := (cat_le h0 h1 c).trans (ktK_lower hk c hn)
  rw [← mul_le_mul_iff_right₀ hN]
  linarith

/-- How often a symbol occurs. -/
def cnt (xs : List (Obs α)) (a : α) : ℕ := xs.countP fun o => o.sym = a

theorem cnt_cons (o : Obs α) (xs : List (Obs α)) (a : α) :
    cnt (o :: xs) a = cnt xs a + if o.sym = a then 1 else 0 := by
  simp [cnt, List.countP_cons]

theorem sum_cnt {S : Finset α} {xs : List (Obs α)} (hx : ∀ o ∈ xs, o.sym ∈ S) : ∑ a ∈ S, cnt xs a = xs.length := by
  induction xs with
  | nil => simp [cnt]
  | cons o xs ih =>
    simp only [cnt_cons, Finset.sum_add_distrib, ih fun o ho => hx o (by simp [ho])]
    rw [Finset.sum_ite_eq, if_pos (hx o (by simp))]
    rfl

theorem catProb_eq {S : Finset α} {xs : List (Obs α)} (hx : ∀ o ∈ xs, o.sym ∈ S) (q : α → ℝ) :
    catProb q xs = ∏ a ∈ S, q a ^ cnt xs a := by
  induction xs with
  | nil => simp [catProb, cnt]
  | cons o xs ih =>
    have := ih fun o ho => hx o (by simp [ho])
    unfold catProb at this ⊢
    simp only [List.map_cons, List.prod_cons, this, cnt_cons, pow_add, Finset.prod_mul_distrib]
    rw [mul_comm]
    congr 1
    have : ∀ a ∈ S, q a ^ (if o.sym = a then 1 else 0) = if o.sym = a then q a else 1 := by
      intro a _
      split_ifs <;> simp
    rw [Finset.prod_congr rfl this, Finset.prod_ite_eq, if_pos (hx o (by simp))]

theorem run_ktK {A : List α} (hA : A.Nodup) (hne : A ≠ []) {xs : List (Obs α)}
    (hx : ∀ o ∈ xs, o.sym ∈ A ∧ o.weight = 1) (c : α → ℕ) (s : KT α) (hg : KT.Good A s)
    (hc : ∀ a ∈ A, s.counts.get? a = some ((c a : ℝ) + 1 / (A.length : ℝ)))
    (hs : s.sumCounts = ((∑ a ∈ A.toFinset, c a : ℕ) : ℝ) + 1) :
    ∃ r s', KT.predictor.run s xs = .ok (r, s') ∧
      Real.exp r * ktK A.toFinset c = ktK A.toFinset fun a => c a + cnt xs a := by
  induction xs generalizing c s with
  | nil => exact ⟨0, s, rfl, by simp [cnt]⟩
  | cons o xs ih =>
    obtain ⟨b, h, w⟩ := o
    obtain ⟨hb, rfl⟩ : b ∈ A ∧ w = 1 := hx ⟨b, h, w⟩ (by simp)
    have hbS : b ∈ A.toFinset := by simpa using hb
    have hcard : (A.toFinset.card : ℝ) = A.length := by rw [List.toFinset_card_of_nodup hA]
    have hu := hg.update hb (hc b hb) 1
    have hg' := hg.step hb (hc b hb) (w := 1) zero_le_one
    set c' : α → ℕ := fun a => c a + if b = a then 1 else 0 with hc'
    have hsum : ∑ a ∈ A.toFinset, c' a = (∑ a ∈ A.toFinset, c a) + 1 := by
      rw [hc', Finset.sum_add_distrib, Finset.sum_ite_eq, if_pos hbS]
    have hpos : (0 : ℝ) < ((c b : ℝ) + 1 / (A.length : ℝ)) / s.sumCounts := by
      have : (0 : ℝ) < A.length := by exact_mod_cast List.length_pos_of_ne_nil hne
      rw [hs]
      positivity
    obtain ⟨r, s', hr, he⟩ := ih (fun o ho => hx o (by simp [ho])) c' _ hg' (by
      intro a ha
      by_cases hab : b = a
      · subst hab
        rw [PyDict.get?_set_self]
        simp [hc']
        ring
      · rw [PyDict.get?_set_other _ _ (Ne.symm hab), hc a ha]
        simp [hc', hab]) (by
      simp only [hs, hsum]
      push_cast
      ring)
    refine ⟨_, s', Predictor.run_cons_ok.mpr ⟨_, _, r, hu, hr, rfl⟩, ?_⟩
    have e : (fun a => c a + cnt (⟨b, h, 1⟩ :: xs) a) = fun a => c' a + cnt xs a := by
      funext a
      simp only [cnt_cons, hc']
      omega
    rw [e, ← he, Real.exp_add, Real.exp_log hpos]
    have step : ktK A.toFinset c' = ktK A.toFinset c * (((c b : ℝ) + 1 / (A.length : ℝ)) / s.sumCounts) := by
      unfold ktK
      rw [hsum, Nat.factorial_succ, hs]
      have hprod : ∏ a ∈ A.toFinset, riseP (1 / (A.toFinset.card : ℝ)) (c' a) =
          (∏ a ∈ A.toFinset, riseP (1 / (A.toFinset.card : ℝ)) (c a)) * ((c b : ℝ) + 1 / (A.length : ℝ)) := by
        have : ∀ a ∈ A.toFinset, riseP (1 / (A.toFinset.card : ℝ)) (c' a) =
            riseP (1 / (A.toFinset.card : ℝ)) (c a) * if b = a then ((c a : ℝ) + 1 / (A.length : ℝ)) else 1 := by
          intro a _
          by_cases hab : b = a
          · subst hab
            simp only [hc', if_true, riseP_succ, hcard]
          · simp [hc', hab]
        rw [Finset.prod_congr rfl this, Finset.prod_mul_distrib, Finset.prod_ite_eq, if_pos hbS]
      rw [hprod]
      push_cast
      field_simp
    rw [step]
    ring

theorem run_init {A : List α} (hA : A.Nodup) (hne : A ≠ []) {xs : List (Obs α)}
    (hx : ∀ o ∈ xs, o.sym ∈ A ∧ o.weight = 1) :
    ∃ s0 r s, KT.init A none = .ok s0 ∧ KT.predictor.run s0 xs = .ok (r, s) ∧
      Real.exp r = ktK A.toFinset (cnt xs) := by
  have h0 := KT.init_default hA hne
  obtain ⟨r, s, hr, he⟩ := run_ktK hA hne hx (fun _ => 0) _ (KT.good_default hne) (by
    intro a ha
    rw [KT.get?_map _ ha]
    simp) (by simp)
  refine ⟨_, r, s, h0, hr, ?_⟩
  simpa [ktK, riseP] using he

theorem one_le_catPrice (k n : ℕ) : 1 ≤ catPrice k n := le_max_left _ _

theorem catPrice_mono (k : ℕ) {n m : ℕ} (h : n ≤ m) : catPrice k n ≤ catPrice k m := by
  unfold catPrice
  have : Real.sqrt n ≤ Real.sqrt m := Real.sqrt_le_sqrt (by exact_mod_cast h)
  refine max_le_max le_rfl (mul_le_mul_of_nonneg_left ?_ (by positivity))
  exact pow_le_pow_left₀ (Real.sqrt_nonneg _) this _

theorem _root_.Verif.IsDist.finset {A : List α} (hA : A.Nodup) {q : α → ℝ} (hq : IsDist A q) :
    (∀ a ∈ A.toFinset, 0 ≤ q a) ∧ ∑ a ∈ A.toFinset, q a = 1 := by
  refine ⟨fun a ha => hq.1 a (by simpa using ha), ?_⟩
  rw [List.sum_toFinset _ hA]
  exact hq.2

theorem catProb_nonneg {A : List α} {q : α → ℝ} (hq : IsDist A q) {xs : List (Obs α)} (hx : ∀ o ∈ xs, o.sym ∈ A) :
    0 ≤ catProb q xs := by
  apply List.prod_nonneg
  intro x hx'
  obtain ⟨o, ho, rfl⟩ := List.mem_map.mp hx'
  exact hq.1 _ (hx o ho)

/-- The price bounds the loss on every sequence, the empty one and alphabets of one symbol included. -/
theorem catProb_le {A : List α} (hA : A.Nodup) (hne : A ≠ []) {s0 : KT α} (h0 : KT.init A none = .ok s0)
    {xs : List (Obs α)} (hx : ∀ o ∈ xs, o.sym ∈ A ∧ o.weight = 1) {q : α → ℝ} (hq : IsDist A q) :
    catProb q xs ≤ catPrice A.length xs.length * KT.predictor.seqProb s0 xs := by
  obtain ⟨s0', r, s, h0', hr, he⟩ := run_init hA hne hx
  rw [h0] at h0'
  cases h0'
  have hxS : ∀ o ∈ xs, o.sym ∈ A.toFinset := fun o ho => by simpa using (hx o ho).1
  have hsum := sum_cnt hxS
  have hcard := List.toFinset_card_of_nodup hA
  obtain ⟨q0, q1⟩ := hq.finset hA
  rw [Predictor.seqProb, hr]
  simp only [Predictor.probOf]
  rcases Nat.eq_zero_or_pos xs.length with hz | hn
  · have : xs = [] := List.length_eq_zero_iff.mp hz
    subst this
    simp only [catProb, List.map_nil, List.prod_nil]
    have : r = 0 := by
      simp only [Predictor.run, pure_eq_ok, Except.ok.injEq, Prod.mk.injEq] at hr
      exact hr.1.symm
    rw [this, Real.exp_zero, mul_one]
    exact one_le_catPrice _ _
  · rw [catProb_eq hxS]
    by_cases hk : 2 ≤ A.length
    · have h := cat_le_ktK (by rw [hcard]; exact hk) q0 q1.le (cnt xs) (by rw [hsum]; exact hn)
      rw [hsum, hcard, ← he] at h
      refine h.trans (mul_le_mul_of_nonneg_right ?_ (Real.exp_pos r).le)
      exact le_max_right _ _
    · have hk1 : A.length = 1 := by
        have := List.length_pos_of_ne_nil hne
        omega
      obtain ⟨a, rfl⟩ := List.length_eq_one_iff.mp hk1
      have hqa : q a = 1 := by simpa using q1
      have : Real.exp r = 1 := by
        rw [he]
        have hc : cnt xs a = xs.length := by simpa using hsum
        have hr1 : ∀ n : ℕ, riseP 1 n = (n.factorial : ℝ) := by
          intro n
          induction n with
          | zero => simp [riseP]
          | succ n ih =>
            rw [riseP_succ, ih, Nat.factorial_succ]
            push_cast
            ring
        simp only [ktK, List.toFinset_cons, List.toFinset_nil, insert_empty_eq, Finset.card_singleton,
          Finset.prod_singleton, Finset.sum_singleton, Nat.cast_one, div_one, hr1]
        exact div_self (by positivity)
      rw [this, mul_one]
      simp [hqa, one_le_catPrice]

end Categorical

end Verif
