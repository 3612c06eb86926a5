import Verif.Proofs.Minimax
import Verif.Proofs.Categorical

/-! The redundancy of the KT estimator with initial counts 1/2 over any alphabet, from both sides. -/

namespace Verif

open Real Stirling

namespace MinimaxMany

open Categorical

theorem riseP_lift (p : ℝ) (n : ℕ) : riseP (p + 1) n * p = riseP p n * (n + p) := by
  induction n with
  | zero => simp [riseP]
  | succ n ih =>
    rw [riseP_succ, riseP_succ]
    push_cast
    linear_combination ((n : ℝ) + (p + 1)) * ih

theorem riseP_half (n : ℕ) : riseP (1 / 2) n = Redundancy.rise n := rfl

theorem riseP_one (n : ℕ) : riseP 1 n = n.factorial := by
  induction n with
  | zero => simp [riseP]
  | succ n ih =>
    rw [riseP_succ, ih, Nat.factorial_succ]
    push_cast
    ring

theorem ratio_le_two (n : ℕ) : Redundancy.ratio n ≤ 2 := by
  have h1 := Redundancy.ratio_le n
  have h2 : exp 1 < 2.7182818286 := Real.exp_one_lt_d9
  have h3 : (1.7 : ℝ) ≤ √3 := by
    rw [Real.le_sqrt (by norm_num) (by norm_num)]
    norm_num
  have h4 := Redundancy.one_le_ratio n
  nlinarith

theorem half_bounds (n : ℕ) : (n : ℝ) ^ n ≤ riseP (1 / 2) n * exp 1 ^ n ∧ riseP (1 / 2) n * exp 1 ^ n ≤ 2 * (n : ℝ) ^ n := by
  have h1 := Redundancy.one_le_ratio n
  have h2 := ratio_le_two n
  have h3 := pow_self_pos n
  unfold Redundancy.ratio at h1 h2
  rw [le_div_iff₀ h3] at h1
  rw [div_le_iff₀ h3] at h2
  rw [riseP_half]
  constructor <;> linarith

theorem rise_lower {n : ℕ} (hn : 1 ≤ n) (m : ℕ) :
    √(n : ℝ) ^ m * (n : ℝ) ^ n ≤ ((m : ℝ) + 1) ^ (m + 1) * (riseP (((m : ℝ) + 1) / 2) n * exp 1 ^ n) := by
  have hn0 : (0 : ℝ) < n := by exact_mod_cast hn
  have hE : (0 : ℝ) < exp 1 ^ n := by positivity
  induction m using Nat.twoStepInduction with
  | zero => simpa using (half_bounds n).1
  | one =>
    have h := le_factorial_stirling n
    have hp := two_le_sqrt
    rw [Real.sqrt_mul (by positivity), div_pow, mul_div_assoc', div_le_iff₀ hE] at h
    norm_num [riseP_one, -Real.exp_one_pow]
    have h2 : √(n : ℝ) * (n : ℝ) ^ n ≤ √(2 * π) * √(n : ℝ) * (n : ℝ) ^ n := by
      have : 0 < √(n : ℝ) * (n : ℝ) ^ n := by positivity
      nlinarith
    have h3 : (0 : ℝ) < n.factorial * exp 1 ^ n := by positivity
    linarith
  | more m ih _ =>
    set p : ℝ := ((m : ℝ) + 1) / 2 with hp
    have hp0 : 0 < p := by positivity
    have e : (((m + 2 : ℕ) : ℝ) + 1) / 2 = p + 1 := by
      rw [hp]
      push_cast
      ring
    rw [e]
    have hl := riseP_lift p n
    have hr := riseP_pos hp0 n
    have hr1 := riseP_pos (show 0 < p + 1 by linarith) n
    have hsq := Real.mul_self_sqrt hn0.le
    have e2 : √(n : ℝ) ^ (m + 2) * (n : ℝ) ^ n = √(n : ℝ) ^ m * (n : ℝ) ^ n * n := by
      rw [pow_add, pow_two, hsq]
      ring
    rw [e2]
    have h1 : riseP p n * n ≤ riseP (p + 1) n * p := by
      rw [hl]
      nlinarith
    have h2 : ((m : ℝ) + 1) ^ (m + 1) * p ≤ (((m + 2 : ℕ) : ℝ) + 1) ^ (m + 2 + 1) := by
      have a1 : ((m : ℝ) + 1) ^ (m + 1) ≤ (((m + 2 : ℕ) : ℝ) + 1) ^ (m + 1) := by
        refine pow_le_pow_left₀ (by positivity) ?_ _
        push_cast
        linarith
      have a2 : p ≤ (((m + 2 : ℕ) : ℝ) + 1) ^ 2 := by
        rw [hp]
        push_cast
        have : (0 : ℝ) ≤ m := by positivity
        nlinarith
      calc ((m : ℝ) + 1) ^ (m + 1) * p ≤ (((m + 2 : ℕ) : ℝ) + 1) ^ (m + 1) * (((m + 2 : ℕ) : ℝ) + 1) ^ 2 :=
            mul_le_mul a1 a2 hp0.le (by positivity)
        _ = _ := by rw [← pow_add]
    calc √(n : ℝ) ^ m * (n : ℝ) ^ n * n ≤ ((m : ℝ) + 1) ^ (m + 1) * (riseP p n * exp 1 ^ n) * n :=
          mul_le_mul_of_nonneg_right ih hn0.le
      _ = ((m : ℝ) + 1) ^ (m + 1) * exp 1 ^ n * (riseP p n * n) := by ring
      _ ≤ ((m : ℝ) + 1) ^ (m + 1) * exp 1 ^ n * (riseP (p + 1) n * p) := mul_le_mul_of_nonneg_left h1 (by positivity)
      _ = ((m : ℝ) + 1) ^ (m + 1) * p * (riseP (p + 1) n * exp 1 ^ n) := by ring
      _ ≤ _ := mul_le_mul_of_nonneg_right h2 (by positivity)

theorem rise_upper {n : ℕ} (hn : 1 ≤ n) (m : ℕ) :
    riseP (((m : ℝ) + 1) / 2) n * exp 1 ^ n ≤ 2 * ((m : ℝ) + 1) * (√(n : ℝ) ^ m * (n : ℝ) ^ n) := by
  have hn1 : (1 : ℝ) ≤ n := by exact_mod_cast hn
  have hn0 : (0 : ℝ) < n := by linarith
  have hE : (0 : ℝ) < exp 1 ^ n := by positivity
  induction m using Nat.twoStepInduction with
  | zero => simpa using (half_bounds n).2
  | one =>
    have h := Redundancy.factorial_le hn
    have he : exp 1 < 2.7182818286 := Real.exp_one_lt_d9
    rw [div_pow, mul_div_assoc', le_div_iff₀ hE] at h
    norm_num [riseP_one, -Real.exp_one_pow]
    have : 0 < √(n : ℝ) * (n : ℝ) ^ n := by positivity
    nlinarith
  | more m ih _ =>
    set p : ℝ := ((m : ℝ) + 1) / 2 with hp
    have hp0 : 0 < p := by positivity
    have e : (((m + 2 : ℕ) : ℝ) + 1) / 2 = p + 1 := by
      rw [hp]
      push_cast
      ring
    have e3 : 2 * (((m + 2 : ℕ) : ℝ) + 1) = 4 * (p + 1) := by
      rw [hp]
      push_cast
      ring
    rw [e, e3]
    have e4 : 2 * ((m : ℝ) + 1) = 4 * p := by rw [hp]; ring
    rw [e4] at ih
    have hl := riseP_lift p n
    have hr := riseP_pos hp0 n
    have hsq := Real.mul_self_sqrt hn0.le
    have e2 : √(n : ℝ) ^ (m + 2) * (n : ℝ) ^ n = √(n : ℝ) ^ m * (n : ℝ) ^ n * n := by
      rw [pow_add, pow_two, hsq]
      ring
    rw [e2]
    refine le_of_mul_le_mul_right (a := p) ?_ hp0
    have h1 : (n : ℝ) + p ≤ n * (1 + p) := by nlinarith
    have h2 : 0 < √(n : ℝ) ^ m * (n : ℝ) ^ n := by positivity
    calc riseP (p + 1) n * exp 1 ^ n * p = riseP p n * exp 1 ^ n * (n + p) := by linear_combination exp 1 ^ n * hl
      _ ≤ riseP p n * exp 1 ^ n * (n * (1 + p)) := mul_le_mul_of_nonneg_left h1 (by positivity)
      _ ≤ 4 * p * (√(n : ℝ) ^ m * (n : ℝ) ^ n) * (n * (1 + p)) := mul_le_mul_of_nonneg_right ih (by positivity)
      _ = _ := by ring

variable {α : Type} [DecidableEq α]

/-- The probability that the KT estimator over the symbols of `S`, with initial counts `p`, gives to a sequence with these counts. -/
noncomputable def ktC (p : ℝ) (S : Finset α) (c : α → ℕ) : ℝ :=
  (∏ a ∈ S, riseP p (c a)) / riseP (S.card * p) (∑ a ∈ S, c a)

theorem ktC_lower {S : Finset α} (hS : 1 ≤ S.card) (c : α → ℕ) (hn : 1 ≤ ∑ a ∈ S, c a) :
    ∏ a ∈ S, (c a : ℝ) ^ c a ≤ 2 * S.card * √((∑ a ∈ S, c a : ℕ) : ℝ) ^ (S.card - 1) *
      ((∑ a ∈ S, c a : ℕ) : ℝ) ^ (∑ a ∈ S, c a) * ktC (1 / 2) S c := by
  set n := ∑ a ∈ S, c a with hN
  have hk0 : (0 : ℝ) < S.card := by exact_mod_cast hS
  have hR : 0 < riseP (S.card * (1 / 2)) n := riseP_pos (by positivity) n
  have hE : (0 : ℝ) < exp 1 ^ n := by positivity
  have h1 : ∏ a ∈ S, (c a : ℝ) ^ c a ≤ (∏ a ∈ S, riseP (1 / 2) (c a)) * exp 1 ^ n := by
    rw [hN, ← Finset.prod_pow_eq_pow_sum, ← Finset.prod_mul_distrib]
    exact Finset.prod_le_prod (fun a _ => (pow_self_pos _).le) fun a _ => (half_bounds _).1
  have h2 := rise_upper hn (S.card - 1)
  have e : (((S.card - 1 : ℕ) : ℝ) + 1) = S.card := by
    rw [Nat.cast_sub hS]
    simp
  rw [e, show (S.card : ℝ) / 2 = S.card * (1 / 2) by ring] at h2
  have hP : 0 < ∏ a ∈ S, riseP (1 / 2) (c a) := Finset.prod_pos fun a _ => riseP_pos (by norm_num) _
  refine h1.trans ?_
  unfold ktC
  rw [mul_div_assoc', le_div_iff₀ hR]
  have := mul_le_mul_of_nonneg_left h2 hP.le
  linarith

theorem ktC_upper {S : Finset α} (hS : 1 ≤ S.card) (c : α → ℕ) (hn : 1 ≤ ∑ a ∈ S, c a) :
    √((∑ a ∈ S, c a : ℕ) : ℝ) ^ (S.card - 1) * ((∑ a ∈ S, c a : ℕ) : ℝ) ^ (∑ a ∈ S, c a) * ktC (1 / 2) S c ≤
      (2 * (S.card : ℝ)) ^ S.card * ∏ a ∈ S, (c a : ℝ) ^ c a := by
  set n := ∑ a ∈ S, c a with hN
  have hk0 : (0 : ℝ) < S.card := by exact_mod_cast hS
  have hR : 0 < riseP (S.card * (1 / 2)) n := riseP_pos (by positivity) n
  have hE : (0 : ℝ) < exp 1 ^ n := by positivity
  have h1 : (∏ a ∈ S, riseP (1 / 2) (c a)) * exp 1 ^ n ≤ 2 ^ S.card * ∏ a ∈ S, (c a : ℝ) ^ c a := by
    rw [hN, ← Finset.prod_pow_eq_pow_sum, ← Finset.prod_mul_distrib, ← Finset.prod_const, ← Finset.prod_mul_distrib]
    refine Finset.prod_le_prod (fun a _ => ?_) fun a _ => (half_bounds _).2
    have := riseP_pos (show (0 : ℝ) < 1 / 2 by norm_num) (c a)
    positivity
  have h2 := rise_lower hn (S.card - 1)
  have e : (((S.card - 1 : ℕ) : ℝ) + 1) = S.card := by
    rw [Nat.cast_sub hS]
    simp
  rw [e, show (S.card : ℝ) / 2 = S.card * (1 / 2) by ring, Nat.sub_add_cancel hS] at h2
  have hP : 0 < ∏ a ∈ S, riseP (1 / 2) (c a) := Finset.prod_pos fun a _ => riseP_pos (by norm_num) _
  unfold ktC
  rw [mul_div_assoc', div_le_iff₀ hR]
  refine le_of_mul_le_mul_right (a := exp 1 ^ n) ?_ hE
  calc √(n : ℝ) ^ (S.card - 1) * (n : ℝ) ^ n * (∏ a ∈ S, riseP (1 / 2) (c a)) * exp 1 ^ n
      = √(n : ℝ) ^ (S.card - 1) * (n : ℝ) ^ n * ((∏ a ∈ S, riseP (1 / 2) (c a)) * exp 1 ^ n) := by ring
    _ ≤ (S.card : ℝ) ^ S.card * (riseP (S.card * (1 / 2)) n * exp 1 ^ n) * (2 ^ S.card * ∏ a ∈ S, (c a : ℝ) ^ c a) :=
        mul_le_mul h2 h1 (by positivity) (by positivity)
    _ = _ := by rw [mul_pow]; ring

theorem run_ktC {p : ℝ} (hp : 0 < p) {A : List α} (hA : A.Nodup) (hne : A ≠ []) {xs : List (Obs α)}
    (hx : ∀ o ∈ xs, o.sym ∈ A ∧ o.weight = 1) (c : α → ℕ) (s : KT α) (hg : KT.Good A s)
    (hc : ∀ a ∈ A, s.counts.get? a = some ((c a : ℝ) + p))
    (hs : s.sumCounts = ((∑ a ∈ A.toFinset, c a : ℕ) : ℝ) + A.length * p) :
    ∃ r s', KT.predictor.run s xs = .ok (r, s') ∧
      Real.exp r * ktC p A.toFinset c = ktC p A.toFinset fun a => c a + cnt xs a := by
  induction xs generalizing c s with
  | nil => exact ⟨0, s, rfl, by simp [cnt]⟩
  | cons o xs ih =>
    obtain ⟨b, h, w⟩ := o
    obtain ⟨hb, rfl⟩ : b ∈ A ∧ w = 1 := hx ⟨b, h, w⟩ (by simp)
    have hbS : b ∈ A.toFinset := by simpa using hb
    have hl0 : (0 : ℝ) < A.length := by exact_mod_cast List.length_pos_of_ne_nil hne
    have hcard : (A.toFinset.card : ℝ) = A.length := by rw [List.toFinset_card_of_nodup hA]
    have hu := hg.update hb (hc b hb) 1
    have hg' := hg.step hb (hc b hb) (w := 1) zero_le_one
    set c' : α → ℕ := fun a => c a + if b = a then 1 else 0 with hc'
    have hsum : ∑ a ∈ A.toFinset, c' a = (∑ a ∈ A.toFinset, c a) + 1 := by
      rw [hc', Finset.sum_add_distrib, Finset.sum_ite_eq, if_pos hbS]
    have hs0 : 0 < s.sumCounts := by
      rw [hs]
      positivity
    have hpos : (0 : ℝ) < ((c b : ℝ) + p) / s.sumCounts := by positivity
    obtain ⟨r, s', hr, he⟩ := ih (fun o ho => hx o (by simp [ho])) c' _ hg' (by
      intro a ha
      by_cases hab : b = a
      · subst hab
        rw [PyDict.get?_set_self]
        simp [hc']
        ring
      · rw [PyDict.get?_set_other _ _ (Ne.symm hab), hc a ha]
        simp [hc', hab]) (by
      simp only [hs, hsum]
      push_cast
      ring)
    refine ⟨_, s', Predictor.run_cons_ok.mpr ⟨_, _, r, hu, hr, rfl⟩, ?_⟩
    have e : (fun a => c a + cnt (⟨b, h, 1⟩ :: xs) a) = fun a => c' a + cnt xs a := by
      funext a
      simp only [cnt_cons, hc']
      omega
    rw [e, ← he, Real.exp_add, Real.exp_log hpos]
    have step : ktC p A.toFinset c' = ktC p A.toFinset c * (((c b : ℝ) + p) / s.sumCounts) := by
      unfold ktC
      rw [hsum, riseP_succ, hcard, ← hs]
      have hprod : ∏ a ∈ A.toFinset, riseP p (c' a) = (∏ a ∈ A.toFinset, riseP p (c a)) * ((c b : ℝ) + p) := by
        have : ∀ a ∈ A.toFinset, riseP p (c' a) = riseP p (c a) * if b = a then ((c a : ℝ) + p) else 1 := by
          intro a _
          by_cases hab : b = a
          · subst hab
            simp only [hc', if_true, riseP_succ]
          · simp [hc', hab]
        rw [Finset.prod_congr rfl this, Finset.prod_mul_distrib, Finset.prod_ite_eq, if_pos hbS]
      rw [hprod, mul_div_mul_comm]
    rw [step]
    ring

theorem run_equal {p : ℝ} (hp : 0 < p) {A : List α} (hA : A.Nodup) (hne : A ≠ []) {xs : List (Obs α)}
    (hx : ∀ o ∈ xs, o.sym ∈ A ∧ o.weight = 1) :
    ∃ s0 r s, KT.init A (some (A.map fun a => (a, p))) = .ok s0 ∧ KT.Good A s0 ∧ KT.predictor.run s0 xs = .ok (r, s) ∧
      Real.exp r = ktC p A.toFinset (cnt xs) := by
  have h0 := KT.init_counts hA (d := A.map fun a => (a, p)) (by simpa using hne) (fun _ => p) (fun a ha => KT.get?_map _ ha)
  have hg : KT.Good A _ := KT.good_of_map (A := A) (fun _ => p) (fun _ _ => hp)
  obtain ⟨r, s, hr, he⟩ := run_ktC hp hA hne hx (fun _ => 0) _ hg (by
    intro a ha
    rw [KT.get?_map _ ha]
    simp) (by simp [PyDict.values])
  refine ⟨_, r, s, h0, hg, hr, ?_⟩
  simpa [ktC, riseP] using he

end MinimaxMany

end Verif
