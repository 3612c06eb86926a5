import Verif.Model.LogSumExp

/-! Lemmas about `logsumexp` and `logsumexp2`. -/

namespace Verif

theorem exp_log05 : Real.exp log05 = 1 / 2 := Real.exp_log (by norm_num)

theorem logsumexp2_eq (a b : ℝ) : logsumexp2 a b = Real.log (Real.exp a + Real.exp b) := by
  have key : ∀ x y : ℝ, y + Real.log (1 + Real.exp (x - y)) = Real.log (Real.exp x + Real.exp y) := by
    intro x y
    have h1 : Real.exp x + Real.exp y = Real.exp y * (1 + Real.exp (x - y)) := by
      rw [mul_add, ← Real.exp_add]
      ring_nf
    rw [h1, Real.log_mul (Real.exp_pos y).ne' (by positivity), Real.log_exp]
  unfold logsumexp2
  split_ifs with h
  · exact key a b
  · rw [key b a, add_comm]

theorem exp_logsumexp2 (a b : ℝ) : Real.exp (logsumexp2 a b) = Real.exp a + Real.exp b := by
  rw [logsumexp2_eq, Real.exp_log (by positivity)]

/-- The step used by every tree model: `log ½ + logsumexp2 a b` is the log of the average. -/
theorem exp_half_lse2 (a b : ℝ) :
    Real.exp (log05 + logsumexp2 a b) = 1 / 2 * Real.exp a + 1 / 2 * Real.exp b := by
  rw [Real.exp_add, exp_log05, exp_logsumexp2]
  ring

theorem half_lse2_eq_log (a b : ℝ) :
    log05 + logsumexp2 a b = Real.log (1 / 2 * Real.exp a + 1 / 2 * Real.exp b) := by
  rw [← exp_half_lse2, Real.log_exp]

theorem logsumexp2_self (a : ℝ) : log05 + logsumexp2 a a = a := by
  rw [half_lse2_eq_log]
  rw [show (1:ℝ) / 2 * Real.exp a + 1 / 2 * Real.exp a = Real.exp a by ring, Real.log_exp]

theorem sum_exp_pos {v : ℝ} {vs : List ℝ} : 0 < (((v :: vs).map Real.exp).sum) := by
  simp only [List.map_cons, List.sum_cons]
  have : 0 ≤ (vs.map Real.exp).sum := by
    apply List.sum_nonneg
    intro x hx
    obtain ⟨y, _, rfl⟩ := List.mem_map.mp hx
    exact (Real.exp_pos y).le
  have := Real.exp_pos v
  linarith

theorem sum_exp_shift (l : List ℝ) (s : ℝ) :
    (l.map fun u => Real.exp (u - s)).sum = Real.exp (-s) * (l.map Real.exp).sum := by
  induction l with
  | nil => simp
  | cons a l ih =>
    simp only [List.map_cons, List.sum_cons, ih, mul_add, ← Real.exp_add]
    ring_nf

theorem logsumexp_eq {l : List ℝ} (h : l ≠ []) :
    logsumexp l = .ok (Real.log ((l.map Real.exp).sum)) := by
  cases l with
  | nil => exact absurd rfl h
  | cons v vs =>
    unfold logsumexp
    simp only
    rw [sum_exp_shift, pyLog_of_pos (mul_pos (Real.exp_pos _) sum_exp_pos)]
    simp only [ok_bind, pure_eq_ok, Except.ok.injEq]
    rw [Real.log_mul (Real.exp_pos _).ne' sum_exp_pos.ne', Real.log_exp]
    ring

theorem logsumexp_ok_iff {l : List ℝ} {r : ℝ} :
    logsumexp l = .ok r ↔ l ≠ [] ∧ r = Real.log ((l.map Real.exp).sum) := by
  by_cases h : l = []
  · subst h
    simp [logsumexp]
  · rw [logsumexp_eq h]
    simp [h, eq_comm]

theorem foldl_max_ge (vs : List ℝ) (v : ℝ) : v ≤ vs.foldl max v := by
  induction vs generalizing v with
  | nil => simp
  | cons a vs ih => exact le_trans (le_max_left v a) (ih _)

theorem le_maxOf {v : ℝ} {vs : List ℝ} {x : ℝ} (hx : x ∈ v :: vs) : x ≤ maxOf v vs := by
  unfold maxOf
  induction vs generalizing v with
  | nil =>
    simp only [List.mem_singleton] at hx
    simp [hx]
  | cons a vs ih =>
    simp only [List.foldl_cons]
    rcases List.mem_cons.mp hx with rfl | hx
    · exact le_trans (le_max_left _ _) (foldl_max_ge vs _)
    · rcases List.mem_cons.mp hx with rfl | hx
      · exact le_trans (le_max_right _ _) (foldl_max_ge vs _)
      · exact ih (List.mem_cons_of_mem _ hx)

theorem maxOf_mem (v : ℝ) (vs : List ℝ) : maxOf v vs ∈ v :: vs := by
  unfold maxOf
  induction vs generalizing v with
  | nil => simp
  | cons a vs ih =>
    simp only [List.foldl_cons]
    have := ih (max v a)
    rcases List.mem_cons.mp this with h | h
    · rw [h]
      rcases max_choice v a with h' | h' <;> simp [h']
    · simp [h]

end Verif
