import Verif.Model.Vectors
import Mathlib.Analysis.SpecificLimits.Basic
import Mathlib.Algebra.BigOperators.Field

/-! Lemmas about the vector functions. -/

namespace Verif

namespace Vectors

theorem sum_eq_range (l : List ℝ) : l.sum = ∑ k ∈ Finset.range l.length, l.getD k 0 := by
  induction l with
  | nil => simp
  | cons x xs ih =>
    rw [List.length_cons, Finset.sum_range_succ', List.sum_cons, ih]
    simp [add_comm]

theorem discountLoop_eq (g : ℝ) (r : List ℝ) :
    discountLoop g r = (List.range r.length).map fun i =>
      ∑ k ∈ Finset.range (r.length - i), g ^ k * r.getD (i + k) 0 := by
  induction r with
  | nil => rfl
  | cons x xs ih =>
    rw [List.length_cons, List.range_succ_eq_map, List.map_cons, List.map_map]
    have htail : (List.range xs.length).map ((fun i => ∑ k ∈ Finset.range (xs.length + 1 - i), g ^ k * (x :: xs).getD (i + k) 0) ∘
        Nat.succ) = discountLoop g xs := by
      rw [ih]
      apply List.map_congr_left
      intro i _
      simp only [Function.comp, Nat.succ_eq_add_one]
      rw [Nat.add_sub_add_right]
      apply Finset.sum_congr rfl
      intro k _
      rw [show i + 1 + k = (i + k) + 1 by omega, List.getD_cons_succ]
    rw [htail]
    have hhead : (∑ k ∈ Finset.range (xs.length + 1 - 0), g ^ k * (x :: xs).getD (0 + k) 0) =
        x + g * ∑ k ∈ Finset.range xs.length, g ^ k * xs.getD k 0 := by
      rw [Nat.sub_zero, Finset.sum_range_succ', Finset.mul_sum, add_comm]
      congr 1
      · simp
      · apply Finset.sum_congr rfl
        intro k _
        rw [show 0 + (k + 1) = k + 1 by omega, List.getD_cons_succ, pow_succ]
        ring
    rw [hhead]
    cases xs with
    | nil => simp [discountLoop]
    | cons y ys =>
      have h0 : discountLoop g (y :: ys) =
          (∑ k ∈ Finset.range (y :: ys).length, g ^ k * (y :: ys).getD k 0) :: (discountLoop g (y :: ys)).tail := by
        conv_lhs => rw [ih]
        rw [ih]
        rw [List.length_cons, List.range_succ_eq_map, List.map_cons, List.tail_cons]
        simp
      rw [discountLoop]
      rw [h0]

theorem pySlice_sum (r : List ℝ) (i h : ℕ) (hi : i < r.length) :
    (pySlice r i (min ((i : ℤ) + (h : ℤ)) r.length)).sum =
      ∑ k ∈ Finset.range (min h (r.length - i)), r.getD (i + k) 0 := by
  have hn : ¬ min ((i : ℤ) + (h : ℤ)) r.length < 0 := by omega
  have hs : (min ((i : ℤ) + (h : ℤ)) r.length).toNat = min (i + h) r.length := by omega
  rw [pySlice, if_neg hn, hs, sum_eq_range]
  have hlen : ((r.take (min (i + h) r.length)).drop i).length = min h (r.length - i) := by
    rw [List.length_drop, List.length_take]
    omega
  simp only [hlen]
  apply Finset.sum_congr rfl
  intro k hk
  rw [Finset.mem_range] at hk
  rw [List.getD_eq_getElem?_getD, List.getD_eq_getElem?_getD, List.getElem?_drop, List.getElem?_take_of_lt (by omega)]

theorem foldl_max_le (xs : List ℝ) (x : ℝ) : x ≤ xs.foldl max x ∧ (∀ y ∈ xs, y ≤ xs.foldl max x) ∧
    (xs.foldl max x = x ∨ xs.foldl max x ∈ xs) := by
  induction xs generalizing x with
  | nil => simp
  | cons z zs ih =>
    obtain ⟨h1, h2, h3⟩ := ih (max x z)
    simp only [List.foldl_cons]
    refine ⟨(le_max_left x z).trans h1, ?_, ?_⟩
    · intro y hy
      rcases List.mem_cons.mp hy with rfl | hy
      · exact (le_max_right x y).trans h1
      · exact h2 y hy
    · rcases h3 with h3 | h3
      · rw [h3]
        rcases max_choice x z with h | h
        · left; exact h
        · right; rw [h]; simp
      · right; simp [h3]

theorem foldl_min_le (xs : List ℝ) (x : ℝ) : xs.foldl min x ≤ x ∧ (∀ y ∈ xs, xs.foldl min x ≤ y) ∧
    (xs.foldl min x = x ∨ xs.foldl min x ∈ xs) := by
  induction xs generalizing x with
  | nil => simp
  | cons z zs ih =>
    obtain ⟨h1, h2, h3⟩ := ih (min x z)
    simp only [List.foldl_cons]
    refine ⟨h1.trans (min_le_left x z), ?_, ?_⟩
    · intro y hy
      rcases List.mem_cons.mp hy with rfl | hy
      · exact h1.trans (min_le_right x y)
      · exact h2 y hy
    · rcases h3 with h3 | h3
      · rw [h3]
        rcases min_choice x z with h | h
        · left; exact h
        · right; rw [h]; simp
      · right; simp [h3]

/-- `pyMax` returns a largest element. -/
theorem pyMax_spec {f : List ℝ} (hf : f ≠ []) : ∃ m, pyMax f = .ok m ∧ m ∈ f ∧ ∀ x ∈ f, x ≤ m := by
  obtain ⟨x, xs, rfl⟩ := List.exists_cons_of_ne_nil hf
  obtain ⟨h1, h2, h3⟩ := foldl_max_le xs x
  refine ⟨_, rfl, ?_, ?_⟩
  · rcases h3 with h3 | h3
    · rw [h3]; simp
    · simp [h3]
  · intro y hy
    rcases List.mem_cons.mp hy with rfl | hy
    · exact h1
    · exact h2 y hy

/-- `pyMin` returns a smallest element. -/
theorem pyMin_spec {f : List ℝ} (hf : f ≠ []) : ∃ m, pyMin f = .ok m ∧ m ∈ f ∧ ∀ x ∈ f, m ≤ x := by
  obtain ⟨x, xs, rfl⟩ := List.exists_cons_of_ne_nil hf
  obtain ⟨h1, h2, h3⟩ := foldl_min_le xs x
  refine ⟨_, rfl, ?_, ?_⟩
  · rcases h3 with h3 | h3
    · rw [h3]; simp
    · simp [h3]
  · intro y hy
    rcases List.mem_cons.mp hy with rfl | hy
    · exact h1
    · exact h2 y hy

theorem traceLoop_length (c m : ℝ) (b : Bool) (p : ℝ) (xs : List ℝ) : (traceLoop c m b p xs).length = xs.length := by
  induction xs generalizing p with
  | nil => rfl
  | cons x xs ih => simp [traceLoop, ih]

/-- The accumulating trace after a first value. -/
theorem traceLoop_eq (c m p : ℝ) (xs : List ℝ) :
    p :: traceLoop c m false p xs = (List.range (xs.length + 1)).map fun t =>
      c ^ t * p + ∑ k ∈ Finset.range t, c ^ k * xs.getD (t - 1 - k) 0 := by
  induction xs generalizing p with
  | nil => simp [traceLoop]
  | cons x xs ih =>
    have hu : traceLoop c m false p (x :: xs) = (x + c * p) :: traceLoop c m false (x + c * p) xs := rfl
    rw [hu, List.length_cons, List.range_succ_eq_map, List.map_cons]
    congr 1
    · simp
    · rw [ih, List.map_map]
      apply List.map_congr_left
      intro t _
      simp only [Function.comp, Nat.succ_eq_add_one]
      rw [Finset.sum_range_succ, show t + 1 - 1 - t = 0 by omega, List.getD_cons_zero, pow_succ]
      have : ∑ k ∈ Finset.range t, c ^ k * (x :: xs).getD (t + 1 - 1 - k) 0 =
          ∑ k ∈ Finset.range t, c ^ k * xs.getD (t - 1 - k) 0 := by
        apply Finset.sum_congr rfl
        intro k hk
        rw [Finset.mem_range] at hk
        rw [show t + 1 - 1 - k = (t - 1 - k) + 1 by omega, List.getD_cons_succ]
      rw [this]
      ring

/-- The replacing trace lies between the feature and the largest value. -/
theorem traceLoop_replacing (c m p : ℝ) (xs : List ℝ) (hm : ∀ x ∈ xs, x ≤ m) :
    (∀ d ∈ traceLoop c m true p xs, d ≤ m) ∧
    (0 ≤ c → 0 ≤ p → (∀ x ∈ xs, 0 ≤ x) → ∀ (i : ℕ) (h : i < xs.length),
      xs[i] ≤ (traceLoop c m true p xs).getD i 0) := by
  induction xs generalizing p with
  | nil => simp [traceLoop]
  | cons x xs ih =>
    have hu : traceLoop c m true p (x :: xs) = min (x + c * p) m :: traceLoop c m true (min (x + c * p) m) xs := rfl
    obtain ⟨h1, h2⟩ := ih (min (x + c * p) m) fun y hy => hm y (by simp [hy])
    rw [hu]
    constructor
    · intro d hd
      rcases List.mem_cons.mp hd with rfl | hd
      · exact min_le_right _ _
      · exact h1 d hd
    · intro hc hp hx i hi
      have hx0 := hx x (by simp)
      have hcp : 0 ≤ c * p := mul_nonneg hc hp
      have hxm := hm x (by simp)
      cases i with
      | zero => simpa using ⟨hcp, hxm⟩
      | succ i =>
        simp only [List.getElem_cons_succ, List.getD_cons_succ]
        refine h2 hc ?_ (fun y hy => hx y (by simp [hy])) i (by simpa using hi)
        exact le_min (by linarith) (by linarith)

theorem convolve_window (a : List ℝ) (n k : ℕ) (hn : 1 ≤ n) (hk1 : n - 1 ≤ k) (hk2 : k < a.length) :
    (∑ j ∈ Finset.range a.length, if j ≤ k ∧ k - j < (List.replicate n (1 / (n : ℝ))).length then
      a.getD j 0 * (List.replicate n (1 / (n : ℝ))).getD (k - j) 0 else 0) =
      (∑ m ∈ Finset.range n, a.getD (k - (n - 1) + m) 0) / n := by
  rw [List.length_replicate, Finset.sum_div, ← Finset.sum_filter]
  symm
  apply Finset.sum_nbij' (fun m => k - (n - 1) + m) (fun j => j - (k - (n - 1)))
  · intro m hm
    simp only [Finset.mem_range, Finset.mem_filter] at hm ⊢
    omega
  · intro j hj
    simp only [Finset.mem_range, Finset.mem_filter] at hj ⊢
    omega
  · intro m hm
    simp only [Finset.mem_range] at hm
    omega
  · intro j hj
    simp only [Finset.mem_range, Finset.mem_filter] at hj
    omega
  · intro m hm
    simp only [Finset.mem_range] at hm
    have : (List.replicate n (1 / (n : ℝ))).getD (k - (k - (n - 1) + m)) 0 = 1 / (n : ℝ) := by
      rw [List.getD_eq_getElem?_getD, List.getElem?_replicate_of_lt (by omega)]
      rfl
    rw [this]
    ring

theorem runningMean_eq (data : List ℝ) (n : ℕ) (hn : 2 ≤ n) (hd : data ≠ []) :
    runningMean data n = .ok ((List.range (data.length + 1 - n)).map fun i =>
      (∑ m ∈ Finset.range n, data.getD (i + m) 0) / n) := by
  have hv : List.replicate n (1 / (n : ℝ)) ≠ [] := by
    intro h
    have := congrArg List.length h
    simp only [List.length_replicate, List.length_nil] at this
    omega
  have hl : 1 ≤ data.length := List.length_pos_of_ne_nil hd
  simp only [runningMean, convolve, hd, hv, or_self, if_false, ok_bind, pure_eq_ok]
  congr 1
  rw [sliceToMinus, if_neg (by omega), List.length_map, List.length_range, List.length_replicate]
  apply List.ext_getElem?
  intro i
  rw [List.getElem?_drop]
  by_cases hi : i < data.length + 1 - n
  · rw [List.getElem?_take_of_lt (by omega), List.getElem?_map, List.getElem?_map, List.getElem?_range (by omega),
      List.getElem?_range hi, Option.map_some, Option.map_some]
    have := convolve_window data n (n - 1 + i) (by omega) (by omega) (by omega)
    rw [List.length_replicate] at this
    rw [this, show n - 1 + i - (n - 1) = i by omega]
  · rw [List.getElem?_eq_none (by simp; omega), List.getElem?_eq_none (by simp; omega)]

theorem logSumExp_eq (v : List ℝ) (hv : v ≠ []) : logSumExp v = .ok (Real.log ((v.map Real.exp).sum)) := by
  obtain ⟨m, h1, h2, h3⟩ := pyMax_spec hv
  have hpos : ∀ l : List ℝ, l ≠ [] → 0 < (l.map Real.exp).sum := by
    intro l hl
    apply List.sum_pos
    · intro x hx
      obtain ⟨y, _, rfl⟩ := List.mem_map.mp hx
      exact Real.exp_pos y
    · simpa using hl
  have he : (v.map fun x => Real.exp (x - m)).sum = (v.map Real.exp).sum / Real.exp m := by
    clear h1 h2 h3 hv
    induction v with
    | nil => simp
    | cons x xs ih => rw [List.map_cons, List.map_cons, List.sum_cons, List.sum_cons, ih, Real.exp_sub, add_div]
  have hp := hpos v hv
  simp only [logSumExp, h1, ok_bind, he]
  rw [pyLog_of_pos (div_pos hp (Real.exp_pos m))]
  simp only [ok_bind, pure_eq_ok]
  rw [Real.log_div hp.ne' (Real.exp_pos m).ne', Real.log_exp]
  congr 1
  ring

end Vectors

end Verif
