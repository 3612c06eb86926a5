import Verif.Spec.Convergence
import Verif.Proofs.KT
import Mathlib.Algebra.Order.BigOperators.Ring.Finset
import Mathlib.Analysis.SpecialFunctions.Log.Basic
import Mathlib.Algebra.BigOperators.Fin

/-!
# Predictions converge to the source (C145)
-/

namespace Verif

variable {σ α : Type}

/-- One term of the relative entropy, with the square of a difference of roots. -/
theorem entropy_term {p q : ℝ} (hp : 0 < p) (hq : 0 ≤ q) : (√q - √p) ^ 2 + q - p ≤ q * (Real.log q - Real.log p) := by
  rcases hq.eq_or_lt with rfl | hq
  · simp [Real.sq_sqrt hp.le]
  have h1 : Real.log (√p / √q) ≤ √p / √q - 1 := Real.log_le_sub_one_of_pos (div_pos (Real.sqrt_pos.mpr hp) (Real.sqrt_pos.mpr hq))
  rw [Real.log_div (Real.sqrt_pos.mpr hp).ne' (Real.sqrt_pos.mpr hq).ne', Real.log_sqrt hp.le, Real.log_sqrt hq.le] at h1
  have h2 : q * (√p / √q) = √q * √p := by
    have h3 := (Real.sqrt_pos.mpr hq).ne'
    nth_rw 1 [← Real.mul_self_sqrt hq.le]
    field_simp
  have h4 := mul_le_mul_of_nonneg_left h1 hq.le
  have h5 := Real.sq_sqrt hq.le
  have h6 := Real.sq_sqrt hp.le
  nlinarith

theorem list_sum_fin (A : List α) (f : α → ℝ) : (A.map f).sum = ∑ i : Fin A.length, f A[i] := by
  rw [← List.sum_ofFn]
  congr 1
  apply List.ext_getElem <;> simp

/-- The square of the distance is at most four times the relative entropy. -/
theorem distance_sq {A : List α} {p q : α → ℝ} (hp : ∀ a ∈ A, 0 < p a) (hp1 : (A.map p).sum = 1) (hq : IsDist A q) :
    distance A p q ^ 2 ≤ 4 * (A.map fun a => q a * (Real.log (q a) - Real.log (p a))).sum := by
  obtain ⟨hq0, hq1⟩ := hq
  unfold distance
  rw [list_sum_fin] at *
  rw [list_sum_fin] at *
  have hp' : ∀ i : Fin A.length, 0 < p A[i] := fun i => hp _ (List.getElem_mem _)
  have hq' : ∀ i : Fin A.length, 0 ≤ q A[i] := fun i => hq0 _ (List.getElem_mem _)
  have e : ∀ i : Fin A.length, |p A[i] - q A[i]| = |√(q A[i]) - √(p A[i])| * (√(q A[i]) + √(p A[i])) := by
    intro i
    rw [← abs_of_nonneg (add_nonneg (Real.sqrt_nonneg (q A[i])) (Real.sqrt_nonneg (p A[i]))), ← abs_mul, abs_sub_comm]
    congr 1
    have h5 := Real.sq_sqrt (hq' i)
    have h6 := Real.sq_sqrt (hp' i).le
    linear_combination h6 - h5
  simp only [e]
  refine (Finset.sum_mul_sq_le_sq_mul_sq _ _ _).trans ?_
  simp only [sq_abs]
  have h1 : ∑ i : Fin A.length, (√(q A[i]) - √(p A[i])) ^ 2 ≤ ∑ i : Fin A.length, q A[i] * (Real.log (q A[i]) - Real.log (p A[i])) := by
    have := Finset.sum_le_sum fun (i : Fin A.length) (_ : i ∈ Finset.univ) => entropy_term (hp' i) (hq' i)
    rw [Finset.sum_sub_distrib, Finset.sum_add_distrib, hq1, hp1] at this
    linarith
  have h2 : ∑ i : Fin A.length, (√(q A[i]) + √(p A[i])) ^ 2 ≤ 4 := by
    have : ∑ i : Fin A.length, (√(q A[i]) + √(p A[i])) ^ 2 ≤ ∑ i : Fin A.length, (2 * q A[i] + 2 * p A[i]) := by
      refine Finset.sum_le_sum fun i _ => ?_
      have h5 := Real.sq_sqrt (hq' i)
      have h6 := Real.sq_sqrt (hp' i).le
      nlinarith [sq_nonneg (√(q A[i]) - √(p A[i]))]
    rw [Finset.sum_add_distrib, ← Finset.mul_sum, ← Finset.mul_sum, hq1, hp1] at this
    linarith
  have h3 : 0 ≤ ∑ i : Fin A.length, (√(q A[i]) - √(p A[i])) ^ 2 := Finset.sum_nonneg fun _ _ => sq_nonneg _
  calc _ ≤ (∑ i : Fin A.length, (√(q A[i]) - √(p A[i])) ^ 2) * 4 := mul_le_mul_of_nonneg_left h2 h3
    _ ≤ _ := by linarith

/-- Sources on the symbols of `A`, after the symbols `h`. -/
def IsSource (A : List α) (q : List α → α → ℝ) (h : List α) : Prop := ∀ xs, (∀ x ∈ xs, x ∈ A) → IsDist A (q (h ++ xs))

theorem IsSource.here {A : List α} {q : List α → α → ℝ} {h : List α} (H : IsSource A q h) : IsDist A (q h) := by
  simpa using H [] (by simp)

theorem IsSource.next {A : List α} {q : List α → α → ℝ} {h : List α} (H : IsSource A q h) {a : α} (ha : a ∈ A) : IsSource A q (h ++ [a]) := by
  intro xs hx
  have := H (a :: xs) (by simpa using ⟨ha, hx⟩)
  simpa using this

theorem sum_map_le {A : List α} {f g : α → ℝ} (h : ∀ a ∈ A, f a ≤ g a) : (A.map f).sum ≤ (A.map g).sum :=
  List.sum_le_sum h

theorem sum_map_add' {A : List α} {f g : α → ℝ} : (A.map fun a => f a + g a).sum = (A.map f).sum + (A.map g).sum := by
  induction A with
  | nil => simp
  | cons a A ih => simp only [List.map_cons, List.sum_cons, ih]; ring

theorem sum_map_const_mul {A : List α} {f : α → ℝ} {c : ℝ} : (A.map fun a => f a * c).sum = (A.map f).sum * c := by
  induction A with
  | nil => simp
  | cons a A ih => simp only [List.map_cons, List.sum_cons, ih]; ring

theorem expect_mono {A : List α} {q : List α → α → ℝ} : ∀ (n : ℕ) {h : List α} {F G : List α → ℝ}, IsSource A q h →
    (∀ xs, xs.length = n → (∀ x ∈ xs, x ∈ A) → F xs ≤ G xs) → expect A q n h F ≤ expect A q n h G
  | 0, _, _, _, _, hFG => hFG [] rfl (by simp)
  | n + 1, h, F, G, H, hFG => by
    refine sum_map_le fun a ha => mul_le_mul_of_nonneg_left (expect_mono n (H.next ha) fun xs hl hx => ?_) (H.here.1 a ha)
    exact hFG (a :: xs) (by simp [hl]) (by simpa using ⟨ha, hx⟩)

theorem expect_add {A : List α} {q : List α → α → ℝ} : ∀ (n : ℕ) {h : List α} (c : ℝ) (F : List α → ℝ), IsSource A q h →
    expect A q n h (fun xs => c + F xs) = c + expect A q n h F
  | 0, _, _, _, _ => rfl
  | n + 1, h, c, F, H => by
    have : ∀ a ∈ A, q h a * expect A q n (h ++ [a]) (fun xs => c + F (a :: xs)) = q h a * c + q h a * expect A q n (h ++ [a]) fun xs => F (a :: xs) := by
      intro a ha
      rw [expect_add n c (fun xs => F (a :: xs)) (H.next ha)]
      ring
    rw [expect, List.map_congr_left this, sum_map_add', sum_map_const_mul, H.here.2, one_mul]
    rfl

theorem expect_scale {A : List α} {q : List α → α → ℝ} : ∀ (n : ℕ) {h : List α} (c : ℝ) (F : List α → ℝ),
    expect A q n h (fun xs => F xs * c) = expect A q n h F * c
  | 0, _, _, _ => rfl
  | n + 1, h, c, F => by
    rw [expect, expect, ← sum_map_const_mul]
    congr 1
    apply List.map_congr_left
    intro a _
    rw [expect_scale n c (fun xs => F (a :: xs)), mul_assoc]

namespace Predictor

variable {P : Predictor σ α} {I : σ → Prop} {A : List α} {W : ℝ → Prop}

/-- The relative entropy of `n` symbols. -/
noncomputable def entropy (P : Predictor σ α) (A : List α) (q : List α → α → ℝ) : ℕ → σ → List α → ℝ
  | 0, _, _ => 0
  | n + 1, s, h => (A.map fun a => q h a * (Real.log (q h a) - Real.log (probOf (P.update s a h 1)) +
      match P.update s a h 1 with
      | .ok (_, t) => entropy P A q n t (h ++ [a])
      | .error _ => 0)).sum

theorem seqProb_drawn {s t : σ} {r : ℝ} {h : List α} {x : α} {xs : List α} (hu : P.update s x h 1 = .ok (r, t)) :
    P.seqProb s (drawn h (x :: xs)) = Real.exp r * P.seqProb t (drawn (h ++ [x]) xs) := by
  unfold seqProb
  rw [drawn, run, hu, ok_bind]
  cases hr : P.run t (drawn (h ++ [x]) xs) with
  | error e => simp [probOf, hr, bind, Except.bind]
  | ok v => simp [probOf, hr, bind, Except.bind, pure, Except.pure, Real.exp_add]

theorem seqProb_pos (hP : P.UpdateLawful I A W) (hw : W 1) : ∀ (xs : List α) {s : σ} {h : List α}, I s → (∀ x ∈ xs, x ∈ A) →
    0 < P.seqProb s (drawn h xs)
  | [], s, h, _, _ => by simp [seqProb, drawn, run, probOf, pure, Except.pure]
  | x :: xs, s, h, hs, hx => by
    obtain ⟨r, t, hu, ht⟩ := hP.total s x h 1 hs (hx x (by simp)) hw
    rw [seqProb_drawn hu]
    exact mul_pos (Real.exp_pos _) (seqProb_pos hP hw xs ht fun y hy => hx y (by simp [hy]))

theorem entropy_le (hP : P.UpdateLawful I A W) (hw : W 1) {q : List α → α → ℝ} : ∀ (n : ℕ) {s : σ} {h : List α} {R : ℝ}, I s → IsSource A q h →
    (∀ xs, xs.length = n → (∀ x ∈ xs, x ∈ A) → srcProb q h xs ≤ Real.exp R * P.seqProb s (drawn h xs)) → P.entropy A q n s h ≤ R
  | 0, s, h, R, _, _, hR => by
    have := hR [] rfl (by simp)
    simp only [srcProb, drawn, seqProb, run, probOf, pure, Except.pure, Real.exp_zero, mul_one] at this
    rw [entropy]
    exact Real.one_le_exp_iff.mp this
  | n + 1, s, h, R, hs, H, hR => by
    have : ∀ a ∈ A, q h a * (Real.log (q h a) - Real.log (probOf (P.update s a h 1)) +
        match P.update s a h 1 with
        | .ok (_, t) => entropy P A q n t (h ++ [a])
        | .error _ => 0) ≤ q h a * R := by
      intro a ha
      rcases (H.here.1 a ha).eq_or_lt with h0 | h0
      · rw [← h0]; simp
      refine mul_le_mul_of_nonneg_left ?_ h0.le
      obtain ⟨r, t, hu, ht⟩ := hP.total s a h 1 hs ha hw
      have ih := entropy_le hP hw n (R := R - (Real.log (q h a) - r)) ht (H.next ha) (q := q) fun xs hl hx => by
        have := hR (a :: xs) (by simp [hl]) (by simpa using ⟨ha, hx⟩)
        rw [srcProb, seqProb_drawn hu] at this
        rw [Real.exp_sub, Real.exp_sub, Real.exp_log h0]
        have hr := Real.exp_pos r
        rw [show Real.exp R / (q h a / Real.exp r) * P.seqProb t (drawn (h ++ [a]) xs) =
          Real.exp R * (Real.exp r * P.seqProb t (drawn (h ++ [a]) xs)) / q h a by field_simp, le_div_iff₀ h0]
        linarith
      simp only [hu, probOf, Real.log_exp]
      linarith
    calc _ ≤ (A.map fun a => q h a * R).sum := sum_map_le this
      _ = R := by rw [sum_map_const_mul, H.here.2, one_mul]

theorem errors_le (hP : P.UpdateLawful I A W) (hw : W 1) {q : List α → α → ℝ} : ∀ (n : ℕ) {s : σ} {h : List α}, I s → IsSource A q h →
    expect A q n h (P.errors A q (· ^ 2) s h) ≤ 4 * P.entropy A q n s h
  | 0, s, h, _, _ => by simp [expect, errors, entropy]
  | n + 1, s, h, hs, H => by
    set D := distance A (fun a => probOf (P.update s a h 1)) (q h) ^ 2 with hD
    have hd : D ≤ 4 * (A.map fun a => q h a * (Real.log (q h a) - Real.log (probOf (P.update s a h 1)))).sum := by
      refine distance_sq (fun a ha => ?_) (hP.sum_probOf hs hw h) H.here
      obtain ⟨r, t, hu, _⟩ := hP.total s a h 1 hs ha hw
      simp only [hu, probOf]
      exact Real.exp_pos _
    have h1 : ∀ a ∈ A, q h a * expect A q n (h ++ [a]) (fun xs => P.errors A q (· ^ 2) s h (a :: xs)) ≤ q h a * D + q h a * (
        match P.update s a h 1 with
        | .ok (_, t) => entropy P A q n t (h ++ [a])
        | .error _ => 0) * 4 := by
      intro a ha
      obtain ⟨r, t, hu, ht⟩ := hP.total s a h 1 hs ha hw
      have ih := errors_le hP hw n ht (H.next ha)
      simp only [errors, hu, ← hD]
      rw [expect_add n D _ (H.next ha)]
      have := mul_le_mul_of_nonneg_left ih (H.here.1 a ha)
      have e : ((fun xs => P.errors A q (· ^ 2) t (h ++ [a]) xs) : List α → ℝ) = P.errors A q (· ^ 2) t (h ++ [a]) := rfl
      linarith
    have h2 := sum_map_le h1
    rw [sum_map_add', sum_map_const_mul, sum_map_const_mul, H.here.2] at h2
    rw [expect, entropy]
    simp only [mul_add]
    rw [sum_map_add']
    linarith

theorem errors_mono (hP : P.UpdateLawful I A W) (hw : W 1) {q : List α → α → ℝ} {g k : ℝ → ℝ} (c : ℝ) (hgk : ∀ x, g x ≤ k x * c) :
    ∀ (xs : List α) {s : σ} {h : List α}, I s → (∀ x ∈ xs, x ∈ A) → P.errors A q g s h xs ≤ P.errors A q k s h xs * c
  | [], s, h, _, _ => by simp [errors]
  | x :: xs, s, h, hs, hx => by
    obtain ⟨r, t, hu, ht⟩ := hP.total s x h 1 hs (hx x (by simp)) hw
    simp only [errors, hu]
    have := errors_mono hP hw c hgk xs (h := h ++ [x]) (q := q) ht fun y hy => hx y (by simp [hy])
    have := hgk (distance A (fun a => probOf (P.update s a h 1)) (q h))
    linarith

end Predictor

end Verif
