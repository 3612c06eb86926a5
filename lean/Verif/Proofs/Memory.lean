import Verif.Spec.Memory
import Verif.Proofs.PTWPredict
import Verif.Proofs.FMN
import Mathlib.Data.Nat.Digits.Lemmas
import Mathlib.Algebra.BigOperators.Intervals
import Mathlib.Tactic.Ring

namespace Verif

namespace Memory

theorem ones_zero : ones 0 = 0 := rfl

theorem ones_double (n : ℕ) : ones (2 * n) = ones n := by
  rcases Nat.eq_zero_or_pos n with rfl | h
  · rfl
  · rw [ones, ones, Nat.digits_def' (by norm_num) (by omega), List.sum_cons]
    rw [show 2 * n / 2 = n by omega, show 2 * n % 2 = 0 by omega, Nat.zero_add]

theorem ones_double_add (n : ℕ) : ones (2 * n + 1) = ones n + 1 := by
  rw [ones, ones, Nat.digits_def' (by norm_num) (by omega), List.sum_cons]
  rw [show (2 * n + 1) / 2 = n by omega, show (2 * n + 1) % 2 = 1 by omega, Nat.add_comm]

theorem ones_add (k : ℕ) : ∀ r, r < 2 ^ k → ones (2 ^ k + r) = ones r + 1 := by
  induction k with
  | zero =>
    intro r hr
    have : r = 0 := by simpa using hr
    subst this
    rw [pow_zero, show 1 + 0 = 2 * 0 + 1 from rfl, ones_double_add]
  | succ k ih =>
    intro r hr
    have hr' : r / 2 < 2 ^ k := by rw [pow_succ] at hr; omega
    have := ih _ hr'
    rcases Nat.mod_two_eq_zero_or_one r with h | h
    · have e : r = 2 * (r / 2) := by omega
      rw [show 2 ^ (k + 1) + r = 2 * (2 ^ k + r / 2) by rw [pow_succ]; omega, ones_double, this, ← ones_double (r / 2), ← e]
    · have e : r = 2 * (r / 2) + 1 := by omega
      rw [show 2 ^ (k + 1) + r = 2 * (2 ^ k + r / 2) + 1 by rw [pow_succ]; omega, ones_double_add, this,
        ← ones_double_add (r / 2), ← e]

theorem sum_ones (k : ℕ) : 2 * ∑ i ∈ Finset.range (2 ^ k), ones i = k * 2 ^ k := by
  induction k with
  | zero => simp [ones_zero]
  | succ k ih =>
    have : ∀ n, ∑ i ∈ Finset.range (2 * n), ones i = 2 * ∑ i ∈ Finset.range n, ones i + n := by
      intro n
      induction n with
      | zero => simp
      | succ n ihn =>
        rw [show 2 * (n + 1) = 2 * n + 1 + 1 by ring, Finset.sum_range_succ, Finset.sum_range_succ, ihn, Finset.sum_range_succ, ones_double,
          ones_double_add]
        ring
    rw [pow_succ, mul_comm (2 ^ k) 2, this, mul_add, ih]
    ring

theorem sum_blocks (m : ℕ) (f : ℕ → ℕ) (n : ℕ) :
    ∑ i ∈ Finset.range (2 ^ m * n), f (i / 2 ^ m) = 2 ^ m * ∑ i ∈ Finset.range n, f i := by
  induction n with
  | zero => simp
  | succ n ih =>
    rw [mul_add, mul_one, Finset.sum_range_add, ih, Finset.sum_range_succ, mul_add]
    congr 1
    rw [Finset.sum_congr rfl (g := fun _ => f n)]
    · simp
    · intro i hi
      rw [Nat.mul_add_div (by positivity), Nat.div_eq_of_lt (Finset.mem_range.mp hi), Nat.add_zero]

/-- The base models of a tree have seen the symbols since the beginnings of the blocks. -/
theorem rep_starts {σ α : Type} {P : Predictor σ α} {fr : ℕ → σ} {m t : ℕ} {n : PTWNode σ} {xs : List (Obs α)}
    (h : PTWNode.Rep P fr m t n xs) (hne : xs ≠ []) : ∃ ss : List ℕ, ss.Pairwise (· < ·) ∧ (∀ st, st ∈ ss ↔ IsStart m xs.length st) ∧
      ss.length = ones ((xs.length - 1) / 2 ^ m) + 1 ∧ (∀ st ∈ ss, st < xs.length) ∧
      List.Forall₂ (fun st b => ∃ r, P.run (fr (t + st)) (xs.drop st) = .ok (r, b)) ss n.bases := by
  induction h with
  | @leaf t d xs h1 h2 h3 h4 =>
    have hpos := List.length_pos_iff.mpr hne
    have hz : ∀ j, m ≤ j → (xs.length - 1) / 2 ^ j = 0 := fun j hj =>
      Nat.div_eq_of_lt (lt_of_lt_of_le (by omega) (Nat.pow_le_pow_right (by norm_num) hj))
    refine ⟨[0], by simp, ?_, ?_, by simpa using hpos, .cons ⟨_, h1.run⟩ .nil⟩
    · intro st
      simp only [List.mem_singleton, IsStart]
      constructor
      · rintro rfl
        exact ⟨m, le_rfl, by rw [hz m le_rfl, mul_zero]⟩
      · rintro ⟨j, hj, rfl⟩
        rw [hz j hj, mul_zero]
    · rw [hz m le_rfl]
      rfl
  | @inner t k d r xs h1 h2 h3 h4 h5 h6 h7 ih =>
    have hlen : (xs.drop (2 ^ (m + k))).length = xs.length - 2 ^ (m + k) := List.length_drop
    have hdr : xs.drop (2 ^ (m + k)) ≠ [] := by
      intro h
      rw [h] at hlen
      simp only [List.length_nil] at hlen
      omega
    obtain ⟨ss, g1, g2, g3, g5, g4⟩ := ih hdr
    rw [hlen] at g2 g3 g5
    have hpow : 2 ^ (m + (k + 1)) = 2 ^ (m + k) + 2 ^ (m + k) := by
      rw [show m + (k + 1) = m + k + 1 by omega, pow_succ]; ring
    obtain ⟨q, hq⟩ : ∃ q, xs.length = 2 ^ (m + k) + q + 1 := ⟨xs.length - 2 ^ (m + k) - 1, by omega⟩
    have hq2 : q < 2 ^ (m + k) := by omega
    have e1 : xs.length - 1 = 2 ^ (m + k) + q := by omega
    have e2 : xs.length - 2 ^ (m + k) - 1 = q := by omega
    have hsm : ∀ j, m ≤ j → j ≤ m + k → 2 ^ j * ((2 ^ (m + k) + q) / 2 ^ j) = 2 ^ (m + k) + 2 ^ j * (q / 2 ^ j) := by
      intro j _ hj
      obtain ⟨i, hi⟩ : ∃ i, k + m = j + i := ⟨k + m - j, by omega⟩
      rw [show m + k = j + i by omega, pow_add, Nat.mul_add_div (by positivity), mul_add]
    have hlg : ∀ j, m + k < j → 2 ^ j * ((2 ^ (m + k) + q) / 2 ^ j) = 0 := by
      intro j hj
      rw [Nat.div_eq_of_lt, mul_zero]
      have : 2 ^ (m + (k + 1)) ≤ 2 ^ j := Nat.pow_le_pow_right (by norm_num) (by omega)
      omega
    refine ⟨0 :: ss.map (2 ^ (m + k) + ·), ?_, ?_, ?_, ?_, ?_⟩
    · rw [List.pairwise_cons]
      refine ⟨?_, ?_⟩
      · intro x hx
        obtain ⟨y, _, rfl⟩ := List.mem_map.mp hx
        have : 0 < 2 ^ (m + k) := by positivity
        omega
      · rw [List.pairwise_map]
        exact g1.imp fun h => by omega
    · intro st
      simp only [List.mem_cons, List.mem_map, g2, IsStart, e1, e2]
      constructor
      · rintro (rfl | ⟨y, ⟨j, hj, rfl⟩, rfl⟩)
        · exact ⟨m + k + 1, by omega, (hlg _ (by omega)).symm⟩
        · by_cases hjk : j ≤ m + k
          · exact ⟨j, hj, (hsm j hj hjk).symm⟩
          · refine ⟨m + k, by omega, ?_⟩
            have : q / 2 ^ j = 0 := Nat.div_eq_of_lt (lt_of_lt_of_le hq2 (Nat.pow_le_pow_right (by norm_num) (by omega)))
            rw [hsm _ (by omega) le_rfl, this, Nat.div_eq_of_lt hq2, mul_zero, mul_zero]
      · rintro ⟨j, hj, rfl⟩
        by_cases hjk : j ≤ m + k
        · exact .inr ⟨_, ⟨j, hj, rfl⟩, (hsm j hj hjk).symm⟩
        · exact .inl (hlg j (by omega))
    · rw [List.length_cons, List.length_map, g3, e1, e2, pow_add, Nat.mul_add_div (by positivity), ones_add]
      rw [Nat.div_lt_iff_lt_mul (by positivity), mul_comm, ← pow_add]
      exact hq2
    · intro st hst
      rcases List.mem_cons.mp hst with rfl | hst
      · omega
      · obtain ⟨y, hy, rfl⟩ := List.mem_map.mp hst
        have := g5 y hy
        omega
    · refine .cons ⟨_, h1.run⟩ ?_
      rw [List.forall₂_map_left_iff]
      refine g4.imp fun st b ⟨r, hr⟩ => ⟨r, ?_⟩
      rw [List.drop_drop] at hr
      rw [← hr, ← Nat.add_assoc]

theorem updateModels_length {σ α : Type} {P : Predictor σ α} {a : α} {h : List α} {w : ℝ} : ∀ {ms ms' : List (σ × ℝ)},
    Averager.updateModels P a h w ms = .ok ms' → ms'.length = ms.length := by
  intro ms
  induction ms with
  | nil =>
    intro ms' h
    cases h
    rfl
  | cons p ms ih =>
    intro ms' h
    simp only [Averager.updateModels, bind_eq_ok, pure_eq_ok, Except.ok.injEq] at h
    obtain ⟨x, _, y, hy, rfl⟩ := h
    simp [ih hy]

theorem run_length {σ α : Type} {P : Predictor σ α} (xs : List (Obs α)) : ∀ {s s' : Averager σ} {r : ℝ},
    (Averager.predictor P).run s xs = .ok (r, s') → s'.models.length = s.models.length := by
  induction xs with
  | nil =>
    intro s s' r h
    cases h
    rfl
  | cons o xs ih =>
    intro s s' r h
    simp only [Predictor.run, bind_eq_ok, pure_eq_ok, Except.ok.injEq] at h
    obtain ⟨⟨q, s1⟩, h1, ⟨q2, s2⟩, h2, h3⟩ := h
    simp only [Prod.mk.injEq] at h3
    obtain ⟨_, rfl⟩ := h3
    have h4 := ih h2
    have h5 : Averager.update P s o.sym o.hist o.weight = .ok (q, s1) := h1
    simp only [Averager.update, bind_eq_ok, pure_eq_ok, Except.ok.injEq, Prod.mk.injEq] at h5
    obtain ⟨ms, h6, lp, _, _, rfl⟩ := h5
    rw [h4]
    exact updateModels_length h6

theorem copies_length {σ α : Type} {P : Predictor σ α} : ∀ {ms ys : List σ}, FMN.copies P ms = .ok ys → ys.length = ms.length := by
  intro ms
  induction ms with
  | nil =>
    intro ys h
    cases h
    rfl
  | cons x ms ih =>
    intro ys h
    simp only [FMN.copies, bind_eq_ok, pure_eq_ok, Except.ok.injEq] at h
    obtain ⟨y, _, zs, hz, rfl⟩ := h
    simp [ih hz]

theorem modelFactory_length {σ α : Type} {P : Predictor σ α} {ms : List σ} {v : Averager σ} (h : FMN.modelFactory P ms = .ok v) :
    v.models.length = ms.length := by
  simp only [FMN.modelFactory, Averager.init, bind_eq_ok, pure_eq_ok, Except.ok.injEq] at h
  obtain ⟨ys, hy, q, _, l, _, rfl⟩ := h
  simpa using copies_length hy

end Memory

end Verif
