import Verif.Props.Learners
import Verif.Props.Larger
import Verif.Props.Range

/-!
# C149: partition trees split reluctantly

The more levels a partition tree has, the nearer its answers are to those of a single base model.  On data that do not change, one base model is better than
any partition: KT predicts a repeated symbol better than the partition tree over KT, and the loss of the partition tree falls with its depth.
-/

namespace Verif

open Predictor LPTW

section Steady

variable {K : ℕ → ℝ}

/-- The mixture over partitions of `n` symbols if a base model gives any `i` symbols the probability `K i`. -/
noncomputable def steady (K : ℕ → ℝ) (m : ℕ) : ℕ → ℕ → ℝ
  | 0, n => K n
  | k + 1, n => 1/2 * K n + 1/2 * (steady K m k (min (2 ^ (m + k)) n) * steady K m k (n - 2 ^ (m + k)))

theorem steady_eq {β : Type} {p : ℕ → List β → ℝ} {V : β → Prop} (hp : ∀ t xs, (∀ x ∈ xs, V x) → p t xs = K xs.length) (m k : ℕ) : ∀ (t : ℕ) (xs : List β),
    (∀ x ∈ xs, V x) → ptwProb p m k t xs = steady K m k xs.length := by
  induction k with
  | zero => exact hp
  | succ k ih =>
    intro t xs hx
    rw [ptwProb, steady, hp t xs hx, ih _ _ fun x h => hx x (List.mem_of_mem_take h), ih _ _ fun x h => hx x (List.mem_of_mem_drop h),
      List.length_take, List.length_drop]

variable (h0 : K 0 = 1) (hK : ∀ n, 0 < K n)

include h0 in
theorem steady_zero (m k : ℕ) : steady K m k 0 = 1 := by
  induction k with
  | zero => exact h0
  | succ k ih => simp [steady, h0, ih]; norm_num

include hK in
theorem steady_pos (m k n : ℕ) : 0 < steady K m k n := by
  induction k generalizing n with
  | zero => exact hK n
  | succ k ih =>
    have a := hK n
    have b := ih (min (2 ^ (m + k)) n)
    have c := ih (n - 2 ^ (m + k))
    simp only [steady]
    positivity

variable (hR : StrictMono fun n => K (n + 1) / K n)

include hK in
theorem ratio_step (n : ℕ) : K (n + 1) = K (n + 1) / K n * K n := by
  have := (hK n).ne'
  field_simp

include h0 hK hR in
theorem steady_step (m k : ℕ) : ∀ n, n < 2 ^ (m + k) → steady K m k (n + 1) ≤ K (n + 1) / K n * steady K m k n ∧
    K 1 * steady K m k n ≤ steady K m k (n + 1) := by
  induction k with
  | zero =>
    intro n _
    simp only [steady]
    refine ⟨(ratio_step hK n).le, ?_⟩
    have h := mul_le_mul_of_nonneg_right (hR.monotone (Nat.zero_le n)) (hK n).le
    simp only [h0, zero_add, div_one] at h
    rwa [← ratio_step hK n] at h
  | succ k ih =>
    intro n hn
    have hp : (2 : ℕ) ^ (m + (k + 1)) = 2 ^ (m + k) + 2 ^ (m + k) := by rw [← add_assoc, pow_succ]; ring
    have e := ratio_step hK n
    have r0 := mul_le_mul_of_nonneg_right (hR.monotone (Nat.zero_le n)) (hK n).le
    simp only [h0, zero_add, div_one] at r0
    rw [← e] at r0
    simp only [steady]
    rcases lt_or_ge n (2 ^ (m + k)) with h | h
    · obtain ⟨i1, i2⟩ := ih n h
      rw [min_eq_right (by omega), min_eq_right (by omega), Nat.sub_eq_zero_of_le (by omega : n + 1 ≤ 2 ^ (m + k)), Nat.sub_eq_zero_of_le h.le, steady_zero h0]
      constructor <;> linarith
    · obtain ⟨i1, i2⟩ := ih (n - 2 ^ (m + k)) (by omega)
      rw [min_eq_left (by omega), min_eq_left h, show n + 1 - 2 ^ (m + k) = n - 2 ^ (m + k) + 1 by omega]
      have a := steady_pos hK m k (2 ^ (m + k))
      have b := steady_pos hK m k (n - 2 ^ (m + k))
      have r1 := mul_le_mul_of_nonneg_right (hR.monotone (Nat.sub_le n (2 ^ (m + k)))) b.le
      have j1 := mul_le_mul_of_nonneg_left (i1.trans r1) a.le
      have j2 := mul_le_mul_of_nonneg_left i2 a.le
      constructor <;> linarith

include h0 hK hR in
/-- Once a partition of the symbols is possible, the mixture predicts the next one less well than one base model, and better than a new one. -/
theorem steady_lt (m k : ℕ) : ∀ n, 2 ^ m ≤ n → n < 2 ^ (m + k) → steady K m k (n + 1) < K (n + 1) / K n * steady K m k n ∧
    K 1 * steady K m k n < steady K m k (n + 1) := by
  induction k with
  | zero => intro n h1 h2; simp at h2; omega
  | succ k ih =>
    intro n hm hn
    have hp : (2 : ℕ) ^ (m + (k + 1)) = 2 ^ (m + k) + 2 ^ (m + k) := by rw [← add_assoc, pow_succ]; ring
    have hpos : 0 < 2 ^ m := by positivity
    have hpos' : 0 < 2 ^ (m + k) := by positivity
    have e := ratio_step hK n
    have r0 := mul_lt_mul_of_pos_right (hR (show 0 < n by omega)) (hK n)
    simp only [h0, zero_add, div_one] at r0
    rw [← e] at r0
    simp only [steady]
    rcases lt_or_ge n (2 ^ (m + k)) with h | h
    · obtain ⟨i1, i2⟩ := ih n hm h
      rw [min_eq_right (by omega), min_eq_right (by omega), Nat.sub_eq_zero_of_le (by omega : n + 1 ≤ 2 ^ (m + k)), Nat.sub_eq_zero_of_le h.le, steady_zero h0]
      constructor <;> linarith
    · obtain ⟨i1, i2⟩ := steady_step h0 hK hR m k (n - 2 ^ (m + k)) (by omega)
      rw [min_eq_left (by omega), min_eq_left h, show n + 1 - 2 ^ (m + k) = n - 2 ^ (m + k) + 1 by omega]
      have a := steady_pos hK m k (2 ^ (m + k))
      have b := steady_pos hK m k (n - 2 ^ (m + k))
      have r1 := mul_lt_mul_of_pos_right (hR (show n - 2 ^ (m + k) < n by omega)) b
      have j1 := mul_lt_mul_of_pos_left (i1.trans_lt r1) a
      have j2 := mul_le_mul_of_nonneg_left i2 a.le
      constructor <;> linarith

include h0 hK hR in
theorem steady_le (m k : ℕ) : ∀ n, n ≤ 2 ^ (m + k) → steady K m k n ≤ K n ∧ (2 ^ m < n → steady K m k n < K n) := by
  intro n
  induction n with
  | zero => intro _; exact ⟨by rw [steady_zero h0, h0], fun h => absurd h (Nat.not_lt_zero _)⟩
  | succ n ih =>
    intro hn
    obtain ⟨i, -⟩ := ih (by omega)
    have hr : 0 < K (n + 1) / K n := div_pos (hK _) (hK _)
    have j := mul_le_mul_of_nonneg_left i hr.le
    rw [← ratio_step hK n] at j
    refine ⟨((steady_step h0 hK hR m k n (by omega)).1).trans j, fun h => ?_⟩
    exact ((steady_lt h0 hK hR m k n (by omega) (by omega)).1).trans_le j

end Steady

/-- Each further level halves the distance to the base model. -/
theorem ptwProb_near {β : Type} {p : ℕ → List β → ℝ} (h1 : ∀ t, p t [] = 1) (m k j t : ℕ) (xs : List β) (hl : xs.length ≤ 2 ^ (m + k)) :
    p t xs - ptwProb p m (k + j) t xs = (p t xs - ptwProb p m k t xs) / 2 ^ j := by
  induction j with
  | zero => simp
  | succ j ih =>
    rw [← Nat.add_assoc, ptwProb_succ_of_le h1 (hl.trans (Nat.pow_le_pow_right (by norm_num) (by omega)))]
    have : p t xs - (1 / 2 * p t xs + 1 / 2 * ptwProb p m (k + j) t xs) = (p t xs - ptwProb p m (k + j) t xs) / 2 := by ring
    rw [this, ih, pow_succ, div_div]

theorem near_order {x y z c : ℝ} (hc : 1 ≤ c) (h : (x - z) * c = x - y) :
    (y < x → y ≤ z ∧ z < x ∧ (1 < c → y < z)) ∧ (x < y → x < z ∧ z ≤ y ∧ (1 < c → z < y)) ∧ (y = x → z = x) := by
  refine ⟨fun hb => ?_, fun hb => ?_, fun hb => ?_⟩
  · have h1 : 0 < x - z := by
      by_contra hn
      have := mul_nonpos_of_nonpos_of_nonneg (not_lt.mp hn) (by linarith : (0 : ℝ) ≤ c)
      linarith
    exact ⟨by nlinarith, by linarith, fun hh => by nlinarith⟩
  · have h1 : x - z < 0 := by
      by_contra hn
      have := mul_nonneg (not_lt.mp hn) (by linarith : (0 : ℝ) ≤ c)
      linarith
    exact ⟨by linarith, by nlinarith, fun hh => by nlinarith⟩
  · rw [hb, sub_self, mul_eq_zero] at h
    rcases h with h | h <;> linarith

/-- What halving the distance means for logarithms. -/
theorem near_logs {b r r' : ℝ} {j : ℕ} (h : Real.exp b - Real.exp r' = (Real.exp b - Real.exp r) / 2 ^ j) :
    (r < b → r ≤ r' ∧ r' < b ∧ (0 < j → r < r')) ∧ (b < r → b < r' ∧ r' ≤ r ∧ (0 < j → r' < r)) ∧ (r = b → r' = b) := by
  rw [eq_div_iff (by positivity)] at h
  have hj' : 0 < j → (1 : ℝ) < 2 ^ j := fun h => one_lt_pow₀ one_lt_two h.ne'
  obtain ⟨h1, h2, h3⟩ := near_order (one_le_pow₀ one_le_two) h
  refine ⟨fun hb => ?_, fun hb => ?_, fun hb => Real.exp_injective (h3 (by rw [hb]))⟩
  · obtain ⟨a, b, c⟩ := h1 (Real.exp_lt_exp.mpr hb)
    exact ⟨Real.exp_le_exp.mp a, Real.exp_lt_exp.mp b, fun hj => Real.exp_lt_exp.mp (c (hj' hj))⟩
  · obtain ⟨a, b, c⟩ := h2 (Real.exp_lt_exp.mpr hb)
    exact ⟨Real.exp_lt_exp.mp a, Real.exp_le_exp.mp b, fun hj => Real.exp_lt_exp.mp (c (hj' hj))⟩

section

variable {σ α : Type}

/-- **C149 (learners.PTW, depth).** On at most `2 ^ d` symbols, every level that is added to a tree of depth `d` halves the distance between the probability of
the data under the tree and under one base model.  So if one base model does better on the data, deeper trees do better than shallower ones and no tree does
as well as the base model, and the other way round if it does worse. -/
theorem C149_learners_PTW_depth (P : Predictor σ α) (fresh : σ) (d j : ℕ) (s0 s1 : LPTW σ) (h0 : LPTW.init fresh d = .ok s0) (h1 : LPTW.init fresh (d + j) = .ok s1)
    (xs : List α) (b r r' : ℝ) (t : σ) (s s' : LPTW σ) (hb : P.run fresh (xs.map obs) = .ok (b, t)) (hr : (LPTW.predictor P fresh).run s0 (xs.map obs) = .ok (r, s))
    (hr' : (LPTW.predictor P fresh).run s1 (xs.map obs) = .ok (r', s')) :
    Real.exp b - Real.exp r' = (Real.exp b - Real.exp r) / 2 ^ j ∧
      (r < b → r ≤ r' ∧ r' < b ∧ (0 < j → r < r')) ∧ (b < r → b < r' ∧ r' ≤ r ∧ (0 < j → r' < r)) ∧ (r = b → r' = b) := by
  obtain ⟨hl, -, e1, rfl⟩ := C36_learners_PTW_closed_form P fresh d s0 h0 xs r s hr
  obtain ⟨-, -, e2, rfl⟩ := C36_learners_PTW_closed_form P fresh (d + j) s1 h1 xs r' s' hr'
  have h := ptwProb_near (p := fun _ => P.seqProb fresh) (fun _ => by simp [seqProb, Predictor.run, probOf]) 0 d j 0 (xs.map obs) (by simpa using hl)
  rw [← e1, ← e2, seqProb_of_run hb] at h
  exact ⟨h, near_logs h⟩

/-- **C149 (PTWFixedLength, length).** The same for `PTWFixedLength` made for longer sequences, and minimum partition lengths. -/
theorem C149_PTWFixedLength_length (P : Predictor σ α) (fresh : σ) (m height j : ℕ) (hm : m ≤ height) (xs : List (Obs α)) (hl : xs.length ≤ 2 ^ height)
    (b r r' : ℝ) (t : σ) (s s' : PTW σ) (hb : P.run fresh xs = .ok (b, t)) (hr : (PTWFixedLength.predictor P fresh m height).run (PTW.init fresh m) xs = .ok (r, s))
    (hr' : (PTWFixedLength.predictor P fresh m (height + j)).run (PTW.init fresh m) xs = .ok (r', s')) :
    Real.exp b - Real.exp r' = (Real.exp b - Real.exp r) / 2 ^ j ∧
      (r < b → r ≤ r' ∧ r' < b ∧ (0 < j → r < r')) ∧ (b < r → b < r' ∧ r' ≤ r ∧ (0 < j → r' < r)) ∧ (r = b → r' = b) := by
  have h1 := C24_PTWFixedLength_closed_form P fresh m height xs (by rwa [max_eq_right hm]) r s hr
  have h2 := C24_PTWFixedLength_closed_form P fresh m (height + j) xs (hl.trans (Nat.pow_le_pow_right (by norm_num) (by omega))) r' s' hr'
  obtain ⟨k, rfl⟩ := Nat.exists_eq_add_of_le hm
  have h := ptwProb_near (p := fun _ => P.seqProb fresh) (fun _ => by simp [seqProb, Predictor.run, probOf]) m k j 0 xs hl
  rw [show m + k - m = k by omega] at h1
  rw [show m + k + j - m = k + j by omega] at h2
  rw [← h1, ← h2, seqProb_of_run hb] at h
  exact ⟨h, near_logs h⟩

end

section Same

variable {α : Type} [DecidableEq α]

/-- The probability that KT over `k` symbols gives to `n` times the same symbol. -/
noncomputable def ktSame (k : ℕ) : ℕ → ℝ
  | 0 => 1
  | n + 1 => ktSame k n * ((n + 1 / k) / (n + 1))

theorem ktSame_pos {k : ℕ} (hk : 0 < k) (n : ℕ) : 0 < ktSame k n := by
  have : (0 : ℝ) < k := by exact_mod_cast hk
  induction n with
  | zero => exact one_pos
  | succ n ih => simp only [ktSame]; positivity

theorem ktSame_ratio {k : ℕ} (hk : 0 < k) (n : ℕ) : ktSame k (n + 1) / ktSame k n = (n + 1 / k) / (n + 1) := by
  have := (ktSame_pos hk n).ne'
  rw [ktSame, mul_div_cancel_left₀ _ this]

theorem ktSame_strict {k : ℕ} (hk : 2 ≤ k) : StrictMono fun n => ktSame k (n + 1) / ktSame k n := by
  refine strictMono_nat_of_lt_succ fun n => ?_
  simp only [ktSame_ratio (show 0 < k by omega)]
  have hk' : (2 : ℝ) ≤ k := by exact_mod_cast hk
  have h1 : 1 / (k : ℝ) < 1 := by rw [div_lt_one (by linarith)]; linarith
  push_cast
  rw [div_lt_div_iff₀ (by positivity) (by positivity)]
  nlinarith

theorem kt_snoc (A : List α) (hA : A.Nodup) (hne : A ≠ []) (s0 : KT α) (h0 : KT.init A none = .ok s0) (xs : List (Obs α)) (o : Obs α)
    (hx : ∀ x ∈ xs, x.sym ∈ A ∧ 0 ≤ x.weight) (ho : o.sym ∈ A ∧ 0 ≤ o.weight) :
    KT.predictor.seqProb s0 (xs ++ [o]) = KT.predictor.seqProb s0 xs * ((weightOf o.sym xs + 1 / (A.length : ℝ)) / (totalWeight xs + 1)) := by
  obtain ⟨s0', r, s, g0, hr, _, hu⟩ := C01_KT_normalised A hA hne none trivial xs hx
  rw [h0] at g0
  simp only [Except.ok.injEq] at g0
  subst g0
  obtain ⟨q, s', hu⟩ := hu o.sym ho.1 o.hist o.weight ho.2
  have h2 := (C02_KT_update_frame s s' o.sym o.hist o.weight q hu).1
  have h3 := C03_KT_closed_form A hA hne s0 s h0 xs hx r hr o.sym ho.1 o.hist
  simp only [Predictor.predict, h2, ok_bind, pure_eq_ok, Except.ok.injEq, Prod.mk.injEq, and_true] at h3
  rw [seqProb_of_run hr, seqProb_of_run (CTWNode.run_snoc_ok hr hu), Real.exp_add, h3]

theorem kt_same (A : List α) (hA : A.Nodup) (a : α) (ha : a ∈ A) (s0 : KT α) (h0 : KT.init A none = .ok s0) (xs : List (Obs α))
    (hx : ∀ x ∈ xs, x.sym = a ∧ x.weight = 1) : KT.predictor.seqProb s0 xs = ktSame A.length xs.length := by
  induction xs using List.reverseRecOn with
  | nil => simp [seqProb, Predictor.run, probOf, ktSame]
  | append_singleton xs o ih =>
    have hx' : ∀ x ∈ xs, x.sym = a ∧ x.weight = 1 := fun x h => hx x (by simp [h])
    have ho := hx o (by simp)
    rw [kt_snoc A hA (List.ne_nil_of_mem ha) s0 h0 xs o (fun x h => by rw [(hx' x h).1, (hx' x h).2]; exact ⟨ha, zero_le_one⟩)
      (by rw [ho.1, ho.2]; exact ⟨ha, zero_le_one⟩), ih hx', List.length_append, List.length_singleton, ktSame]
    have w1 : weightOf o.sym xs = xs.length := by
      rw [weightOf, List.map_congr_left (g := fun _ => (1 : ℝ)) fun x h => by rw [if_pos ((hx' x h).1.trans ho.1.symm), (hx' x h).2]]
      simp
    have w2 : totalWeight xs = xs.length := by
      rw [totalWeight, List.map_congr_left (g := fun _ => (1 : ℝ)) fun x h => (hx' x h).2]
      simp
    rw [w1, w2]

/-- KT after nothing but `a` gives other symbols less than a new KT. -/
theorem kt_other (A : List α) (hA : A.Nodup) (a : α) (ha : a ∈ A) (s0 : KT α) (h0 : KT.init A none = .ok s0) (xs : List (Obs α))
    (hx : ∀ x ∈ xs, x.sym = a ∧ x.weight = 1) (o : Obs α) (ho : o.sym ∈ A ∧ o.sym ≠ a ∧ 0 ≤ o.weight) :
    Rg 0 (1 / A.length) (KT.predictor.seqProb s0 xs) (KT.predictor.seqProb s0 (xs ++ [o])) := by
  refine ⟨KT.predictor.seqProb_nonneg _ _, by rw [zero_mul]; exact KT.predictor.seqProb_nonneg _ _, ?_⟩
  rw [kt_snoc A hA (List.ne_nil_of_mem ha) s0 h0 xs o (fun x h => by rw [(hx x h).1, (hx x h).2]; exact ⟨ha, zero_le_one⟩) ⟨ho.1, ho.2.2⟩, mul_comm]
  refine mul_le_mul_of_nonneg_right ?_ (KT.predictor.seqProb_nonneg _ _)
  have w1 : weightOf o.sym xs = 0 := by
    rw [weightOf, List.map_congr_left (g := fun _ => (0 : ℝ)) fun x h => by rw [if_neg (by rw [(hx x h).1]; exact ho.2.1.symm)]]
    simp
  have w2 : totalWeight xs = xs.length := by
    rw [totalWeight, List.map_congr_left (g := fun _ => (1 : ℝ)) fun x h => (hx x h).2]
    simp
  rw [w1, w2, zero_add]
  exact div_le_self (by positivity) (by linarith [Nat.cast_nonneg (α := ℝ) xs.length])

variable (A : List α) (hA : A.Nodup) (h2 : 2 ≤ A.length) (a : α) (ha : a ∈ A) (s0 : KT α) (h0 : KT.init A none = .ok s0)

include hA h2 ha h0

/-- The mixture over partitions on a repeated symbol. -/
theorem same_mixture (m k : ℕ) (xs : List (Obs α)) (hx : ∀ x ∈ xs, x.sym = a ∧ x.weight = 1) :
    ptwProb (fun _ => KT.predictor.seqProb s0) m k 0 xs = steady (ktSame A.length) m k xs.length :=
  steady_eq (V := fun x => x.sym = a ∧ x.weight = 1) (fun _ xs hx => kt_same A hA a ha s0 h0 xs hx) m k 0 xs hx

theorem same_next (m k : ℕ) (xs : List (Obs α)) (hx : ∀ x ∈ xs, x.sym = a ∧ x.weight = 1) (h : List α) (hm : 2 ^ m ≤ xs.length) (hl : xs.length < 2 ^ (m + k)) :
    let R := ptwProb (fun _ => KT.predictor.seqProb s0) m k 0 (xs ++ [⟨a, h, 1⟩]) / ptwProb (fun _ => KT.predictor.seqProb s0) m k 0 xs
    1 / (A.length : ℝ) < R ∧ R < (xs.length + 1 / A.length) / (xs.length + 1) := by
  intro R
  have hx' : ∀ x ∈ xs ++ [(⟨a, h, 1⟩ : Obs α)], x.sym = a ∧ x.weight = 1 := by
    intro x hx''
    rcases List.mem_append.mp hx'' with h' | h'
    · exact hx x h'
    · rw [List.mem_singleton.mp h']; exact ⟨rfl, rfl⟩
  have hR : R = steady (ktSame A.length) m k (xs.length + 1) / steady (ktSame A.length) m k xs.length := by
    simp only [R]
    rw [same_mixture A hA h2 a ha s0 h0 m k _ hx', same_mixture A hA h2 a ha s0 h0 m k xs hx, List.length_append, List.length_singleton]
  have hK := ktSame_pos (k := A.length) (by omega)
  obtain ⟨u, v⟩ := steady_lt (K := ktSame A.length) rfl hK (ktSame_strict h2) m k xs.length hm hl
  have hp := steady_pos hK m k xs.length
  have e1 : ktSame A.length 1 = 1 / A.length := by simp [ktSame]
  rw [hR, lt_div_iff₀ hp, div_lt_iff₀ hp, ← ktSame_ratio (by omega), ← e1]
  exact ⟨v, u⟩

theorem same_other (m k : ℕ) (xs : List (Obs α)) (hx : ∀ x ∈ xs, x.sym = a ∧ x.weight = 1) (o : Obs α) (ho : o.sym ∈ A ∧ o.sym ≠ a ∧ 0 ≤ o.weight)
    (hl : xs.length < 2 ^ (m + k)) :
    ptwProb (fun _ => KT.predictor.seqProb s0) m k 0 (xs ++ [o]) / ptwProb (fun _ => KT.predictor.seqProb s0) m k 0 xs ≤ 1 / A.length := by
  have hp : 0 < ptwProb (fun _ => KT.predictor.seqProb s0) m k 0 xs := by
    rw [same_mixture A hA h2 a ha s0 h0 m k xs hx]
    exact steady_pos (ktSame_pos (by omega)) m k _
  exact ((Rg.ptw (fun _ => by simp [seqProb, Predictor.run, probOf]) (fun _ l => KT.predictor.seqProb_nonneg _ _) m k 0 xs hl
    (fun j _ => kt_other A hA a ha s0 h0 _ (fun x h => hx x (List.mem_of_mem_drop h)) o ho)).div hp).2

/-- **C149 (learners.PTW, no change).** While one symbol is repeated, for the second time or more, the loss of a partition tree over KT is greater than that of KT,
and less in deeper trees. -/
theorem C149_learners_PTW_loss (d j : ℕ) (hj : 0 < j) (s1 s2 : LPTW (KT α)) (h1 : LPTW.init s0 d = .ok s1) (h1' : LPTW.init s0 (d + j) = .ok s2) (n : ℕ) (hn : 2 ≤ n)
    (b r r' : ℝ) (t : KT α) (s s' : LPTW (KT α)) (hb : KT.predictor.run s0 ((List.replicate n a).map obs) = .ok (b, t))
    (hr : (LPTW.predictor KT.predictor s0).run s1 ((List.replicate n a).map obs) = .ok (r, s))
    (hr' : (LPTW.predictor KT.predictor s0).run s2 ((List.replicate n a).map obs) = .ok (r', s')) : -b < -r' ∧ -r' < -r := by
  obtain ⟨-, hc, -⟩ := C149_learners_PTW_depth KT.predictor s0 d j s1 s2 h1 h1' _ b r r' t s s' hb hr hr'
  obtain ⟨hl, -, e1, rfl⟩ := C36_learners_PTW_closed_form KT.predictor s0 d s1 h1 _ r s hr
  have hx : ∀ x ∈ (List.replicate n a).map obs, x.sym = a ∧ x.weight = 1 := by
    intro x hx
    obtain ⟨y, hy, rfl⟩ := List.mem_map.mp hx
    exact ⟨(List.mem_replicate.mp hy).2, rfl⟩
  have hlt : s.logProb < b := by
    rw [← Real.exp_lt_exp, e1, ← seqProb_of_run hb, same_mixture A hA h2 a ha s0 h0 0 d _ hx, kt_same A hA a ha s0 h0 _ hx]
    refine (steady_le rfl (ktSame_pos (by omega)) (ktSame_strict h2) 0 d _ (by simpa using hl)).2 (by simp; omega)
  obtain ⟨-, c2, c3⟩ := hc hlt
  exact ⟨by linarith, by linarith [c3 hj]⟩

/-- **C149 (learners.PTW, next symbol).** After a symbol was repeated once or more, the partition tree over KT gives it more than the probability of a new KT and
less than KT does, and any other symbol not more than a new KT does. -/
theorem C149_learners_PTW_next (d : ℕ) (s1 : LPTW (KT α)) (h1 : LPTW.init s0 d = .ok s1) (n : ℕ) (hn : 1 ≤ n) (r b : ℝ) (s : LPTW (KT α)) (t : KT α)
    (hr : (LPTW.predictor KT.predictor s0).run s1 ((List.replicate n a).map obs) = .ok (r, s))
    (hb : KT.predictor.run s0 ((List.replicate n a).map obs) = .ok (b, t)) (q p : ℝ) (s' : LPTW (KT α)) (t' : KT α) (h h' : List α) (w : ℝ)
    (hq : (LPTW.predictor KT.predictor s0).update s a h w = .ok (q, s')) (hp : KT.predictor.update t a h' 1 = .ok (p, t')) :
    1 / (A.length : ℝ) < Real.exp q ∧ Real.exp q < Real.exp p ∧
      ∀ c ∈ A, c ≠ a → ∀ q' s'', (LPTW.predictor KT.predictor s0).update s c h w = .ok (q', s'') → Real.exp q' ≤ 1 / A.length := by
  have step : ∀ c q s', (LPTW.predictor KT.predictor s0).update s c h w = .ok (q, s') → n < 2 ^ d ∧
      Real.exp q = ptwProb (fun _ => KT.predictor.seqProb s0) 0 d 0 ((List.replicate n a).map obs ++ [obs c]) /
        ptwProb (fun _ => KT.predictor.seqProb s0) 0 d 0 ((List.replicate n a).map obs) := by
    intro c q s' hq
    have hrun : (LPTW.predictor KT.predictor s0).run s1 ((List.replicate n a ++ [c]).map obs) = .ok (r + q, s') := by
      rw [List.map_append]
      exact CTWNode.run_snoc_ok (o := obs c) hr hq
    obtain ⟨-, -, e1, rfl⟩ := C36_learners_PTW_closed_form KT.predictor s0 d s1 h1 _ r s hr
    obtain ⟨hl, -, e2, e3⟩ := C36_learners_PTW_closed_form KT.predictor s0 d s1 h1 _ _ s' hrun
    rw [← e3, List.map_append, List.map_singleton] at e2
    refine ⟨by simpa using hl, ?_⟩
    rw [← e1, ← e2, Real.exp_add, mul_div_cancel_left₀ _ (Real.exp_pos _).ne']
  have hx : ∀ x ∈ (List.replicate n a).map obs, x.sym = a ∧ x.weight = 1 := by
    intro x hx
    obtain ⟨y, hy, rfl⟩ := List.mem_map.mp hx
    exact ⟨(List.mem_replicate.mp hy).2, rfl⟩
  obtain ⟨hl, e⟩ := step a q s' hq
  obtain ⟨u, v⟩ := same_next A hA h2 a ha s0 h0 0 d _ hx [] (by simpa using hn) (by simpa using hl)
  have hpe : Real.exp p = (n + 1 / A.length) / (n + 1) := by
    have k1 := kt_same A hA a ha s0 h0 _ hx
    have k2 := kt_same A hA a ha s0 h0 ((List.replicate n a).map obs ++ [⟨a, h', 1⟩]) (by
      intro x hx''
      rcases List.mem_append.mp hx'' with h' | h'
      · exact hx x h'
      · rw [List.mem_singleton.mp h']; exact ⟨rfl, rfl⟩)
    rw [seqProb_of_run hb] at k1
    rw [seqProb_of_run (CTWNode.run_snoc_ok (o := ⟨a, h', 1⟩) hb hp), Real.exp_add, k1, List.length_append, List.length_singleton, ktSame] at k2
    simpa using mul_left_cancel₀ (ktSame_pos (by omega) _).ne' k2
  refine ⟨by rw [e]; exact u, ?_, ?_⟩
  · rw [e, hpe]
    rw [List.length_map, List.length_replicate] at v
    exact v
  · intro c hc hca q' s'' hq'
    rw [(step c q' s'' hq').2]
    exact same_other A hA h2 a ha s0 h0 0 d _ hx _ ⟨hc, hca, zero_le_one⟩ (by simpa using hl)

/-- **C149 (PTWFixedLength, next symbol).** The same for `PTWFixedLength` once a minimum partition is complete, whatever the histories. -/
theorem C149_PTWFixedLength_next (m height : ℕ) (xs : List (Obs α)) (hx : ∀ x ∈ xs, x.sym = a ∧ x.weight = 1) (hm : 2 ^ m ≤ xs.length) (hl : xs.length < 2 ^ height)
    (r : ℝ) (s : PTW (KT α)) (hr : (PTWFixedLength.predictor KT.predictor s0 m height).run (PTW.init s0 m) xs = .ok (r, s)) (h : List α) (q : ℝ) (s' : PTW (KT α))
    (hq : (PTWFixedLength.predictor KT.predictor s0 m height).update s a h 1 = .ok (q, s')) :
    1 / (A.length : ℝ) < Real.exp q ∧ Real.exp q < (xs.length + 1 / A.length) / (xs.length + 1) := by
  have hmh : m < height := (Nat.pow_lt_pow_iff_right (by norm_num : 1 < 2)).mp (hm.trans_lt hl)
  have e1 := C24_PTWFixedLength_closed_form KT.predictor s0 m height xs (by rw [max_eq_right hmh.le]; exact hl.le) r s hr
  have e2 := C24_PTWFixedLength_closed_form KT.predictor s0 m height (xs ++ [⟨a, h, 1⟩]) (by rw [max_eq_right hmh.le]; simpa using hl) _ _
    (CTWNode.run_snoc_ok (o := ⟨a, h, 1⟩) hr hq)
  have e : Real.exp q = _ / _ := (show Real.exp q = Real.exp (r + q) / Real.exp r by rw [Real.exp_add, mul_div_cancel_left₀ _ (Real.exp_pos _).ne']).trans (by rw [e1, e2])
  rw [e]
  exact same_next A hA h2 a ha s0 h0 m (height - m) xs hx h hm (by rwa [Nat.add_sub_cancel' hmh.le])

/-- **C149 (PTW, next symbol).** And for `PTW`, at all lengths. -/
theorem C149_PTW_next (m : ℕ) (xs : List (Obs α)) (hx : ∀ x ∈ xs, x.sym = a ∧ x.weight = 1) (hm : 2 ^ m ≤ xs.length)
    (r : ℝ) (s : PTW (KT α)) (hr : (PTW.predictor KT.predictor s0 m).run (PTW.init s0 m) xs = .ok (r, s)) (h : List α) (q : ℝ) (s' : PTW (KT α))
    (hq : (PTW.predictor KT.predictor s0 m).update s a h 1 = .ok (q, s')) :
    1 / (A.length : ℝ) < Real.exp q ∧ Real.exp q < (xs.length + 1 / A.length) / (xs.length + 1) := by
  rw [C25_PTW_ratio KT.predictor s0 m xs ⟨a, h, 1⟩ r q s s' hr hq]
  exact same_next A hA h2 a ha s0 h0 m _ xs hx h hm (levelsFor_spec m (xs.length + 1))

omit h2 in
/-- **C149 (one model).** Before that there is only one base model, and the prediction is that of KT. -/
theorem C149_PTW_first (m : ℕ) (xs : List (Obs α)) (hx : ∀ x ∈ xs, x.sym = a ∧ x.weight = 1) (hm : xs.length < 2 ^ m)
    (r : ℝ) (s : PTW (KT α)) (hr : (PTW.predictor KT.predictor s0 m).run (PTW.init s0 m) xs = .ok (r, s)) (h : List α) (q : ℝ) (s' : PTW (KT α))
    (hq : (PTW.predictor KT.predictor s0 m).update s a h 1 = .ok (q, s')) : Real.exp q = (xs.length + 1 / A.length) / (xs.length + 1) := by
  rw [C25_PTW_ratio KT.predictor s0 m xs ⟨a, h, 1⟩ r q s s' hr hq, show levelsFor m (xs.length + 1) = 0 from Nat.le_zero.mp (levelsFor_min (by simpa using hm)),
    ptwProb, ptwProb, kt_same A hA a ha s0 h0 xs hx, kt_same A hA a ha s0 h0 _ (by
      intro x hx''
      rcases List.mem_append.mp hx'' with h' | h'
      · exact hx x h'
      · rw [List.mem_singleton.mp h']; exact ⟨rfl, rfl⟩), List.length_append, List.length_singleton,
    ktSame_ratio (List.length_pos_iff.mpr (List.ne_nil_of_mem ha))]

end Same

/-- Three zeros: the loss of KT is least, then that of a partition tree of depth five, then that of depth two. -/
example : ∃ s0 s1 s2 b t r s r' s', KT.init [false, true] none = .ok s0 ∧ LPTW.init s0 2 = .ok s1 ∧ LPTW.init s0 5 = .ok s2 ∧
    KT.predictor.run s0 ((List.replicate 3 false).map obs) = .ok (b, t) ∧ (LPTW.predictor KT.predictor s0).run s1 ((List.replicate 3 false).map obs) = .ok (r, s) ∧
    (LPTW.predictor KT.predictor s0).run s2 ((List.replicate 3 false).map obs) = .ok (r', s') ∧ -b < -r' ∧ -r' < -r := by
  have h0 : KT.init [false, true] none = .ok _ := KT.init_default (by decide) (by decide)
  have hg := KT.good_default (A := [false, true]) (by decide)
  have hx : ∀ a ∈ List.replicate 3 false, a ∈ [false, true] := by simp
  have hlaw := KT.lawful (A := [false, true]) (by decide) (by decide)
  obtain ⟨b, t, hb, -⟩ := hlaw.run_ok hg (xs := (List.replicate 3 false).map obs) (by
    intro o ho
    obtain ⟨y, hy, rfl⟩ := List.mem_map.mp ho
    exact ⟨hx y hy, zero_le_one⟩)
  obtain ⟨r, s, hr⟩ := C36_learners_PTW_total KT.predictor _ _ [false, true] _ hlaw hg zero_le_one 2 _ rfl _ hx (by simp)
  obtain ⟨r', s', hr'⟩ := C36_learners_PTW_total KT.predictor _ _ [false, true] _ hlaw hg zero_le_one 5 _ rfl _ hx (by simp)
  exact ⟨_, _, _, b, t, r, s, r', s', h0, rfl, rfl, hb, hr, hr',
    C149_learners_PTW_loss [false, true] (by decide) (by simp) false (by simp) _ h0 2 3 (by norm_num) _ _ rfl rfl 3 (by norm_num) b r r' t s s' hb hr hr'⟩

end Verif
