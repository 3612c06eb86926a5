import Verif.Spec.RunCount
import Verif.Props.Shallow
import Verif.Props.CtwRedundancy

/-!
# C179: every change costs a bit
-/

namespace Verif

open Predictor Redundancy

namespace Runs

theorem runs_le (x : Bool) (xs : List Bool) :
    runs (x :: xs) ≤ 2 * (x :: xs).count x ∧ runs (x :: xs) ≤ 2 * (x :: xs).count (!x) + 1 := by
  induction xs generalizing x with
  | nil => cases x <;> simp [runs]
  | cons y ys ih =>
    obtain ⟨h1, h2⟩ := ih y
    by_cases h : x = y
    · subst h
      have e1 : (x :: x :: ys).count x = (x :: ys).count x + 1 := List.count_cons_self
      have e2 : (x :: x :: ys).count (!x) = (x :: ys).count (!x) := List.count_cons_of_ne (by cases x <;> decide)
      rw [runs, if_pos rfl]
      omega
    · have hx : (!y) = x := by
        revert h
        cases x <;> cases y <;> decide
      have hy : (!x) = y := by rw [← hx, Bool.not_not]
      rw [hx] at h2
      have e1 : (x :: y :: ys).count x = (y :: ys).count x + 1 := List.count_cons_self
      have e2 : (x :: y :: ys).count y = (y :: ys).count y := List.count_cons_of_ne h
      rw [runs, if_neg h, hy]
      omega

theorem runs_append {α : Type} [DecidableEq α] : ∀ xs ys : List α, runs (xs ++ ys) ≤ runs xs + runs ys
  | [], ys => by simp [runs]
  | [x], [] => by simp [runs]
  | [x], y :: ys => by
    simp only [List.singleton_append, runs]
    split_ifs <;> omega
  | x :: y :: xs, ys => by
    have ih := runs_append (y :: xs) ys
    simp only [List.cons_append, runs] at *
    omega

theorem ktP_same : ∀ a : ℕ, ktP (a + 1) 0 ≤ 1 / 2
  | 0 => by norm_num [ktP, rise]
  | a + 1 => by
    have ih := ktP_same a
    have h0 := ktP_pos (a + 1) 0
    have e : ktP (a + 1 + 1) 0 = ktP (a + 1) 0 * (((a : ℝ) + 1 + 1 / 2) / (a + 1 + 1)) := by
      unfold ktP
      rw [rise_succ (a + 1), show a + 1 + 1 + 0 = a + 1 + 0 + 1 by ring, Nat.factorial_succ]
      push_cast
      field_simp
    rw [e]
    calc _ ≤ ktP (a + 1) 0 * 1 := mul_le_mul_of_nonneg_left (by rw [div_le_one (by positivity)]; linarith) h0.le
      _ ≤ _ := by rw [mul_one]; exact ih

theorem ktP_half : ∀ a b : ℕ, 1 ≤ a + b → ktP a b ≤ 1 / 2 * (1 / 4) ^ min a b
  | 0, 0, h => by simp at h
  | a + 1, 0, _ => by simpa using ktP_same a
  | 0, b + 1, _ => by
    rw [Shallow.ktP_comm]
    simpa using ktP_same b
  | a + 1, b + 1, _ => by
    by_cases h0 : a + b = 0
    · obtain ⟨rfl, rfl⟩ : a = 0 ∧ b = 0 := by omega
      norm_num [ktP, rise]
    · have ih := ktP_half a b (by omega)
      have := Shallow.ktP_diag a b
      rw [Nat.add_min_add_right, pow_succ]
      linarith

theorem zeros_count (xs : List (Obs Bool)) : zeros xs = (xs.map Obs.sym).count false ∧ ones xs = (xs.map Obs.sym).count true := by
  induction xs with
  | nil => exact ⟨rfl, rfl⟩
  | cons o xs ih =>
    obtain ⟨x, h, w⟩ := o
    obtain ⟨h1, h2⟩ := ih
    simp only [zeros, ones] at h1 h2
    cases x <;> simp [zeros, ones, h1, h2]

theorem kt_le {xs : List (Obs Bool)} (hw : ∀ o ∈ xs, o.weight = 1) :
    KTBinary.predictor.seqProb (KTBinary.init none) xs ≤ (1 / 2) ^ runs (xs.map Obs.sym) := by
  cases hx : xs with
  | nil => simp [seqProb, Predictor.run, probOf, runs]
  | cons o os =>
    rw [← hx, seqProb_ktP hw]
    refine (ktP_half _ _ (by rw [zeros_add_ones, hx]; simp)).trans ?_
    rw [show (1 / 4 : ℝ) = (1 / 2) ^ 2 by norm_num, ← pow_mul, ← pow_succ']
    refine pow_le_pow_of_le_one (by norm_num) (by norm_num) ?_
    obtain ⟨h1, h2⟩ := zeros_count xs
    rw [h1, h2, hx, List.map_cons]
    obtain ⟨h3, h4⟩ := runs_le o.sym (os.map Obs.sym)
    rcases le_total ((o.sym :: os.map Obs.sym).count false) ((o.sym :: os.map Obs.sym).count true) with h | h
    · rw [min_eq_left h]
      cases ho : o.sym <;> rw [ho] at h3 h4 <;> simp only [Bool.not_true, Bool.not_false] at h3 h4 <;> omega
    · rw [min_eq_right h]
      cases ho : o.sym <;> rw [ho] at h3 h4 <;> simp only [Bool.not_true, Bool.not_false] at h3 h4 <;> omega

theorem ptw_le {p : ℕ → List (Obs Bool) → ℝ} (h0 : ∀ t ys, 0 ≤ p t ys) (hp : ∀ t ys, (∀ o ∈ ys, o.weight = 1) → p t ys ≤ (1 / 2) ^ runs (ys.map Obs.sym)) (m : ℕ) :
    ∀ (k t : ℕ) (xs : List (Obs Bool)), (∀ o ∈ xs, o.weight = 1) → 0 ≤ ptwProb p m k t xs ∧ ptwProb p m k t xs ≤ (1 / 2) ^ runs (xs.map Obs.sym)
  | 0, t, xs, hw => ⟨h0 t xs, hp t xs hw⟩
  | k + 1, t, xs, hw => by
    obtain ⟨a1, a2⟩ := ptw_le h0 hp m k t (xs.take (2 ^ (m + k))) fun o ho => hw o (List.mem_of_mem_take ho)
    obtain ⟨b1, b2⟩ := ptw_le h0 hp m k (t + 2 ^ (m + k)) (xs.drop (2 ^ (m + k))) fun o ho => hw o (List.mem_of_mem_drop ho)
    have hr := runs_append ((xs.take (2 ^ (m + k))).map Obs.sym) ((xs.drop (2 ^ (m + k))).map Obs.sym)
    rw [← List.map_append, List.take_append_drop] at hr
    have hm := mul_le_mul a2 b2 b1 (by positivity)
    rw [← pow_add] at hm
    have hm2 := hm.trans (pow_le_pow_of_le_one (by norm_num) (by norm_num) hr)
    have hn := mul_nonneg a1 b1
    have := h0 t xs
    have := hp t xs hw
    rw [ptwProb]
    constructor <;> linarith

theorem ptwProb_level {p : ℕ → List (Obs Bool) → ℝ} (h0 : ∀ t ys, 0 ≤ p t ys) (h1 : ∀ t, p t [] = 1) (m t : ℕ) (xs : List (Obs Bool)) (k : ℕ) (hk : xs.length ≤ 2 ^ (m + k)) :
    ∀ j : ℕ, (1 / 2) ^ j * ptwProb p m k t xs ≤ ptwProb p m (k + j) t xs
  | 0 => by simp
  | j + 1 => by
    have ih := ptwProb_level h0 h1 m t xs k hk j
    have hl : xs.length ≤ 2 ^ (m + (k + j)) := hk.trans (Nat.pow_le_pow_right (by norm_num) (by omega))
    rw [← Nat.add_assoc, ptwProb, List.take_of_length_le hl, List.drop_eq_nil_of_le hl, ptwProb_nil h1, mul_one, pow_succ]
    have := h0 t xs
    linarith

theorem levelsFor_spec (m n : ℕ) : n ≤ 2 ^ (m + levelsFor m n) :=
  Nat.find_spec (p := fun k => n ≤ 2 ^ (m + k)) _

theorem ptw_grow {σ : Type} (P : Predictor σ Bool) (fresh : σ) (m : ℕ) (xs : List (Obs Bool)) : ∀ (r : ℝ) (s : PTW σ),
    (PTW.predictor P fresh m).run (PTW.init fresh m) xs = .ok (r, s) →
    Real.exp r ≤ 2 ^ levelsFor m xs.length * ptwProb (fun _ => P.seqProb fresh) m (levelsFor m xs.length) 0 xs := by
  have h1 : ∀ _ : ℕ, P.seqProb fresh [] = 1 := fun _ => by simp [seqProb, Predictor.run, probOf]
  induction xs using List.reverseRecOn with
  | nil =>
    intro r s hr
    simp only [Predictor.run, pure_eq_ok, Except.ok.injEq, Prod.mk.injEq] at hr
    rw [← hr.1, ptwProb_nil h1, Real.exp_zero, mul_one]
    exact one_le_pow₀ (by norm_num)
  | append_singleton xs o ih =>
    intro r s hr
    obtain ⟨r1, s1, r2, g1, g2, rfl⟩ := run_append_ok.mp hr
    obtain ⟨q, s2, r3, g3, g4, rfl⟩ := run_cons_ok.mp g2
    simp only [Predictor.run, pure_eq_ok, Except.ok.injEq, Prod.mk.injEq] at g4
    obtain ⟨rfl, rfl⟩ := g4
    have hq := C25_PTW_ratio P fresh m xs o r1 q s1 s2 g1 g3
    have ih := ih r1 s1 g1
    have hl : (xs ++ [o]).length = xs.length + 1 := by simp
    rw [hl]
    set L := levelsFor m xs.length with hL
    set L' := levelsFor m (xs.length + 1) with hL'
    have hLL : L ≤ L' := Nat.find_min' _ (le_trans (Nat.le_succ _) (levelsFor_spec m (xs.length + 1)))
    obtain ⟨j, hj⟩ := Nat.exists_eq_add_of_le hLL
    have hlev := ptwProb_level (p := fun _ => P.seqProb fresh) (fun _ ys => P.seqProb_nonneg fresh ys) h1 m 0 xs L (levelsFor_spec m xs.length) j
    rw [← hj] at hlev
    set A := ptwProb (fun _ => P.seqProb fresh) m L 0 xs
    set B := ptwProb (fun _ => P.seqProb fresh) m L' 0 xs
    set C := ptwProb (fun _ => P.seqProb fresh) m L' 0 (xs ++ [o])
    have hA : 0 < A := by
      have := (Real.exp_pos r1).trans_le ih
      exact (pos_iff_pos_of_mul_pos this).mp (by positivity)
    have hB : 0 < B := lt_of_lt_of_le (by positivity) hlev
    have hC : C = Real.exp q * B := by rw [hq, div_mul_cancel₀ _ hB.ne']
    rw [add_zero, Real.exp_add, hC]
    have hAB : (2 : ℝ) ^ L * A ≤ 2 ^ L' * B := by
      rw [hj, pow_add, mul_assoc]
      refine mul_le_mul_of_nonneg_left ?_ (by positivity)
      calc A = 2 ^ j * ((1 / 2) ^ j * A) := by rw [← mul_assoc, ← mul_pow]; norm_num
        _ ≤ _ := mul_le_mul_of_nonneg_left hlev (by positivity)
    calc _ ≤ 2 ^ L' * B * Real.exp q := mul_le_mul_of_nonneg_right (ih.trans hAB) (Real.exp_pos q).le
      _ = _ := by ring

theorem kt_bits {g : KT Bool} (hg : KT.init [false, true] none = .ok g) {ys : List (Obs Bool)} (hw : ∀ o ∈ ys, o.weight = 1) :
    KT.predictor.seqProb g ys ≤ (1 / 2) ^ runs (ys.map Obs.sym) := by
  refine le_trans (le_of_eq ?_) (kt_le hw)
  rw [C04_KTBinary_eq_KT.1, Except.ok.injEq] at hg
  rw [← hg, seqProb, seqProb, C04_KTBinary_runs]
  cases KTBinary.predictor.run (KTBinary.init none) ys <;> rfl

theorem log_half {r : ℝ} {k : ℕ} (h : Real.exp r ≤ (1 / 2) ^ k) : k * Real.log 2 ≤ -r := by
  have := Real.log_le_log (Real.exp_pos r) h
  rw [Real.log_exp, Real.log_pow, one_div, Real.log_inv] at this
  linarith

end Runs

/-- **C179 (KT).** `KTBinary` loses at least one bit for each run of equal bits. -/
theorem C179_KTBinary (xs : List (Obs Bool)) (hw : ∀ o ∈ xs, o.weight = 1) (r : ℝ) (s : KTBinary)
    (hr : KTBinary.predictor.run (KTBinary.init none) xs = .ok (r, s)) : runs (xs.map Obs.sym) * Real.log 2 ≤ -r := by
  refine Runs.log_half ?_
  rw [← seqProb_of_run hr]
  exact Runs.kt_le hw

/-- **C179 (partition trees).** So does `PTWFixedLength` over it: no partition makes a change cheaper than a bit. -/
theorem C179_PTWFixedLength (m height : ℕ) (xs : List (Obs Bool)) (hw : ∀ o ∈ xs, o.weight = 1) (hl : xs.length ≤ 2 ^ max m height) (r : ℝ) (s : PTW KTBinary)
    (hr : (PTWFixedLength.predictor KTBinary.predictor (KTBinary.init none) m height).run (PTW.init (KTBinary.init none) m) xs = .ok (r, s)) :
    runs (xs.map Obs.sym) * Real.log 2 ≤ -r := by
  refine Runs.log_half ?_
  rw [C24_PTWFixedLength_closed_form _ _ m height xs hl r s hr]
  exact (Runs.ptw_le (fun _ ys => KTBinary.predictor.seqProb_nonneg _ ys) (fun _ ys h => Runs.kt_le h) m _ 0 xs hw).2

/-- **C179 (unknown length).** `PTW` without a fixed length loses at least that but one bit for each level of its tree. -/
theorem C179_PTW (m : ℕ) (xs : List (Obs Bool)) (hw : ∀ o ∈ xs, o.weight = 1) (r : ℝ) (s : PTW KTBinary)
    (hr : (PTW.predictor KTBinary.predictor (KTBinary.init none) m).run (PTW.init (KTBinary.init none) m) xs = .ok (r, s)) :
    ((runs (xs.map Obs.sym) : ℝ) - levelsFor m xs.length) * Real.log 2 ≤ -r := by
  have h1 := Runs.ptw_grow KTBinary.predictor (KTBinary.init none) m xs r s hr
  have h2 := (Runs.ptw_le (p := fun _ => KTBinary.predictor.seqProb (KTBinary.init none)) (fun _ ys => KTBinary.predictor.seqProb_nonneg _ ys)
    (fun _ ys h => Runs.kt_le h) m (levelsFor m xs.length) 0 xs hw).2
  have h3 := h1.trans (mul_le_mul_of_nonneg_left h2 (by positivity))
  have h4 := Real.log_le_log (Real.exp_pos r) h3
  rw [Real.log_exp, Real.log_mul (by positivity) (by positivity), Real.log_pow, Real.log_pow, one_div, Real.log_inv] at h4
  linarith

/-- **C179 (learners.PTW).** The same for `PTW` of `learners.py`. -/
theorem C179_learners_PTW (depth : ℕ) (s0 : LPTW KTBinary) (h0 : LPTW.init (KTBinary.init none) depth = .ok s0) (xs : List Bool) (r : ℝ) (s : LPTW KTBinary)
    (hr : (LPTW.predictor KTBinary.predictor (KTBinary.init none)).run s0 (xs.map LPTW.obs) = .ok (r, s)) : runs xs * Real.log 2 ≤ -r := by
  obtain ⟨-, -, h1, h2⟩ := C36_learners_PTW_closed_form KTBinary.predictor (KTBinary.init none) depth s0 h0 xs r s hr
  refine Runs.log_half ?_
  rw [h2, h1]
  have := (Runs.ptw_le (fun _ ys => KTBinary.predictor.seqProb_nonneg _ ys) (fun _ ys h => Runs.kt_le h) 0 depth 0 (xs.map LPTW.obs) (by
    intro o ho
    obtain ⟨x, -, rfl⟩ := List.mem_map.mp ho
    rfl)).2
  have e : (xs.map LPTW.obs).map Obs.sym = xs := by simp [LPTW.obs, Function.comp_def]
  rwa [e] at this

/-- **C179 (learners.KT).** The same over `KT` of `learners.py`. -/
theorem C179_learners (f : LKT Bool) (hf : LKT.init [false, true] = .ok f) (depth : ℕ) (s0 : LPTW (LKT Bool)) (h0 : LPTW.init f depth = .ok s0) (xs : List Bool) (r : ℝ) (s : LPTW (LKT Bool))
    (hr : (LPTW.predictor LKT.predictor f).run s0 (xs.map LPTW.obs) = .ok (r, s)) : runs xs * Real.log 2 ≤ -r := by
  obtain ⟨-, -, h1, h2⟩ := C36_learners_PTW_closed_form LKT.predictor f depth s0 h0 xs r s hr
  refine Runs.log_half ?_
  rw [h2, h1]
  have := (Runs.ptw_le (fun _ ys => LKT.predictor.seqProb_nonneg f ys) (fun _ ys h => by
    rw [CtwRedundancy.lkt_seqProb (by simp) (by simp) hf C04_KTBinary_eq_KT.1 h]
    exact Runs.kt_bits C04_KTBinary_eq_KT.1 h) 0 depth 0 (xs.map LPTW.obs) (by
    intro o ho
    obtain ⟨x, -, rfl⟩ := List.mem_map.mp ho
    rfl)).2
  have e : (xs.map LPTW.obs).map Obs.sym = xs := by simp [LPTW.obs, Function.comp_def]
  rwa [e] at this

/-- **C179 (learners.KT alone).** And `KT` of `learners.py` by itself. -/
theorem C179_learners_KT (f : LKT Bool) (hf : LKT.init [false, true] = .ok f) (xs : List (Obs Bool)) (hw : ∀ o ∈ xs, o.weight = 1) (r : ℝ) (s : LKT Bool)
    (hr : LKT.predictor.run f xs = .ok (r, s)) : runs (xs.map Obs.sym) * Real.log 2 ≤ -r := by
  refine Runs.log_half ?_
  rw [← seqProb_of_run hr, CtwRedundancy.lkt_seqProb (by simp) (by simp) hf C04_KTBinary_eq_KT.1 hw]
  exact Runs.kt_bits C04_KTBinary_eq_KT.1 hw

/-- **C179 (ctw.py).** The same for `KT` of `ctw.py`, and for `PTW` of `ctw.py` over it. -/
theorem C179_ctw (f : CKT Bool) (hf : CKT.init [false, true] none = .ok f) (height : ℕ) (xs : List (Obs Bool)) (hw : ∀ o ∈ xs, o.weight = 1) :
    (∀ r s, CKT.probSeq.toPredictor.run f xs = .ok (r, s) → runs (xs.map Obs.sym) * Real.log 2 ≤ -r) ∧
    ∀ r s, (CPTW.probSeq CKT.probSeq f height).toPredictor.run (CPTW.init f) xs = .ok (r, s) → runs (xs.map Obs.sym) * Real.log 2 ≤ -r := by
  have hb : ∀ ys : List (Obs Bool), (∀ o ∈ ys, o.weight = 1) → CKT.probSeq.toPredictor.seqProb f ys ≤ (1 / 2) ^ runs (ys.map Obs.sym) := fun ys h => by
    rw [CtwRedundancy.ckt_seqProb (by simp) (by simp) hf C04_KTBinary_eq_KT.1 (fun o ho => by rw [h o ho]; norm_num)]
    exact Runs.kt_bits C04_KTBinary_eq_KT.1 h
  refine ⟨fun r s hr => Runs.log_half ?_, fun r s hr => Runs.log_half ?_⟩
  · rw [← seqProb_of_run hr]
    exact hb xs hw
  · have hf0 : CKT.probSeq.lp f = 0 := by
      rw [CKT.init_default (by simp) (by simp), Except.ok.injEq] at hf
      rw [← hf]
      rfl
    rw [(C39_ctw_PTW_closed_form CKT.probSeq f height CKT.tracks hf0 xs r s hr).2.2]
    exact (Runs.ptw_le (fun _ ys => CKT.probSeq.toPredictor.seqProb_nonneg f ys) (fun _ ys h => hb ys h) 0 height 0 xs hw).2

/-- 0, 0, 1, 0 has three runs, and `KTBinary` gives it the probability 5/128, which is at most 1/8. -/
example : runs [false, false, true, false] = 3 ∧ ktP 3 1 = 5 / 128 := by
  refine ⟨by decide, ?_⟩
  norm_num [ktP, rise, Finset.prod_range_succ, Nat.factorial]

end Verif
