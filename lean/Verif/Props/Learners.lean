import Verif.Proofs.Learners
import Verif.Props.PTW

/-!
# C36-C38: `learners.PTW`

Symbols are presented to base models without history and with weight one: `LPTW.obs a`.
-/

namespace Verif

open Predictor LPTW

variable {σ α : Type} (P : Predictor σ α) (fresh : σ)

/-- **C36.** Whenever a run of `learners.PTW(factory, depth)` on `xs` succeeds, `xs` has at most `2 ^ depth` symbols and
the log probability of the object, and the sum of the returned values, are those of the recursively defined
partition-tree mixture. -/
theorem C36_learners_PTW_closed_form (depth : ℕ) (s0 : LPTW σ) (h0 : init fresh depth = .ok s0) (xs : List α)
    (r : ℝ) (s : LPTW σ) (hr : (LPTW.predictor P fresh).run s0 (xs.map obs) = .ok (r, s)) :
    xs.length ≤ 2 ^ depth ∧ s.numSteps = xs.length ∧
      Real.exp s.logProb = ptwProb (fun _ => P.seqProb fresh) 0 depth 0 (xs.map obs) ∧ r = s.logProb := by
  simp only [init, ne_eq, not_true, if_false, Except.ok.injEq] at h0
  subst h0
  obtain ⟨h1, h2⟩ := run_inv (inv_init (P := P) fresh depth) hr
  rw [List.nil_append] at h1
  refine ⟨by simpa using h1.bound, by simpa using h1.steps, h1.lp, by simpa using h2⟩

/-- **C36 (agreement).** `learners.PTW(factory, depth)` and `model.PTWFixedLength(factory, 2 ** depth)` report the same
probability for every sequence on which both succeed. -/
theorem C36_learners_PTW_eq_PTWFixedLength (depth : ℕ) (s0 : LPTW σ) (h0 : init fresh depth = .ok s0) (xs : List α)
    (r r' : ℝ) (s : LPTW σ) (s' : PTW σ) (hr : (LPTW.predictor P fresh).run s0 (xs.map obs) = .ok (r, s))
    (hr' : (PTWFixedLength.predictor P fresh 0 depth).run (PTW.init fresh 0) (xs.map obs) = .ok (r', s')) :
    r = r' := by
  obtain ⟨h1, _, h2, h3⟩ := C36_learners_PTW_closed_form P fresh depth s0 h0 xs r s hr
  have h4 := C24_PTWFixedLength_closed_form P fresh 0 depth (xs.map obs) (by simpa using h1) r' s' hr'
  rw [Nat.sub_zero] at h4
  apply Real.exp_injective
  rw [h4, ← h2, h3]

/-- **C36 (success).** Over a base model that accepts the symbols, every run of at most `2 ^ depth` symbols succeeds. -/
theorem C36_learners_PTW_total (I : σ → Prop) (A : List α) (W : ℝ → Prop) (hP : P.UpdateLawful I A W) (hf : I fresh)
    (hw : W 1) (depth : ℕ) (s0 : LPTW σ) (h0 : init fresh depth = .ok s0) (xs : List α) (hx : ∀ a ∈ xs, a ∈ A)
    (hl : xs.length ≤ 2 ^ depth) : ∃ r s, (LPTW.predictor P fresh).run s0 (xs.map obs) = .ok (r, s) := by
  simp only [init, ne_eq, not_true, if_false, Except.ok.injEq] at h0
  subst h0
  obtain ⟨r, s, h, _⟩ := run_total hP hf hw xs [] (by simp) hx (by simpa using hl) (inv_init fresh depth)
  exact ⟨r, s, h⟩

/-- **C36 (limit).** The update after exactly `2 ^ depth` symbols raises `ValueError`, whatever the symbol, history and
weight. -/
theorem C36_learners_PTW_limit (depth : ℕ) (s0 : LPTW σ) (h0 : init fresh depth = .ok s0) (xs : List α)
    (hl : xs.length = 2 ^ depth) (r : ℝ) (s : LPTW σ)
    (hr : (LPTW.predictor P fresh).run s0 (xs.map obs) = .ok (r, s)) (a : α) (h : List α) (w : ℝ) :
    (LPTW.predictor P fresh).update s a h w = .error .valueError := by
  simp only [init, ne_eq, not_true, if_false, Except.ok.injEq] at h0
  subst h0
  obtain ⟨h1, _⟩ := run_inv (inv_init (P := P) fresh depth) hr
  rw [List.nil_append] at h1
  have : 2 ^ s.depth ≤ s.numSteps := by rw [h1.depth, h1.steps]; simp [hl]
  simp [LPTW.predictor, LPTW.update, this]

/-- **C36 (depth).** A minimum block size other than one is refused by the constructor. -/
theorem C36_learners_PTW_deepest (depth deepest : ℕ) (h : deepest ≠ 0) :
    init fresh depth deepest = .error .notImplementedError := by
  simp [init, h]

/-- The hypotheses are met by the binary KT estimator: a run of three symbols at depth two succeeds. -/
example : ∃ r s, (LPTW.predictor KTBinary.predictor (KTBinary.init none)).run
    ⟨2, 0, 0, [(0, (KTBinary.init none, 0))], List.replicate 3 0⟩ ([true, false, true].map obs) = .ok (r, s) :=
  C36_learners_PTW_total _ _ _ [false, true] _ KTBinary.lawful.updateLawful (by norm_num [KTBinary.init])
    (by norm_num) 2 _ rfl _ (by simp) (by norm_num)

/-- The mixture written out for three symbols at depth two. -/
example (p : ℕ → List ℕ → ℝ) (x y z : ℕ) :
    ptwProb p 0 2 0 [x, y, z] = 1/2 * p 0 [x, y, z] +
      1/2 * ((1/2 * p 0 [x, y] + 1/2 * (p 0 [x] * p 1 [y])) * (1/2 * p 2 [z] + 1/2 * (p 2 [z] * p 3 []))) := by
  simp only [ptwProb]
  norm_num [List.take, List.drop]

/-- **C37.** In every state reached by fewer than `2 ^ depth` symbols, `log_predict` returns exactly what `update` would
return, and changes nothing.  The base model's `log_predict` must agree with its `update` and leave the base model
alone. -/
theorem C37_learners_PTW_predict_eq_update (I : σ → Prop) (A : List α) (W : ℝ → Prop) (hP : P.Lawful I A W)
    (hf : I fresh) (hw : W 1) (hpure : ∀ s a h r t, I s → P.logPredict s a h = .ok (r, t) → t = s)
    (depth : ℕ) (s0 : LPTW σ) (h0 : init fresh depth = .ok s0) (xs : List α) (hx : ∀ a ∈ xs, a ∈ A)
    (hl : xs.length < 2 ^ depth) (r : ℝ) (s : LPTW σ)
    (hr : (LPTW.predictor P fresh).run s0 (xs.map obs) = .ok (r, s)) (a : α) (ha : a ∈ A) (h h' : List α) (w : ℝ) :
    ∃ q s', (LPTW.predictor P fresh).logPredict s a h = .ok (q, s) ∧
      (LPTW.predictor P fresh).update s a h' w = .ok (q, s') := by
  simp only [init, ne_eq, not_true, if_false, Except.ok.injEq] at h0
  subst h0
  obtain ⟨h1, _⟩ := run_inv (inv_init (P := P) fresh depth) hr
  rw [List.nil_append] at h1
  obtain ⟨q, h2, h3⟩ := logPredict_ok hP hf hw hpure hx h1 hl ha
  obtain ⟨s', h4, h5⟩ := update_total hP.updateLawful hf hw hx h1 hl ha
  refine ⟨q, s', h2, ?_⟩
  rw [show q = s'.logProb - s.logProb by
    apply Real.exp_injective
    rw [h3, Real.exp_sub, h5.lp]]
  exact h4

/-- **C37 (normalisation).** In every such state the predicted probabilities of the symbols sum to one. -/
theorem C37_learners_PTW_normalised (I : σ → Prop) (A : List α) (W : ℝ → Prop) (hP : P.Lawful I A W)
    (hf : I fresh) (hw : W 1) (hpure : ∀ s a h r t, I s → P.logPredict s a h = .ok (r, t) → t = s)
    (depth : ℕ) (s0 : LPTW σ) (h0 : init fresh depth = .ok s0) (xs : List α) (hx : ∀ a ∈ xs, a ∈ A)
    (hl : xs.length < 2 ^ depth) (r : ℝ) (s : LPTW σ)
    (hr : (LPTW.predictor P fresh).run s0 (xs.map obs) = .ok (r, s)) (h : List α) :
    (A.map fun a => probOf ((LPTW.predictor P fresh).logPredict s a h)).sum = 1 := by
  simp only [init, ne_eq, not_true, if_false, Except.ok.injEq] at h0
  subst h0
  obtain ⟨h1, _⟩ := run_inv (inv_init (P := P) fresh depth) hr
  rw [List.nil_append] at h1
  have : ∀ a ∈ A, probOf ((LPTW.predictor P fresh).logPredict s a h) =
      ptwProb (PTWNode.blockProb P fun _ => fresh) 0 depth 0 (xs.map obs ++ [⟨a, [], 1⟩]) * (Real.exp s.logProb)⁻¹ := by
    intro a ha
    obtain ⟨q, h2, h3⟩ := logPredict_ok hP hf hw hpure hx h1 hl ha
    simp only [LPTW.predictor, h2, probOf_ok]
    rw [h3, div_eq_mul_inv, List.map_append]
    rfl
  have hg : GoodObs A W (xs.map obs) := by
    intro o ho
    obtain ⟨a, ha, rfl⟩ := List.mem_map.mp ho
    exact ⟨hx a ha, hw⟩
  rw [List.map_congr_left this, List.sum_map_mul_right,
    PTW.blockProb_sum hP.updateLawful (fun _ => hf) hg [] hw depth 0 (by simpa using hl)]
  have e : ptwProb (PTWNode.blockProb P fun _ => fresh) 0 depth 0 (xs.map obs) = Real.exp s.logProb := h1.lp.symm
  rw [e, mul_inv_cancel₀ (Real.exp_pos _).ne']

/-- The binary KT estimator meets the hypotheses of C37. -/
example : KTBinary.predictor.Lawful (fun s => 0 < s.c0 ∧ 0 < s.c1) [false, true] (fun w => 0 ≤ w) ∧
    ∀ s a h r t, (0 < s.c0 ∧ 0 < s.c1) → KTBinary.predictor.logPredict s a h = .ok (r, t) → t = s := by
  refine ⟨KTBinary.lawful, ?_⟩
  intro s a h r t _ ht
  simp only [KTBinary.predictor, bind_eq_ok, pure_eq_ok, Except.ok.injEq, Prod.mk.injEq] at ht
  obtain ⟨_, _, _, rfl⟩ := ht
  rfl

/-- **C38.** Between updates the base models held are exactly: the one started at time 0, and one for each start of a
block of the partition tree that lies strictly before the current time `n` and whose block contains `n`. -/
theorem C38_learners_PTW_models (depth : ℕ) (s0 : LPTW σ) (h0 : init fresh depth = .ok s0) (xs : List α)
    (r : ℝ) (s : LPTW σ) (hr : (LPTW.predictor P fresh).run s0 (xs.map obs) = .ok (r, s)) (k : ℕ) :
    k ∈ s.models.keys ↔ k = 0 ∨ (k < xs.length ∧ ∃ i, 2 ^ i ∣ k ∧ xs.length < k + 2 ^ i) := by
  simp only [init, ne_eq, not_true, if_false, Except.ok.injEq] at h0
  subst h0
  obtain ⟨h1, _⟩ := run_inv (inv_init (P := P) fresh depth) hr
  rw [List.nil_append] at h1
  rw [h1.keys, List.length_map]
  constructor
  · rintro (h | ⟨h, i, rfl⟩)
    · exact .inl h
    · refine .inr ⟨lt_of_le_of_ne (bb_le _ _) h, i, ?_, lt_bb _ _⟩
      rw [binaryBoundary_eq]
      exact Dvd.intro _ rfl
  · rintro (h | ⟨h, i, ⟨q, rfl⟩, h2⟩)
    · exact .inl h
    · refine .inr ⟨h.ne, i, ?_⟩
      rw [binaryBoundary_eq]
      congr 1
      symm
      apply Nat.div_eq_of_lt_le
      · rw [mul_comm]; exact h.le
      · rw [add_mul, one_mul, mul_comm q]; exact h2

/-- **C38 (contents).** The model started at time `k` has seen exactly the symbols since time `k`. -/
theorem C38_learners_PTW_model_contents (depth : ℕ) (s0 : LPTW σ) (h0 : init fresh depth = .ok s0) (xs : List α)
    (r : ℝ) (s : LPTW σ) (hr : (LPTW.predictor P fresh).run s0 (xs.map obs) = .ok (r, s)) (k : ℕ) (st : σ) (lp : ℝ)
    (hk : s.models.get? k = some (st, lp)) : P.run fresh ((xs.drop k).map obs) = .ok (lp, st) := by
  simp only [init, ne_eq, not_true, if_false, Except.ok.injEq] at h0
  subst h0
  obtain ⟨h1, _⟩ := run_inv (inv_init (P := P) fresh depth) hr
  rw [List.nil_append] at h1
  rw [List.map_drop]
  exact h1.run k st lp hk

/-- **C38 (bound).** At most `max 1 depth` base models are held between updates. -/
theorem C38_learners_PTW_at_most_depth (depth : ℕ) (s0 : LPTW σ) (h0 : init fresh depth = .ok s0) (xs : List α)
    (r : ℝ) (s : LPTW σ) (hr : (LPTW.predictor P fresh).run s0 (xs.map obs) = .ok (r, s)) :
    s.models.length ≤ max 1 depth := by
  simp only [init, ne_eq, not_true, if_false, Except.ok.injEq] at h0
  subst h0
  obtain ⟨h1, _⟩ := run_inv (inv_init (P := P) fresh depth) hr
  rw [List.nil_append] at h1
  have hb := h1.bound
  rw [List.length_map] at hb
  have hsub : s.models.keys ⊆ 0 :: (List.range' 1 (depth - 1)).map (binaryBoundary xs.length) := by
    intro k hk
    rw [h1.keys, List.length_map] at hk
    rcases hk with rfl | ⟨h, i, rfl⟩
    · simp
    · rw [List.mem_cons, List.mem_map]
      by_cases hi : i < depth
      · refine .inr ⟨i, ?_, rfl⟩
        rw [List.mem_range'_1]
        have : i ≠ 0 := by rintro rfl; exact h (bb_zero _)
        omega
      · left
        by_cases hlt : xs.length < 2 ^ i
        · exact bb_big hlt
        · have hpow : 2 ^ depth ≤ 2 ^ i := Nat.pow_le_pow_right (by norm_num) (by omega)
          have he : xs.length = 2 ^ i := by omega
          exfalso
          apply h
          rw [binaryBoundary_eq, he, Nat.div_self (by positivity), mul_one]
  have := (h1.nodup.subperm hsub).length_le
  rw [PyDict.length_keys] at this
  simp only [List.length_cons, List.length_map, List.length_range'] at this
  omega

/-- After 7 of 16 symbols the models held started at 0, 4 and 6, as in the documentation (learners.py:278-280). -/
example (k : ℕ) : (k = 0 ∨ (k < 7 ∧ ∃ i, 2 ^ i ∣ k ∧ 7 < k + 2 ^ i)) ↔ k = 0 ∨ k = 4 ∨ k = 6 := by
  constructor
  · rintro (h | ⟨h, i, h1, h2⟩)
    · exact .inl h
    · match i with
      | 0 => simp at h2; omega
      | 1 => norm_num at h1 h2; omega
      | 2 => norm_num at h1 h2; omega
      | i + 3 =>
        left
        have h8 : 8 ≤ 2 ^ (i + 3) := by rw [pow_add]; have := Nat.one_le_two_pow (n := i); omega
        exact Nat.eq_zero_of_dvd_of_lt h1 (by omega)
  · rintro (h | h | h) <;> subst h
    · exact .inl rfl
    · exact .inr ⟨by norm_num, 2, by norm_num, by norm_num⟩
    · exact .inr ⟨by norm_num, 1, by norm_num, by norm_num⟩

end Verif
