import Verif.Proofs.PTWPredict
import Verif.Proofs.PTWRegret
import Verif.Proofs.CTWPure

/-!
# C24-C30: partition tree weighting
-/

namespace Verif

open Predictor PTWNode

variable {σ α : Type} (P : Predictor σ α) (fresh : σ)

/-- **C24.** `PTWFixedLength` of height `height` over minimum blocks of `2 ^ m`: whenever a run on at most
`2 ^ max m height` observations succeeds, the probability it reports is the recursively defined partition-tree mixture
over blocks of the base model. -/
theorem C24_PTWFixedLength_closed_form (m height : ℕ) (xs : List (Obs α)) (hl : xs.length ≤ 2 ^ max m height)
    (r : ℝ) (s : PTW σ) (hr : (PTWFixedLength.predictor P fresh m height).run (PTW.init fresh m) xs = .ok (r, s)) :
    Real.exp r = ptwProb (fun _ => P.seqProb fresh) m (height - m) 0 xs := by
  have hmax : max m height = m + (height - m) := by omega
  rw [hmax] at hl
  obtain ⟨_, h2, h3⟩ := PTWFixedLength.run_ratio (m := m) (k := height - m) rfl
    (rep_new (P := P) (fr := fun _ => fresh) 0)
    (by rw [ptwProb_nil (blockProb_nil P _)]; simp [PTW.init]) (by simpa using hl) hr
  rw [h3]
  have e : s.logProb - (PTW.init fresh m).logProb = s.logProb := by simp [PTW.init]
  rw [e]
  exact h2

/-- **C24 (bounds).** The length is rounded up to a power of two: any sequence no longer than `length` is covered. -/
theorem C24_length_rounded_up (length height : ℕ) (hh : PTWFixedLength.heightOf length = .ok height) :
    length ≤ 2 ^ height ∧ ∀ j, length ≤ 2 ^ j → height ≤ j := by
  unfold PTWFixedLength.heightOf at hh
  split_ifs at hh
  simp only [Except.ok.injEq] at hh
  subst hh
  exact ⟨Nat.le_pow_clog (by norm_num) _, fun j hj => (Nat.clog_le_iff_le_pow (by norm_num)).mpr hj⟩

/-- **C24 (as constructed).** In particular for `PTWFixedLength(length, min_partition_length = minLen)` and a sequence
of at most `length` observations. -/
theorem C24_PTWFixedLength_init (length minLen m height : ℕ) (hm : PTW.minHeight minLen = .ok m)
    (hh : PTWFixedLength.heightOf length = .ok height) (xs : List (Obs α)) (hl : xs.length ≤ length)
    (r : ℝ) (s : PTW σ) (hr : (PTWFixedLength.predictor P fresh m height).run (PTW.init fresh m) xs = .ok (r, s)) :
    Real.exp r = ptwProb (fun _ => P.seqProb fresh) (Nat.log 2 minLen) (Nat.clog 2 length - Nat.log 2 minLen) 0 xs := by
  have h1 := (C24_length_rounded_up length height hh).1
  rw [C24_PTWFixedLength_closed_form P fresh m height xs
    (hl.trans (h1.trans (Nat.pow_le_pow_right (by norm_num) (le_max_right _ _)))) r s hr]
  unfold PTWFixedLength.heightOf at hh
  unfold PTW.minHeight at hm
  split_ifs at hh hm
  simp only [Except.ok.injEq] at hh hm
  rw [hh, hm]

/-- **C24 (success and normalisation).** Over a base model with normalised updates, runs within the length succeed,
and before the length is used up the probabilities of the next symbol sum to one. -/
theorem C24_PTWFixedLength_normalised (I : σ → Prop) (A : List α) (W : ℝ → Prop) (hP : P.UpdateLawful I A W)
    (hf : I fresh) (m height : ℕ) (xs : List (Obs α)) (hx : ∀ o ∈ xs, o.sym ∈ A ∧ W o.weight)
    (hl : xs.length < 2 ^ max m height) (h : List α) (w : ℝ) (hw : W w) :
    ∃ r s, (PTWFixedLength.predictor P fresh m height).run (PTW.init fresh m) xs = .ok (r, s) ∧
      (A.map fun a => probOf ((PTWFixedLength.predictor P fresh m height).update s a h w)).sum = 1 := by
  have hmax : max m height = m + (height - m) := by omega
  rw [hmax] at hl
  have htot : ∀ (s : PTW σ) (a : α) (h : List α) (w : ℝ), All I s.tree → a ∈ A → W w →
      ∃ r s', (PTWFixedLength.predictor P fresh m height).update s a h w = .ok (r, s') ∧ All I s'.tree := by
    intro s a h w hs ha hw
    obtain ⟨n, h1, h2⟩ := hs.update (m := m) hP.total hf ha h hw
    refine ⟨PTWData.correct n.data.baseLP (height - n.data.height) n.data.lp - s.logProb,
      ⟨n, PTWData.correct n.data.baseLP (height - n.data.height) n.data.lp, s.adj⟩, ?_, h2⟩
    simp only [PTWFixedLength.predictor, PTWFixedLength.update, h1, ok_bind, pure_eq_ok]
  have hrun : ∀ (xs : List (Obs α)) (s : PTW σ), All I s.tree → (∀ o ∈ xs, o.sym ∈ A ∧ W o.weight) →
      ∃ r s', (PTWFixedLength.predictor P fresh m height).run s xs = .ok (r, s') ∧ All I s'.tree := by
    intro xs
    induction xs with
    | nil => exact fun s hs _ => ⟨0, s, rfl, hs⟩
    | cons o xs ih =>
      intro s hs hx
      obtain ⟨r1, s1, h1, h2⟩ := htot s o.sym o.hist o.weight hs (hx o (by simp)).1 (hx o (by simp)).2
      obtain ⟨r2, s2, h3, h4⟩ := ih s1 h2 (fun o ho => hx o (by simp [ho]))
      exact ⟨r1 + r2, s2, run_cons_ok.mpr ⟨r1, s1, r2, h1, h3, rfl⟩, h4⟩
  obtain ⟨r, s, hr, hs⟩ := hrun xs (PTW.init fresh m) hf hx
  refine ⟨r, s, hr, ?_⟩
  obtain ⟨h1, h2, h3⟩ := PTWFixedLength.run_ratio (m := m) (k := height - m) rfl
    (rep_new (P := P) (fr := fun _ => fresh) 0)
    (by rw [ptwProb_nil (blockProb_nil P _)]; simp [PTW.init]) (by simpa using hl.le) hr
  rw [List.nil_append] at h1 h2
  have : ∀ a ∈ A, probOf ((PTWFixedLength.predictor P fresh m height).update s a h w) =
      ptwProb (blockProb P fun _ => fresh) m (height - m) 0 (xs ++ [⟨a, h, w⟩]) * (Real.exp s.logProb)⁻¹ := by
    intro a ha
    obtain ⟨q, s', g1, _⟩ := htot s a h w hs ha hw
    obtain ⟨_, g2, g3⟩ := PTWFixedLength.update_ratio (o := ⟨a, h, w⟩) rfl h1 hl g1
    rw [g1, probOf_ok, g3, Real.exp_sub, g2, div_eq_mul_inv]
  rw [List.map_congr_left this, List.sum_map_mul_right,
    PTW.blockProb_sum hP (fun _ => hf) hx h hw (height - m) 0 hl, ← h2, mul_inv_cancel₀ (Real.exp_pos _).ne']

/-- The default settings on three symbols: minimum block 1, length 4. -/
example : PTW.minHeight 1 = .ok 0 ∧ PTWFixedLength.heightOf 3 = .ok 2 := by
  constructor <;> decide

/-- The mixture written out for two symbols and one level. -/
example (p : ℕ → List ℕ → ℝ) (x y : ℕ) :
    ptwProb p 0 1 0 [x, y] = 1/2 * p 0 [x, y] + 1/2 * (p 0 [x] * p 1 [y]) := by
  simp only [ptwProb]
  norm_num [List.take, List.drop]

/-- **C25.** After any successful run of `PTW` on `xs`, the next update with `o` reports the ratio of the partition-tree
mixtures after and before, both for the smallest tree that covers the extended sequence. -/
theorem C25_PTW_ratio (m : ℕ) (xs : List (Obs α)) (o : Obs α) (r q : ℝ) (s s' : PTW σ)
    (hr : (PTW.predictor P fresh m).run (PTW.init fresh m) xs = .ok (r, s))
    (hu : (PTW.predictor P fresh m).update s o.sym o.hist o.weight = .ok (q, s')) :
    Real.exp q = ptwProb (fun _ => P.seqProb fresh) m (levelsFor m (xs.length + 1)) 0 (xs ++ [o]) /
      ptwProb (fun _ => P.seqProb fresh) m (levelsFor m (xs.length + 1)) 0 xs := by
  have hi := PTW.run_inv (m := m) (PTW.inv_init (P := P) (fr := fun _ => fresh)) hr
  exact (hi.update (o := o) hu).2

/-- `levelsFor m n` is the height above the minimum of the smallest tree: 5 symbols need 3 levels over blocks of 1,
and 2 levels over blocks of 2. -/
example : levelsFor 0 5 = 3 ∧ levelsFor 1 5 = 2 := by
  constructor
  · exact levelsFor_succ (by norm_num) (by norm_num)
  · exact levelsFor_succ (by norm_num) (by norm_num)

/-- **C26.** Over a base model with normalised updates, every run of `PTW` succeeds, and in the resulting state the
probabilities that `update` would report for the symbols of the alphabet sum to one. -/
theorem C26_PTW_normalised (I : σ → Prop) (A : List α) (W : ℝ → Prop) (hP : P.UpdateLawful I A W) (hf : I fresh)
    (m : ℕ) (xs : List (Obs α)) (hx : ∀ o ∈ xs, o.sym ∈ A ∧ W o.weight) (h : List α) (w : ℝ) (hw : W w) :
    ∃ r s, (PTW.predictor P fresh m).run (PTW.init fresh m) xs = .ok (r, s) ∧
      (A.map fun a => probOf ((PTW.predictor P fresh m).update s a h w)).sum = 1 := by
  have hL := PTW.updateLawful (m := m) hP hf
  obtain ⟨r, s, h1, h2⟩ := hL.run_ok (s := PTW.init fresh m) ⟨[], by simp [GoodObs], PTW.inv_init, hf⟩ hx
  exact ⟨r, s, h1, hL.sum_probOf h2 hw h⟩

/-- The base model `KTBinary` meets the hypotheses of C24 and C26. -/
example : KTBinary.predictor.UpdateLawful (fun s => 0 < s.c0 ∧ 0 < s.c1) [false, true] (fun w => 0 ≤ w) ∧
    0 < (KTBinary.init none).c0 ∧ 0 < (KTBinary.init none).c1 :=
  ⟨KTBinary.lawful.updateLawful, by norm_num [KTBinary.init]⟩

section Predict

variable {P fresh}

private theorem all_coh {I : σ → Prop} {A : List α} {W : ℝ → Prop} (hP : P.Lawful I A W) {a : α} (ha : a ∈ A)
    (h : List α) {w : ℝ} (hw : W w) {n : PTWNode σ} (hn : All I n) : All (CohAt P a h w) n := by
  induction n with
  | leaf d => exact fun r s' hu => hP.coherent d.base a h w hn ha hw r s' hu
  | inner d r ih => exact ⟨fun r s' hu => hP.coherent d.base a h w hn.1 ha hw r s' hu, ih hn.2⟩

private theorem state_of_run {I : σ → Prop} {A : List α} {W : ℝ → Prop} (hP : P.Lawful I A W) (hf : I fresh) {m : ℕ}
    {xs : List (Obs α)} (hx : ∀ o ∈ xs, o.sym ∈ A ∧ W o.weight) {r : ℝ} {s : PTW σ}
    (hr : (PTW.predictor P fresh m).run (PTW.init fresh m) xs = .ok (r, s)) :
    PTW.Inv P (fun _ => fresh) m s xs ∧ All I s.tree := by
  have hi := PTW.run_inv (m := m) (PTW.inv_init (P := P) (fr := fun _ => fresh)) hr
  rw [List.nil_append] at hi
  obtain ⟨r', s', h1, _, _, _, h2⟩ := (PTW.updateLawful (m := m) hP.updateLawful hf).run_ok
    (s := PTW.init fresh m) ⟨[], by simp [GoodObs], PTW.inv_init, hf⟩ hx
  rw [hr] at h1
  simp only [Except.ok.injEq, Prod.mk.injEq] at h1
  obtain ⟨rfl, rfl⟩ := h1
  exact ⟨hi, h2⟩

/-- **C27, partial** (the current minimum-length block is unfinished, or nothing has been observed).  `log_predict`
returns what `update` would.  Missing: the other states, where it is false (`C27_predict_overestimates`). -/
theorem C27_predict_eq_update_partial (I : σ → Prop) (A : List α) (W : ℝ → Prop) (hP : P.Lawful I A W) (hf : I fresh)
    (m : ℕ) (xs : List (Obs α)) (hx : ∀ o ∈ xs, o.sym ∈ A ∧ W o.weight) (hb : xs = [] ∨ ¬ 2 ^ m ∣ xs.length)
    (r : ℝ) (s : PTW σ) (hr : (PTW.predictor P fresh m).run (PTW.init fresh m) xs = .ok (r, s))
    (a : α) (ha : a ∈ A) (h : List α) (w : ℝ) (hw : W w) :
    ∃ q s' t, (PTW.predictor P fresh m).update s a h w = .ok (q, s') ∧
      (PTW.predictor P fresh m).logPredict s a h = .ok (q, t) := by
  obtain ⟨hi, hs⟩ := state_of_run hP hf hx hr
  obtain ⟨q, s', h1, _⟩ := PTW.update_total (m := m) hP.updateLawful hf hs ha h hw
  have h1' := h1
  simp only [PTW.update, bind_eq_ok, pure_eq_ok, Except.ok.injEq, Prod.mk.injEq] at h1
  obtain ⟨n, hn, rfl, rfl⟩ := h1
  obtain ⟨t, ht⟩ := logPredict_open (all_coh hP ha h hw hs) (hi.rep.open_iff.mpr hb) hn
  refine ⟨_, _, ⟨t, s.logProb, s.adj⟩, h1', ?_⟩
  simp only [PTW.predictor, PTW.logPredict, ht, ok_bind, pure_eq_ok]

/-- **C27, the code's behaviour at block boundaries.** After any positive number of symbols divisible by the minimum
block length, `log_predict` returns strictly more than `update` would, for every symbol to which a fresh base model
gives probability below one. -/
theorem C27_predict_overestimates (I : σ → Prop) (A : List α) (W : ℝ → Prop) (hP : P.Lawful I A W) (hf : I fresh)
    (m : ℕ) (xs : List (Obs α)) (hx : ∀ o ∈ xs, o.sym ∈ A ∧ W o.weight) (hne : xs ≠ []) (hb : 2 ^ m ∣ xs.length)
    (r : ℝ) (s : PTW σ) (hr : (PTW.predictor P fresh m).run (PTW.init fresh m) xs = .ok (r, s))
    (a : α) (ha : a ∈ A) (h : List α) (w : ℝ) (hw : W w) (hlt : probOf (P.update fresh a h w) < 1) :
    ∃ q q' s' t, (PTW.predictor P fresh m).update s a h w = .ok (q, s') ∧
      (PTW.predictor P fresh m).logPredict s a h = .ok (q', t) ∧ q < q' := by
  obtain ⟨hi, hs⟩ := state_of_run hP hf hx hr
  obtain ⟨q, s', h1, _⟩ := PTW.update_total (m := m) hP.updateLawful hf hs ha h hw
  have h1' := h1
  simp only [PTW.update, bind_eq_ok, pure_eq_ok, Except.ok.injEq, Prod.mk.injEq] at h1
  obtain ⟨n, hn, rfl, rfl⟩ := h1
  obtain ⟨q0, s1, h2, _⟩ := hP.update_ok fresh a h w hf ha hw
  have hneg : q0 < 0 := by
    rw [h2, probOf_ok] at hlt
    exact Real.exp_lt_one_iff.mp hlt
  have hcl : ¬ Open s.tree := by
    rw [hi.rep.open_iff]
    simp [hne, hb]
  obtain ⟨l, t, ht, hl⟩ := logPredict_closed (all_coh hP ha h hw hs) hcl h2 hneg hn
  refine ⟨_, l + s.adjusted - s.logProb, _, ⟨t, s.logProb, s.adj⟩, h1', ?_, by linarith⟩
  simp only [PTW.predictor, PTW.logPredict, ht, ok_bind, pure_eq_ok]

/-- **C27, consequence.** So at every block boundary the predictions over an alphabet of at least two symbols sum to
more than one. -/
theorem C27_predictions_exceed_one (I : σ → Prop) (A : List α) (W : ℝ → Prop) (hP : P.Lawful I A W) (hf : I fresh)
    (hA : 2 ≤ A.length) (m : ℕ) (xs : List (Obs α)) (hx : ∀ o ∈ xs, o.sym ∈ A ∧ W o.weight) (hne : xs ≠ [])
    (hb : 2 ^ m ∣ xs.length) (r : ℝ) (s : PTW σ)
    (hr : (PTW.predictor P fresh m).run (PTW.init fresh m) xs = .ok (r, s)) (h : List α) (w : ℝ) (hw : W w) :
    1 < (A.map fun a => probOf ((PTW.predictor P fresh m).logPredict s a h)).sum := by
  obtain ⟨r', s', h1, hsum⟩ := C26_PTW_normalised P fresh I A W hP.updateLawful hf m xs hx h w hw
  rw [hr] at h1
  simp only [Except.ok.injEq, Prod.mk.injEq] at h1
  obtain ⟨rfl, rfl⟩ := h1
  rw [← hsum]
  have hfs := hP.updateLawful.sum_probOf hf hw h
  have hlt1 : ∀ a ∈ A, probOf (P.update fresh a h w) < 1 := by
    have hpos : ∀ a ∈ A, 0 < probOf (P.update fresh a h w) := by
      intro a ha
      obtain ⟨q0, s1, h2, _⟩ := hP.update_ok fresh a h w hf ha hw
      rw [h2, probOf_ok]
      exact Real.exp_pos _
    intro a ha
    obtain ⟨u, v, rfl⟩ := List.append_of_mem ha
    rw [← hfs, List.map_append, List.map_cons, List.sum_append, List.sum_cons]
    have hu : 0 ≤ (u.map fun a => probOf (P.update fresh a h w)).sum := by
      apply List.sum_nonneg
      intro x hx
      simp only [List.mem_map] at hx
      obtain ⟨b, hb, rfl⟩ := hx
      exact (hpos b (by simp [hb])).le
    have hv : 0 ≤ (v.map fun a => probOf (P.update fresh a h w)).sum := by
      apply List.sum_nonneg
      intro x hx
      simp only [List.mem_map] at hx
      obtain ⟨b, hb, rfl⟩ := hx
      exact (hpos b (by simp [hb])).le
    have : 0 < (u.map fun a => probOf (P.update fresh a h w)).sum ∨
        0 < (v.map fun a => probOf (P.update fresh a h w)).sum := by
      cases u with
      | cons b u =>
        left
        rw [List.map_cons, List.sum_cons]
        have := hpos b (by simp)
        have : 0 ≤ (u.map fun a => probOf (P.update fresh a h w)).sum := by
          apply List.sum_nonneg
          intro x hx
          simp only [List.mem_map] at hx
          obtain ⟨b, hb, rfl⟩ := hx
          exact (hpos b (by simp [hb])).le
        linarith
      | nil =>
        right
        cases v with
        | nil => simp at hA
        | cons b v =>
          rw [List.map_cons, List.sum_cons]
          have := hpos b (by simp)
          have : 0 ≤ (v.map fun a => probOf (P.update fresh a h w)).sum := by
            apply List.sum_nonneg
            intro x hx
            simp only [List.mem_map] at hx
            obtain ⟨b, hb, rfl⟩ := hx
            exact (hpos b (by simp [hb])).le
          linarith
    rcases this with h | h <;> linarith
  apply List.sum_lt_sum_of_ne_nil
  · rintro rfl
    simp at hA
  · intro a ha
    obtain ⟨q, q', s', t, g1, g2, g3⟩ :=
      C27_predict_overestimates I A W hP hf m xs hx hne hb r s hr a ha h w hw (hlt1 a ha)
    rw [g1, g2, probOf_ok, probOf_ok]
    exact Real.exp_lt_exp.mpr g3

/-- **C27, instance.** With the default base model and minimum block, after the single symbol `0` the predictions of `0`
and `1` are 7/8 and 5/8. -/
theorem C27_witness :
    ∃ r s, (PTW.predictor KTBinary.predictor (KTBinary.init none) 0).run (PTW.init (KTBinary.init none) 0)
        [⟨false, [], 1⟩] = .ok (r, s) ∧
      probOf ((PTW.predictor KTBinary.predictor (KTBinary.init none) 0).logPredict s false [false]) = 7/8 ∧
      probOf ((PTW.predictor KTBinary.predictor (KTBinary.init none) 0).logPredict s true [false]) = 5/8 := by
  have hu : KTBinary.predictor.update (KTBinary.init none) false [] 1 =
      .ok (Real.log (1/2), ⟨3/2, 1/2⟩) := by
    norm_num [KTBinary.predictor, KTBinary.update, KTBinary.logPredict, KTBinary.init, KTBinary.get, pyDiv, pyLog,
      KTBinary.bump]
  have hpf : KTBinary.predictor.logPredict ⟨3/2, 1/2⟩ false [false] = .ok (Real.log (3/4), ⟨3/2, 1/2⟩) := by
    norm_num [KTBinary.predictor, KTBinary.logPredict, KTBinary.get, pyDiv, pyLog]
  have hpt : KTBinary.predictor.logPredict ⟨3/2, 1/2⟩ true [false] = .ok (Real.log (1/4), ⟨3/2, 1/2⟩) := by
    norm_num [KTBinary.predictor, KTBinary.logPredict, KTBinary.get, pyDiv, pyLog]
  refine ⟨Real.log (1/2), ⟨.leaf ⟨⟨3/2, 1/2⟩, 0, 1, Real.log (1/2), 0, Real.log (1/2)⟩, Real.log (1/2), 0⟩, ?_, ?_, ?_⟩
  · rw [run_cons_ok]
    refine ⟨Real.log (1/2), _, 0, ?_, rfl, by simp⟩
    simp [PTW.predictor, PTW.update, PTW.init, PTWNode.update, PTWNode.leafUpdate, PTWData.baseStep, PTWData.new, hu,
      PTWData.complete, PTW.adjusted]
  · simp only [PTW.predictor, PTW.logPredict, PTWNode.logPredict, hpf, ok_bind, pure_eq_ok, PTWData.complete,
      PTW.adjusted, data_leaf]
    simp only [Nat.shiftRight_zero, Nat.zero_lt_one, decide_true, if_true, ok_bind, probOf_ok]
    rw [show ∀ x y z u v : ℝ, x + (y + (z - u)) - v = x + y + (z - u) - v by intros; ring]
    rw [Real.exp_sub, Real.exp_add, Real.exp_add, Real.exp_sub, exp_half_lse2, exp_half_lse2, Real.exp_add,
      Real.exp_log (by norm_num), Real.exp_log (by norm_num)]
    norm_num
  · simp only [PTW.predictor, PTW.logPredict, PTWNode.logPredict, hpt, ok_bind, pure_eq_ok, PTWData.complete,
      PTW.adjusted, data_leaf]
    simp only [Nat.shiftRight_zero, Nat.zero_lt_one, decide_true, if_true, ok_bind, probOf_ok]
    rw [show ∀ x y z u v : ℝ, x + (y + (z - u)) - v = x + y + (z - u) - v by intros; ring]
    rw [Real.exp_sub, Real.exp_add, Real.exp_add, Real.exp_sub, exp_half_lse2, exp_half_lse2, Real.exp_add,
      Real.exp_log (by norm_num), Real.exp_log (by norm_num)]
    norm_num

end Predict

/-- **C28.** On every sequence and for every binary temporal partition, the loss of `PTWFixedLength` exceeds the loss of
using a new base model on every segment by at most the partition's description length in bits. -/
theorem C28_PTWFixedLength_regret (m height : ℕ) (xs : List (Obs α)) (hl : xs.length ≤ 2 ^ max m height)
    (r : ℝ) (s : PTW σ) (hr : (PTWFixedLength.predictor P fresh m height).run (PTW.init fresh m) xs = .ok (r, s))
    (T : TPart (height - m)) :
    (1/2 : ℝ) ^ T.cost * ((T.segments m 0 xs).map fun g => P.seqProb fresh g.2).prod ≤ Real.exp r := by
  rw [C24_PTWFixedLength_closed_form P fresh m height xs hl r s hr]
  exact TPart.ptwProb_ge (p := fun _ => P.seqProb fresh) (fun _ xs => P.seqProb_nonneg _ xs) T 0 xs

/-- **C28 (unknown length).** `PTW` without a fixed length loses in addition at most `log2(3/2)` bits per doubling of the
sequence. -/
theorem C28_PTW_regret (m : ℕ) (xs : List (Obs α)) (r : ℝ) (s : PTW σ)
    (hr : (PTW.predictor P fresh m).run (PTW.init fresh m) xs = .ok (r, s)) (T : TPart (levelsFor m xs.length)) :
    (2/3 : ℝ) ^ levelsFor m xs.length * ((1/2 : ℝ) ^ T.cost *
      ((T.segments m 0 xs).map fun g => P.seqProb fresh g.2).prod) ≤ Real.exp r := by
  have hi0 := PTW.inv_init (P := P) (fr := fun _ => fresh) (m := m)
  have hi := PTW.run_inv (m := m) hi0 hr
  obtain ⟨h1, h2⟩ := PTW.run_adj hi0 (by simp [levelsFor_zero, PTW.init]) hr
  rw [List.nil_append] at hi h1
  rw [h2, hi.lp]
  have e : s.tree.data.lp + s.adj - (PTW.init fresh m).logProb = s.adj + s.tree.data.lp := by
    simp [PTW.init]; ring
  rw [e, Real.exp_add, hi.rep.exp_lp]
  have h3 := TPart.ptwProb_ge (p := fun _ => P.seqProb fresh) (m := m) (fun _ xs => P.seqProb_nonneg _ xs) T 0 xs
  refine mul_le_mul h1 h3 ?_ (Real.exp_pos _).le
  exact mul_nonneg (by positivity) (TPart.prod_nonneg (p := fun _ => P.seqProb fresh)
    (fun _ xs => P.seqProb_nonneg _ xs) _)

/-- **C28 (what the bound means).** The segments of a partition concatenate to the sequence, and a partition into `n`
segments costs at most `2 n - 1` bits. -/
theorem C28_partition_cost {β : Type} (m k : ℕ) (T : TPart k) (t : ℕ) (xs : List β) :
    ((T.segments m t xs).map Prod.snd).flatten = xs ∧ (T.segments m t xs).length = T.size ∧
      T.cost ≤ 2 * T.size - 1 :=
  ⟨T.segments_flatten t xs, T.segments_length t xs, by have := T.cost_lt; omega⟩

/-- A partition of 8 items into the first four, the next two, and two single ones. -/
example : (TPart.split (k := 2) .whole (.split (k := 1) .whole (.split (k := 0) .whole .whole))).segments 0 0
    [0, 1, 2, 3, 4, 5, 6, 7] = [(0, [0, 1, 2, 3]), (4, [4, 5]), (6, [6]), (7, [7])] := by decide

/-- **C29.** After `n ≥ 1` updates a `PTW` (with any factory) holds at most `floor(log2 n) + 1` base models. -/
theorem C29_PTW_models (m : ℕ) (xs : List (Obs α)) (hne : xs ≠ []) (r : ℝ) (s : PTW σ)
    (hr : (PTW.predictor P fresh m).run (PTW.init fresh m) xs = .ok (r, s)) :
    s.tree.bases.length ≤ Nat.log 2 xs.length + 1 := by
  have hi := PTW.run_inv (m := m) (PTW.inv_init (P := P) (fr := fun _ => fresh)) hr
  rw [List.nil_append] at hi
  exact hi.rep.bases_le hne

/-- **C30, what the code does.** The minimum block length used is the largest power of two that is at most
`min_partition_length`. -/
theorem C30_min_length_rounded_down (L m : ℕ) (h : PTW.minHeight L = .ok m) : 2 ^ m ≤ L ∧ L < 2 ^ (m + 1) := by
  unfold PTW.minHeight at h
  split_ifs at h with h0
  simp only [Except.ok.injEq] at h
  subst h
  exact ⟨Nat.pow_log_le_self 2 h0, Nat.lt_pow_succ_log_self (by norm_num) L⟩

/-- **C30.** The documented claim "always gets rounded up to a power of 2" fails for every length that is not a power of
two. -/
theorem C30_not_rounded_up (L m : ℕ) (h : PTW.minHeight L = .ok m) (hL : ∀ j, L ≠ 2 ^ j) : 2 ^ m < L := by
  have := C30_min_length_rounded_down L m h
  exact lt_of_le_of_ne this.1 (hL m).symm

/-- For example 1000 becomes 512. -/
example : PTW.minHeight 1000 = .ok 9 := by decide

end Verif
