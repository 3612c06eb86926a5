import Verif.Model.LearnersMore
import Verif.Props.Learners
import Verif.Props.Mixtures

/-!
# C67-C69: `learners.Averager`, `reset`, and the descriptions of `learners.PTW`
-/

namespace Verif

open Predictor LPTW

section Averager

variable {σ α : Type} (P : Predictor σ α)

/-- `updates` does what a run of `model.Averager` without history and with weight one does. -/
theorem LAverager.updates_iff {s s' : Averager σ} {xs : List α} :
    LAverager.updates P s xs = .ok s' ↔ ∃ r, (Averager.predictor P).run s (xs.map obs) = .ok (r, s') := by
  induction xs generalizing s with
  | nil => simp [LAverager.updates, Predictor.run]
  | cons a xs ih =>
    simp only [LAverager.updates, List.map_cons, bind_eq_ok, ih]
    constructor
    · rintro ⟨t, h1, r, h2⟩
      simp only [LAverager.update, bind_eq_ok, pure_eq_ok, Except.ok.injEq] at h1
      obtain ⟨ms, k1, lp, k2, rfl⟩ := h1
      refine ⟨_, run_cons_ok.mpr ⟨lp - s.logProb, ⟨ms, lp⟩, r, ?_, h2, rfl⟩⟩
      simp only [Averager.predictor, Averager.update, obs, k1, k2, ok_bind, pure_eq_ok]
    · rintro ⟨r, h⟩
      obtain ⟨r1, t, r2, h1, h2, rfl⟩ := run_cons_ok.mp h
      refine ⟨t, ?_, r2, h2⟩
      simp only [Averager.predictor, Averager.update, obs, bind_eq_ok, pure_eq_ok, Except.ok.injEq, Prod.mk.injEq] at h1
      obtain ⟨ms, k1, lp, k2, rfl, rfl⟩ := h1
      simp only [LAverager.update, k1, k2, ok_bind, pure_eq_ok]

/-- **C67.** Updating a `learners.Averager` with a sequence succeeds exactly when each model accepts the sequence, and then
`log_prob` is the log of the mean of their probabilities. -/
theorem C67_learners_Averager_mixture (ms : List σ) (hne : ms ≠ []) (xs : List α) :
    ∃ s0, LAverager.init ms = .ok s0 ∧
      ((∃ s, LAverager.updates P s0 xs = .ok s) ↔ ∀ m ∈ ms, ∃ r t, P.run m (xs.map obs) = .ok (r, t)) ∧
      ∀ s, LAverager.updates P s0 xs = .ok s →
        Real.exp s.logProb = (ms.map fun m => P.seqProb m (xs.map obs)).sum / ms.length := by
  obtain ⟨s0, h0, h1, h2⟩ := C08_Averager_mixture P ms hne (xs.map obs)
  refine ⟨s0, h0, ?_, ?_⟩
  · rw [← h1]
    constructor
    · rintro ⟨s, hs⟩
      obtain ⟨r, hr⟩ := (LAverager.updates_iff P).mp hs
      exact ⟨r, s, hr⟩
    · rintro ⟨r, s, hr⟩
      exact ⟨s, (LAverager.updates_iff P).mpr ⟨r, hr⟩⟩
  · intro s hs
    obtain ⟨r, hr⟩ := (LAverager.updates_iff P).mp hs
    obtain ⟨_, e, _⟩ := Averager.run_ok (Averager.inv_init h0) hr
    have hz : s0.logProb = 0 := by rw [(Averager.init_ok.mp h0).2]
    rw [← (h2 r s hr).1, e, hz, sub_zero]

/-- **C67 (empty).** Without models the constructor divides by zero. -/
theorem C67_learners_Averager_empty : LAverager.init ([] : List σ) = .error .zeroDivisionError := by
  simp [LAverager.init, pyDiv]

/-- **C67 (MAP).** `map` returns a model whose probability of the sequence is the largest, the first such one. -/
theorem C67_learners_Averager_map (ms : List σ) (hne : ms ≠ []) (xs : List α) (s0 s : Averager σ)
    (h0 : LAverager.init ms = .ok s0) (hs : LAverager.updates P s0 xs = .ok s) :
    ∃ i, ∃ hi : i < ms.length, ∃ r m, P.run ms[i] (xs.map obs) = .ok (r, m) ∧ LAverager.map s = .ok m ∧
      (∀ m' ∈ ms, P.seqProb m' (xs.map obs) ≤ P.seqProb ms[i] (xs.map obs)) ∧
      ∀ j (hj : j < i), P.seqProb (ms[j]'(by omega)) (xs.map obs) < P.seqProb ms[i] (xs.map obs) := by
  obtain ⟨r, hr⟩ := (LAverager.updates_iff P).mp hs
  obtain ⟨s0', h0', _, h2⟩ := C08_Averager_mixture P ms hne (xs.map obs)
  rw [show Averager.init ms = .ok s0 from h0] at h0'
  simp only [Except.ok.injEq] at h0'
  subst h0'
  obtain ⟨_, f⟩ := h2 r s hr
  have hp : 0 < (ms.length : ℝ) := by exact_mod_cast List.length_pos_iff.mpr hne
  have hlen := f.length_eq
  cases hm : s.models with
  | nil => rw [hm] at hlen; exact absurd (List.length_eq_zero_iff.mp hlen) hne
  | cons x l =>
    obtain ⟨i, hi, e1, e2, e3⟩ := Averager.maxByKey_spec x l
    rw [hm] at f hlen
    have hi' : i < ms.length := by omega
    have key : ∀ j (hj : j < ms.length), Real.exp ((x :: l)[j]'(by omega)).2 = P.seqProb ms[j] (xs.map obs) / ms.length :=
      fun j hj => ((List.forall₂_iff_get.mp f).2 j hj (by omega)).choose_spec.2
    obtain ⟨r', k1, _⟩ := (List.forall₂_iff_get.mp f).2 i hi' hi
    simp only [List.get_eq_getElem] at k1
    refine ⟨i, hi', r', _, k1, ?_, ?_, ?_⟩
    · simp only [LAverager.map, hm, e1]
    · intro m' hm'
      obtain ⟨j, hj, rfl⟩ := List.mem_iff_getElem.mp hm'
      have := Real.exp_le_exp.mpr (e2 _ (List.getElem_mem (show j < (x :: l).length by omega)))
      rw [key j hj, key i hi'] at this
      exact (div_le_div_iff_of_pos_right hp).mp this
    · intro j hj
      have := Real.exp_lt_exp.mpr (e3 j hj)
      rw [key j (by omega), key i hi'] at this
      exact (div_lt_div_iff_of_pos_right hp).mp this

/-- `learners.Averager.log_predict` is `model.Averager.log_predict` without the division by the probability so far. -/
theorem LAverager.logPredict_eq {s t : Averager σ} {a : α} {q : ℝ} :
    LAverager.logPredict P s a = .ok (q, t) ↔ Averager.logPredict P s a [] = .ok (q - s.logProb, t) := by
  simp only [LAverager.logPredict, Averager.logPredict, bind_eq_ok, pure_eq_ok, Except.ok.injEq, Prod.mk.injEq,
    Prod.exists, sub_left_inj]

/-- **C68 (joint).** After any sequence, `predict` returns not the probability of the symbol but that of the whole sequence
followed by the symbol, so its values sum to the probability of the sequence. -/
theorem C68_learners_Averager_predict_joint (I : σ → Prop) (A : List α) (W : ℝ → Prop) (hP : P.Lawful I A W) (hw : W 1)
    (ms : List σ) (hm : ∀ m ∈ ms, I m) (xs : List α) (hx : ∀ a ∈ xs, a ∈ A) (s0 s : Averager σ)
    (h0 : LAverager.init ms = .ok s0) (hs : LAverager.updates P s0 xs = .ok s) :
    (∀ a ∈ A, ∃ q t, LAverager.logPredict P s a = .ok (q, t) ∧
      Real.exp q = (ms.map fun m => P.seqProb m ((xs ++ [a]).map obs)).sum / ms.length) ∧
    (A.map fun a => probOf (LAverager.logPredict P s a)).sum = Real.exp s.logProb := by
  have hne := (Averager.init_ok.mp h0).1
  have hL := Averager.lawful hP
  have hov := Averager.over_init hm h0
  obtain ⟨r, hr⟩ := (LAverager.updates_iff P).mp hs
  have hgood : ∀ o ∈ xs.map obs, o.sym ∈ A ∧ W o.weight := by
    intro o ho
    obtain ⟨a, ha, rfl⟩ := List.mem_map.mp ho
    exact ⟨hx a ha, hw⟩
  obtain ⟨r', s', k1, k2⟩ := hL.updateLawful.run_ok hov hgood
  rw [hr] at k1
  simp only [Except.ok.injEq, Prod.mk.injEq] at k1
  obtain ⟨rfl, rfl⟩ := k1
  have key : ∀ a ∈ A, ∃ q t s', Averager.logPredict P s a [] = .ok (q, t) ∧ (Averager.predictor P).update s a [] 1 = .ok (q, s') ∧
      LAverager.logPredict P s a = .ok (q + s.logProb, t) := by
    intro a ha
    obtain ⟨q, s', c1, _⟩ := hL.update_ok s a [] 1 k2 ha hw
    obtain ⟨t, c2⟩ := hL.coherent s a [] 1 k2 ha hw q s' c1
    exact ⟨q, t, s', c2, c1, (LAverager.logPredict_eq P).mpr (by rw [add_sub_cancel_right]; exact c2)⟩
  constructor
  · intro a ha
    obtain ⟨q, t, s', _, c1, c2⟩ := key a ha
    refine ⟨_, t, c2, ?_⟩
    have hrun : LAverager.updates P s0 (xs ++ [a]) = .ok s' := by
      rw [LAverager.updates_iff, List.map_append]
      exact ⟨_, CTWNode.run_snoc_ok (o := obs a) hr c1⟩
    obtain ⟨s0', h0', _, h3⟩ := C67_learners_Averager_mixture P ms hne (xs ++ [a])
    rw [h0] at h0'
    simp only [Except.ok.injEq] at h0'
    subst h0'
    rw [← h3 _ hrun]
    have := ((Averager.update_ok k2.inv.ne).mp c1).2.2
    rw [this]
    congr 1
    ring
  · have : ∀ a ∈ A, probOf (LAverager.logPredict P s a) = probOf (Averager.logPredict P s a []) * Real.exp s.logProb := by
      intro a ha
      obtain ⟨q, t, s', c0, _, c2⟩ := key a ha
      rw [c0, c2, probOf_ok, probOf_ok, Real.exp_add]
    rw [List.map_congr_left this, List.sum_map_mul_right]
    have := hL.normalised s [] k2
    simp only [Averager.predictor] at this
    rw [this, one_mul]

/-- **C68, partial.** Before the first update the predictions sum to one.  Missing: after an update, where the claim
is false (`C68_learners_Averager_predict_joint`, `C68_learners_Averager_not_normalised`). -/
theorem C68_learners_Averager_predict_partial (I : σ → Prop) (A : List α) (W : ℝ → Prop) (hP : P.Lawful I A W) (hw : W 1)
    (ms : List σ) (hne : ms ≠ []) (hm : ∀ m ∈ ms, I m) :
    ∃ s0, LAverager.init ms = .ok s0 ∧ (A.map fun a => probOf (LAverager.logPredict P s0 a)).sum = 1 := by
  have h0 := Averager.init_ok.mpr ⟨hne, rfl⟩
  refine ⟨_, h0, ?_⟩
  rw [(C68_learners_Averager_predict_joint P I A W hP hw ms hm [] (by simp) _ _ h0 rfl).2]
  exact Real.exp_zero

/-- **C68 (as base model).** `update` returns `None`, so that `learners.PTW` over a `learners.Averager` raises TypeError at
the first symbol. -/
theorem C68_learners_PTW_over_Averager (ms : List σ) (f : Averager σ) (hf : LAverager.init ms = .ok f)
    (a : α) (ha : ∀ m ∈ ms, ∃ r t, P.update m a [] 1 = .ok (r, t)) (depth : ℕ) (s0 : LPTW (Averager σ))
    (h0 : init f depth = .ok s0) : LPTW.update (LAverager.predictor P) f s0 a = .error .typeError := by
  simp only [init, ne_eq, not_true, if_false, Except.ok.injEq] at h0
  subst h0
  have hpos : ¬ 2 ^ depth ≤ 0 := by have := Nat.two_pow_pos depth; omega
  obtain ⟨hne, hf'⟩ := Averager.init_ok.mp hf
  obtain ⟨_, s', hu⟩ := Averager.update_total (P := P) (a := a) (h := []) (w := 1) (Averager.inv_init hf) (by
    intro p hp
    rw [hf'] at hp
    obtain ⟨m, hm, rfl⟩ := List.mem_map.mp hp
    exact ha m hm)
  have hu' : LAverager.update P f a = .ok s' := by
    simp only [Averager.update, bind_eq_ok, pure_eq_ok, Except.ok.injEq, Prod.mk.injEq] at hu
    obtain ⟨_, k1, _, k2, _, rfl⟩ := hu
    simp only [LAverager.update, k1, k2, ok_bind, pure_eq_ok]
  simp only [LPTW.update, hpos, if_false, PyDict.set, if_true, updateModels, LAverager.predictor, hu', ok_bind]
  rfl

/-- A new `learners.KT((0, 1))`. -/
noncomputable def wLKT : LKT ℕ := ⟨[(0, 1/2), (1, 1/2)], 0, 0⟩

theorem wLKT_init : LKT.init [0, 1] = .ok wLKT := by
  simp [LKT.init, KT.comprehension, pyDiv, wLKT, PyDict.set]

theorem wLKT_update : wLKT.update 0 = .ok (Real.log (1/2), ⟨[(0, 1/2 + 1), (1, 1/2)], 1, Real.log (1/2)⟩) := by
  simp [wLKT, LKT.update, LKT.logPredict, PyDict.getE, PyDict.get?, PyDict.set, pyLog]

theorem wLKT_updates : ∃ s0 s : Averager (LKT ℕ), LAverager.init [wLKT] = .ok s0 ∧
    LAverager.updates LKT.predictor s0 [0] = .ok s ∧ s.models = [(⟨[(0, 1/2 + 1), (1, 1/2)], 1, Real.log (1/2)⟩, Real.log (1/2))] := by
  refine ⟨_, ⟨[(⟨[(0, 1/2 + 1), (1, 1/2)], 1, Real.log (1/2)⟩, Real.log (1/2))], Real.log (1/2)⟩,
    Averager.init_ok.mpr ⟨by simp, rfl⟩, ?_, rfl⟩
  have hu : LKT.predictor.update wLKT 0 [] 1 = _ := wLKT_update
  have hl : logsumexp [Real.log (1/2)] = .ok (Real.log (1/2)) := by
    rw [logsumexp_eq (by simp)]
    simp
  simp only [LAverager.updates, LAverager.update, List.map_cons, List.map_nil, Averager.updateModels, hu, ok_bind,
    pure_eq_ok, List.length_cons, List.length_nil, zero_add, Nat.cast_one, div_one, Real.log_one, hl]

/-- **C68 (witness).** A `learners.Averager` over one `learners.KT` predicts 3/8 and 1/8 after the symbol 0. -/
theorem C68_learners_Averager_not_normalised : ∃ s0 s t t' q q', LAverager.init [wLKT] = .ok s0 ∧
    LAverager.updates LKT.predictor s0 [0] = .ok s ∧ LAverager.logPredict LKT.predictor s 0 = .ok (q, t) ∧
    LAverager.logPredict LKT.predictor s 1 = .ok (q', t') ∧ Real.exp q = 3/8 ∧ Real.exp q' = 1/8 := by
  obtain ⟨s0, s, h0, h1, h2⟩ := wLKT_updates
  have p0 : LKT.logPredict (⟨[(0, 1/2 + 1), (1, 1/2)], 1, Real.log (1/2)⟩ : LKT ℕ) 0 = .ok (Real.log (3/2) - Real.log 2) := by
    norm_num [LKT.logPredict, PyDict.getE, PyDict.get?, pyLog]
  have p1 : LKT.logPredict (⟨[(0, 1/2 + 1), (1, 1/2)], 1, Real.log (1/2)⟩ : LKT ℕ) 1 = .ok (Real.log (1/2) - Real.log 2) := by
    norm_num [LKT.logPredict, PyDict.getE, PyDict.get?, pyLog]
  have q0 : logsumexp [Real.log (3/2) - Real.log 2 + Real.log (1/2)] = .ok (Real.log (3/2) - Real.log 2 + Real.log (1/2)) := by
    rw [logsumexp_eq (by simp)]
    simp
  have q1 : logsumexp [Real.log (1/2) - Real.log 2 + Real.log (1/2)] = .ok (Real.log (1/2) - Real.log 2 + Real.log (1/2)) := by
    rw [logsumexp_eq (by simp)]
    simp
  refine ⟨s0, s, ⟨s.models, s.logProb⟩, ⟨s.models, s.logProb⟩, Real.log (3/2) - Real.log 2 + Real.log (1/2),
    Real.log (1/2) - Real.log 2 + Real.log (1/2), h0, h1, ?_, ?_, ?_, ?_⟩
  · simp only [LAverager.logPredict, h2, Averager.predictModels, LKT.predictor, p0, q0, ok_bind, pure_eq_ok]
  · simp only [LAverager.logPredict, h2, Averager.predictModels, LKT.predictor, p1, q1, ok_bind, pure_eq_ok]
  · rw [Real.exp_add, Real.exp_sub, Real.exp_log (by norm_num), Real.exp_log (by norm_num), Real.exp_log (by norm_num)]
    norm_num
  · rw [Real.exp_add, Real.exp_sub, Real.exp_log (by norm_num), Real.exp_log (by norm_num)]
    norm_num

/-- C67 and C68 for two estimators of bits, one of which has seen a 1, and the sequence 0 1 1. -/
example : ∃ s0 s m, LAverager.init [KTBinary.init none, ⟨1/2, 3/2⟩] = .ok s0 ∧ LAverager.updates KTBinary.predictor s0 [false, true, true] = .ok s ∧
    LAverager.map s = .ok m ∧ ([false, true].map fun a => probOf (LAverager.logPredict KTBinary.predictor s a)).sum = Real.exp s.logProb := by
  have hg : ∀ m ∈ [KTBinary.init none, ⟨1/2, 3/2⟩], 0 < m.c0 ∧ 0 < m.c1 := by
    intro m hm
    simp only [List.mem_cons, List.not_mem_nil, or_false] at hm
    rcases hm with rfl | rfl <;> norm_num [KTBinary.init]
  obtain ⟨s0, h0, h1, -⟩ := C67_learners_Averager_mixture KTBinary.predictor [KTBinary.init none, ⟨1/2, 3/2⟩] (by simp) [false, true, true]
  obtain ⟨s, hs⟩ := h1.mpr fun m hm => by
    obtain ⟨r, t, h, -⟩ := KTBinary.lawful.updateLawful.run_ok (hg m hm) (xs := [false, true, true].map obs) (by simp [obs])
    exact ⟨r, t, h⟩
  obtain ⟨i, hi, r, m, -, h2, -⟩ := C67_learners_Averager_map KTBinary.predictor _ (by simp) _ _ _ h0 hs
  exact ⟨s0, s, m, h0, hs, h2,
    (C68_learners_Averager_predict_joint KTBinary.predictor _ _ _ KTBinary.lawful zero_le_one _ hg _ (by simp) _ _ h0 hs).2⟩

end Averager

section Reset

/-- **C69, partial.** After any successful updates of a `learners.KT`, `reset` gives the state it had when new; so no sequence
of calls can tell it from a new object.  Missing: the other learners, for which the claim is false
(`C69_learners_Averager_reset`, `C69_learners_PTW_reset`). -/
theorem C69_learners_KT_reset_partial {α : Type} [DecidableEq α] (A : List α) (s0 s : LKT α) (h0 : LKT.init A = .ok s0)
    (xs : List (Obs α)) (r : ℝ) (_ : LKT.predictor.run s0 xs = .ok (r, s)) (cs : List (Call α)) :
    ∃ s1, s.reset A = .ok s1 ∧ LKT.predictor.outputs s1 cs = LKT.predictor.outputs s0 cs :=
  ⟨s0, h0, rfl⟩

/-- **C69 (witness).** Resetting a `learners.Averager` after the symbol 0 leaves its models trained: the next prediction
of 0 is 3/4 instead of 1/2. -/
theorem C69_learners_Averager_reset : ∃ s0 s s1 t t' q q', LAverager.init [wLKT] = .ok s0 ∧
    LAverager.updates LKT.predictor s0 [0] = .ok s ∧ LAverager.reset s = .ok s1 ∧
    LAverager.logPredict LKT.predictor s0 0 = .ok (q, t) ∧ LAverager.logPredict LKT.predictor s1 0 = .ok (q', t') ∧
    Real.exp q = 1/2 ∧ Real.exp q' = 3/4 := by
  obtain ⟨s0, s, h0, h1, h2⟩ := wLKT_updates
  have hs0 := (Averager.init_ok.mp h0).2
  have p0 : LKT.logPredict wLKT 0 = .ok (Real.log (1/2)) := by
    norm_num [wLKT, LKT.logPredict, PyDict.getE, PyDict.get?, pyLog]
  have p1 : LKT.logPredict (⟨[(0, 1/2 + 1), (1, 1/2)], 1, Real.log (1/2)⟩ : LKT ℕ) 0 = .ok (Real.log (3/2) - Real.log 2) := by
    norm_num [LKT.logPredict, PyDict.getE, PyDict.get?, pyLog]
  have q0 : logsumexp [Real.log (1/2)] = .ok (Real.log (1/2)) := by
    rw [logsumexp_eq (by simp)]
    simp
  have q1 : logsumexp [Real.log (3/2) - Real.log 2] = .ok (Real.log (3/2) - Real.log 2) := by
    rw [logsumexp_eq (by simp)]
    simp
  refine ⟨s0, s, ⟨[(⟨[(0, 1/2 + 1), (1, 1/2)], 1, Real.log (1/2)⟩, 0)], 0⟩, s0,
    ⟨[(⟨[(0, 1/2 + 1), (1, 1/2)], 1, Real.log (1/2)⟩, 0)], 0⟩, Real.log (1/2), Real.log (3/2) - Real.log 2,
    h0, h1, ?_, ?_, ?_, ?_, ?_⟩
  · unfold LAverager.reset
    rw [h2]
    refine Averager.init_ok.mpr ⟨by simp, ?_⟩
    simp
  · rw [hs0]
    simp only [LAverager.logPredict, List.map_cons, List.map_nil, Averager.predictModels, LKT.predictor, p0, ok_bind,
      pure_eq_ok, List.length_cons, List.length_nil, zero_add, Nat.cast_one, div_one, Real.log_one, add_zero, q0]
  · simp only [LAverager.logPredict, Averager.predictModels, LKT.predictor, p1, ok_bind, pure_eq_ok, add_zero, q1]
  · rw [Real.exp_log (by norm_num)]
  · rw [Real.exp_sub, Real.exp_log (by norm_num), Real.exp_log (by norm_num)]
    norm_num

/-- **C69 (witness).** `learners.PTW.reset` keeps the completed subtrees: `PTW(KT, depth=1)` gives the symbol 0 the
probability 1/2 when new, and 3/8 after one update and a reset. -/
theorem C69_learners_PTW_reset : ∃ s0 s s1 : LPTW (LKT ℕ), ∃ r q, init wLKT 1 = .ok s0 ∧
    LPTW.update LKT.predictor wLKT s0 0 = .ok (r, s) ∧ LPTW.update LKT.predictor wLKT s.reset 0 = .ok (q, s1) ∧
    Real.exp r = 1/2 ∧ Real.exp q = 3/8 := by
  have hu : LKT.predictor.update wLKT 0 [] 1 = _ := wLKT_update
  have hm : mscb 0 = 0 := by decide
  have hb : binaryBoundary 0 1 = 0 := by decide
  obtain ⟨l, hl, hl'⟩ := exp_half_lse (0 + Real.log (1/2)) (0 + (0 + Real.log (1/2)))
  obtain ⟨l2, hl2, hl2'⟩ := exp_half_lse (0 + Real.log (1/2)) (0 + Real.log (1/2) + (0 + Real.log (1/2)))
  have hl3 : logsumexp [-Real.log 2, -Real.log 2] = .ok l := by simpa using hl
  have hl4 : logsumexp [-Real.log 2, -Real.log 2 + -Real.log 2] = .ok l2 := by simpa using hl2
  refine ⟨_, ⟨1, 1, log05 + l, [(0, (⟨[(0, 1/2 + 1), (1, 1/2)], 1, Real.log (1/2)⟩, 0 + Real.log (1/2)))],
    [0 + Real.log (1/2), 0]⟩, ⟨1, 1, log05 + l2, [(0, (⟨[(0, 1/2 + 1), (1, 1/2)], 1, Real.log (1/2)⟩, 0 + Real.log (1/2)))],
    [0 + Real.log (1/2), 0]⟩, log05 + l - 0, log05 + l2 - 0, by simp only [init, ne_eq, not_true, if_false]; rfl, ?_, ?_, ?_, ?_⟩
  · simp only [LPTW.update, PyDict.set, if_true, updateModels, hu, ok_bind, pure_eq_ok, PyDict.getE, PyDict.get?, hm,
      List.range'_one, walk, hb, pyGet, List.replicate, hl, pySet, cleanup, List.range_zero, Nat.reducePow, List.length_cons, List.length_nil]
    simp [hl3]
  · simp only [LPTW.reset, LPTW.update, PyDict.set, if_true, updateModels, hu, ok_bind, pure_eq_ok, PyDict.getE, PyDict.get?, hm,
      List.range'_one, walk, hb, pyGet, hl2, pySet, cleanup, List.range_zero]
    simp [hl4]
  · rw [sub_zero, hl', zero_add, zero_add, Real.exp_log (by norm_num)]
    norm_num
  · rw [sub_zero, hl2', zero_add, Real.exp_add, Real.exp_log (by norm_num)]
    norm_num

end Reset

section Description

variable {σ α : Type} (P : Predictor σ α) (fresh : σ)

theorem ptwProb_lt_one {p : ℕ → List (Obs α) → ℝ} (hnn : ∀ t ys, 0 ≤ p t ys) (hnil : ∀ t, p t [] = 1) (xs : List α)
    (hlt : ∀ t ys, ys ≠ [] → (∀ a ∈ ys, a ∈ xs) → p t (ys.map obs) < 1) :
    ∀ k t ys, (∀ a ∈ ys, a ∈ xs) →
      ptwProb p 0 k t (ys.map obs) ≤ 1 ∧ (ys ≠ [] → ptwProb p 0 k t (ys.map obs) < 1) := by
  have hp : ∀ t (ys : List α), (∀ a ∈ ys, a ∈ xs) → p t (ys.map obs) ≤ 1 := by
    intro t ys hy
    by_cases h : ys = []
    · subst h; exact (hnil t).le
    · exact (hlt t ys h hy).le
  intro k
  induction k with
  | zero => exact fun t ys hy => ⟨hp t ys hy, fun h => hlt t ys h hy⟩
  | succ k ih =>
    intro t ys hy
    simp only [ptwProb, ← List.map_take, ← List.map_drop]
    have h1 := (ih t (ys.take (2 ^ (0 + k))) (fun a ha => hy a (List.mem_of_mem_take ha))).1
    have h2 := (ih (t + 2 ^ (0 + k)) (ys.drop (2 ^ (0 + k))) (fun a ha => hy a (List.mem_of_mem_drop ha))).1
    have h0 := ptwProb_nonneg (m := 0) hnn k t ((ys.take (2 ^ (0 + k))).map obs)
    have h3 := mul_le_one₀ h1 (ptwProb_nonneg (m := 0) hnn k (t + 2 ^ (0 + k)) ((ys.drop (2 ^ (0 + k))).map obs)) h2
    refine ⟨by have := hp t ys hy; linarith, fun h => ?_⟩
    have := hlt t ys h hy
    linarith

/-- **C70.** If the base model never gives probability one to a non-empty sequence of the observed symbols, then
`get_child_string` after `n` symbols lists the heights of the completed subtrees, from the largest to the smallest: the
positions of the ones in the binary representation of `n`. -/
theorem C70_learners_PTW_child_string (depth : ℕ) (s0 : LPTW σ) (h0 : init fresh depth = .ok s0) (xs : List α)
    (r : ℝ) (s : LPTW σ) (hr : (LPTW.predictor P fresh).run s0 (xs.map obs) = .ok (r, s))
    (hlt : ∀ ys, ys ≠ [] → (∀ a ∈ ys, a ∈ xs) → P.seqProb fresh (ys.map obs) < 1) :
    s.childHeights = .ok ((List.range (depth + 1)).reverse.filter fun i => xs.length.testBit i) := by
  simp only [init, ne_eq, not_true, if_false, Except.ok.injEq] at h0
  subst h0
  obtain ⟨h1, _⟩ := run_inv (inv_init (P := P) fresh depth) hr
  rw [List.nil_append] at h1
  have hlen := h1.bound
  have hst := h1.steps
  rw [List.length_map] at hlen hst
  unfold childHeights
  rw [h1.depth, hst]
  by_cases hn : xs.length = 2 ^ depth
  · rw [if_pos hn, hn, List.range_succ, List.reverse_append]
    simp only [List.reverse_singleton, List.singleton_append, List.filter_cons, Nat.testBit_two_pow_self, if_true]
    congr 2
    symm
    rw [List.filter_eq_nil_iff]
    intro i hi
    rw [List.mem_reverse, List.mem_range] at hi
    rw [Nat.testBit_two_pow]
    simp only [decide_eq_true_eq]
    omega
  · rw [if_neg hn]
    have key : ∀ i < depth, pyGet s.completed i = .ok (s.completed.getD i 0) ∧
        (s.completed.getD i 0 ≠ 0 ↔ xs.length.testBit i = true) := by
      intro i hi
      obtain ⟨c, hc, hc'⟩ := h1.comp i hi.le
      refine ⟨by rw [pyGet_some hc, List.getD_eq_getElem?_getD, hc]; rfl, ?_⟩
      rw [List.getD_eq_getElem?_getD, hc, Option.getD_some]
      rw [List.length_map] at hc'
      unfold sibling at hc'
      by_cases hb : xs.length.testBit i = true
      · rw [if_pos hb, ← List.map_drop, ← List.map_take] at hc'
        have hne : (xs.drop (binaryBoundary xs.length (i + 1))).take (2 ^ i) ≠ [] := by
          intro h
          have := congrArg List.length h
          rw [List.length_take, List.length_drop, List.length_nil] at this
          have hb2 := bb_succ xs.length i
          rw [if_pos hb] at hb2
          have hb3 := bb_le xs.length i
          have := Nat.two_pow_pos i
          omega
        have := (ptwProb_lt_one (p := fun _ => P.seqProb fresh) (fun _ _ => seqProb_nonneg _ _ _) (fun _ => seqProb_nil _)
          xs (fun _ => hlt) i (binaryBoundary xs.length (i + 1)) _
          (fun a ha => List.mem_of_mem_drop (List.mem_of_mem_take ha))).2 hne
        rw [← hc', Real.exp_lt_one_iff] at this
        simp [this.ne, hb]
      · rw [if_neg hb, Real.exp_eq_one_iff] at hc'
        simp [hc', hb]
    have hgen : ∀ l : List ℕ, (∀ i ∈ l, i < depth) → (l.mapM fun i => do
        let c ← pyGet s.completed i
        pure (if c ≠ 0 then [i] else [])) = .ok (l.map fun i => if xs.length.testBit i = true then [i] else []) := by
      intro l hl
      induction l with
      | nil => rfl
      | cons i l ih =>
        obtain ⟨k1, k2⟩ := key i (hl i (by simp))
        rw [List.mapM_cons, k1, ih (fun j hj => hl j (by simp [hj]))]
        simp only [ok_bind, pure_eq_ok, List.map_cons, Except.ok.injEq, List.cons.injEq, and_true]
        by_cases hb : xs.length.testBit i = true
        · rw [if_pos (k2.mpr hb), if_pos hb]
        · rw [if_neg (fun h => hb (k2.mp h)), if_neg hb]
    have hflat : ∀ l : List ℕ, (l.map fun i => if xs.length.testBit i = true then [i] else []).flatten =
        l.filter fun i => xs.length.testBit i := by
      intro l
      induction l with
      | nil => rfl
      | cons i l ih =>
        rw [List.map_cons, List.flatten_cons, ih, List.filter_cons]
        split_ifs <;> rfl
    rw [hgen _ (by intro i hi; rwa [List.mem_reverse, List.mem_range] at hi), ok_bind, pure_eq_ok, hflat, List.range_succ,
      List.reverse_append]
    have htop : xs.length.testBit depth = false := Nat.testBit_lt_two_pow (by omega)
    simp only [List.reverse_singleton, List.singleton_append, List.filter_cons, htop]
    rfl

/-- **C70 (hypothesis).** The hypothesis on the base model holds for every model that is normalised over at least two
symbols. -/
theorem C70_uncertain_base (I : σ → Prop) (A : List α) (W : ℝ → Prop) (hP : P.UpdateLawful I A W) (hf : I fresh)
    (hw : W 1) (hA : A.Nodup) (h2 : 2 ≤ A.length) (ys : List α) (hne : ys ≠ []) (hy : ∀ a ∈ ys, a ∈ A) :
    P.seqProb fresh (ys.map obs) < 1 := by
  have hstep : ∀ s a, I s → a ∈ A → ∃ q s', P.update s a [] 1 = .ok (q, s') ∧ I s' ∧ q < 0 := by
    intro s a hs ha
    obtain ⟨q, s', k1, k2⟩ := hP.total s a [] 1 hs ha hw
    refine ⟨q, s', k1, k2, ?_⟩
    have hsum := hP.sum_probOf hs hw []
    obtain ⟨l1, l2, rfl⟩ := List.append_of_mem ha
    obtain ⟨b, hb⟩ : ∃ b, b ∈ l1 ++ l2 := by
      apply List.exists_mem_of_ne_nil
      intro h
      rw [List.append_eq_nil_iff] at h
      simp [h.1, h.2] at h2
    have hb' : b ∈ l1 ++ a :: l2 := by
      rcases List.mem_append.mp hb with h | h <;> simp [h]
    obtain ⟨qb, sb, kb, _⟩ := hP.total s b [] 1 hs hb' hw
    have hnn : ∀ x ∈ (l1 ++ l2).map fun a => probOf (P.update s a [] 1), 0 ≤ x := by
      intro x hx
      obtain ⟨c, _, rfl⟩ := List.mem_map.mp hx
      unfold probOf
      split
      · exact (Real.exp_pos _).le
      · exact le_rfl
    have hle := List.single_le_sum hnn (probOf (P.update s b [] 1)) (List.mem_map.mpr ⟨b, hb, rfl⟩)
    rw [kb, probOf_ok] at hle
    simp only [List.map_append, List.map_cons, List.sum_append, List.sum_cons, k1, probOf_ok] at hsum hle
    have := Real.exp_pos qb
    rw [← Real.exp_lt_one_iff]
    linarith
  have hrun : ∀ (ys : List α) s, I s → (∀ a ∈ ys, a ∈ A) → ∃ q s', P.run s (ys.map obs) = .ok (q, s') ∧ q ≤ 0 ∧
      (ys ≠ [] → q < 0) := by
    intro ys
    induction ys with
    | nil => exact fun s _ _ => ⟨0, s, rfl, le_rfl, fun h => absurd rfl h⟩
    | cons a ys ih =>
      intro s hs hy
      obtain ⟨q, s', k1, k2, k3⟩ := hstep s a hs (hy a (by simp))
      obtain ⟨q', s'', k4, k5, _⟩ := ih s' k2 (fun b hb => hy b (by simp [hb]))
      have : q + q' < 0 := by linarith
      exact ⟨q + q', s'', run_cons_ok.mpr ⟨q, s', q', k1, k4, rfl⟩, this.le, fun _ => this⟩
  obtain ⟨q, s', k1, _, k2⟩ := hrun ys fresh hf hy
  rw [seqProb_of_run k1, Real.exp_lt_one_iff]
  exact k2 hne

/-- **C70 (models).** `get_model_string` lists, in increasing order of the starting times, exactly the models of C38, each
with the interval from its start to the last observed time. -/
theorem C70_learners_PTW_model_string (depth : ℕ) (s0 : LPTW σ) (h0 : init fresh depth = .ok s0) (xs : List α)
    (r : ℝ) (s : LPTW σ) (hr : (LPTW.predictor P fresh).run s0 (xs.map obs) = .ok (r, s)) :
    (s.modelIntervals.map Prod.fst).Pairwise (· < ·) ∧
    ∀ k e, (k, e) ∈ s.modelIntervals ↔ e = (xs.length : ℤ) - 1 ∧
      (k = 0 ∨ (k < xs.length ∧ ∃ i, 2 ^ i ∣ k ∧ xs.length < k + 2 ^ i)) := by
  have hk := C38_learners_PTW_models P fresh depth s0 h0 xs r s hr
  have hst := (C36_learners_PTW_closed_form P fresh depth s0 h0 xs r s hr).2.1
  simp only [init, ne_eq, not_true, if_false, Except.ok.injEq] at h0
  subst h0
  obtain ⟨h1, _⟩ := run_inv (inv_init (P := P) fresh depth) hr
  have hnd := h1.nodup
  unfold modelIntervals
  constructor
  · rw [List.map_map]
    have : (Prod.fst ∘ fun k : ℕ => (k, (s.numSteps : ℤ) - 1)) = id := rfl
    rw [this, List.map_id]
    have hs : s.models.keys.mergeSort.Pairwise (· ≤ ·) := by
      have := List.pairwise_mergeSort (le := fun a b : ℕ => decide (a ≤ b)) (by simp; omega) (by simp; omega) s.models.keys
      simpa using this
    have hn : s.models.keys.mergeSort.Pairwise (· ≠ ·) := ((List.mergeSort_perm _ _).nodup_iff).mpr hnd
    exact (hs.and hn).imp fun h => lt_of_le_of_ne h.1 h.2
  · intro k e
    rw [List.mem_map]
    constructor
    · rintro ⟨k', h, he⟩
      simp only [Prod.mk.injEq] at he
      obtain ⟨rfl, rfl⟩ := he
      rw [List.mem_mergeSort] at h
      exact ⟨by rw [hst], (hk _).mp h⟩
    · rintro ⟨rfl, h⟩
      exact ⟨k, List.mem_mergeSort.mpr ((hk k).mpr h), by rw [hst]⟩

/-- **C70 (witness).** The hypothesis is needed: over `KT((0,))`, which predicts its only symbol with certainty, a completed
subtree is not listed. -/
theorem C70_learners_PTW_child_string_certain : ∃ f s0 s r, LKT.init [(0 : ℕ)] = .ok f ∧ init f 1 = .ok s0 ∧
    LPTW.update LKT.predictor f s0 0 = .ok (r, s) ∧ s.numSteps = 1 ∧ s.childHeights = .ok [] := by
  have hu : LKT.predictor.update (⟨[(0, 1)], 0, 0⟩ : LKT ℕ) 0 [] 1 = .ok (0, ⟨[(0, 1 + 1)], 1, 0⟩) := by
    simp [LKT.predictor, LKT.update, LKT.logPredict, PyDict.getE, PyDict.get?, PyDict.set, pyLog]
  have hm : mscb 0 = 0 := by decide
  have hb : binaryBoundary 0 1 = 0 := by decide
  have hl : logsumexp [(0 : ℝ), 0] = .ok (Real.log 2) := by
    rw [logsumexp_eq (by simp)]
    norm_num
  refine ⟨⟨[(0, 1)], 0, 0⟩, _, ⟨1, 1, log05 + Real.log 2, [(0, (⟨[(0, 1 + 1)], 1, 0⟩, 0))], [0, 0]⟩, log05 + Real.log 2, ?_,
    by simp only [init, ne_eq, not_true, if_false]; rfl, ?_, rfl, ?_⟩
  · simp [LKT.init, KT.comprehension, pyDiv, PyDict.set]
  · simp only [LPTW.update, PyDict.set, if_true, updateModels, hu, ok_bind, pure_eq_ok, PyDict.getE, PyDict.get?, hm,
      List.range'_one, walk, hb, pyGet, List.replicate, pySet, cleanup, List.range_zero, Nat.reducePow,
      List.length_cons, List.length_nil]
    simp [hl]
  · simp [childHeights, pyGet]

/-- C70 for a tree of depth 3 over an estimator of bits after six symbols: the completed subtrees have the heights 2 and 1, and the models in use
began with the symbols 0 and 4. -/
example : ∃ s0 r s, init (KTBinary.init none) 3 = .ok s0 ∧
    (LPTW.predictor KTBinary.predictor (KTBinary.init none)).run s0 ([true, true, false, true, false, false].map obs) = .ok (r, s) ∧
    s.childHeights = .ok [2, 1] ∧ (4, 5) ∈ s.modelIntervals ∧ (3, 5) ∉ s.modelIntervals := by
  have hf : 0 < (KTBinary.init none).c0 ∧ 0 < (KTBinary.init none).c1 := by norm_num [KTBinary.init]
  obtain ⟨s0, h0⟩ : ∃ s0, init (KTBinary.init none) 3 = .ok s0 := ⟨_, rfl⟩
  obtain ⟨r, s, hr⟩ : ∃ r s, (LPTW.predictor KTBinary.predictor (KTBinary.init none)).run s0 ([true, true, false, true, false, false].map obs) = .ok (r, s) :=
    C36_learners_PTW_total KTBinary.predictor _ _ _ _ KTBinary.lawful.updateLawful hf zero_le_one 3 s0 h0 _ (by simp) (by simp)
  have h1 := C70_learners_PTW_child_string KTBinary.predictor (KTBinary.init none) 3 s0 h0 _ r s hr fun ys hne hy =>
    C70_uncertain_base KTBinary.predictor (KTBinary.init none) _ _ _ KTBinary.lawful.updateLawful hf zero_le_one (by simp) (by simp) ys hne (by simp)
  obtain ⟨-, h2⟩ := C70_learners_PTW_model_string KTBinary.predictor (KTBinary.init none) 3 s0 h0 _ r s hr
  refine ⟨s0, r, s, h0, hr, h1.trans rfl, (h2 4 5).mpr ⟨rfl, .inr ⟨by simp, 2, by norm_num, by simp⟩⟩, fun h => ?_⟩
  obtain ⟨-, h | ⟨-, i, h3, h4⟩⟩ := (h2 3 5).mp h
  · cases h
  · rcases i with _ | i
    · simp at h4
    · have := (Dvd.intro_left _ (pow_succ 2 i).symm).trans h3
      omega

end Description

end Verif
