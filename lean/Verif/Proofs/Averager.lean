import Verif.Model.Averager
import Verif.Proofs.LogSumExp
import Verif.Proofs.KT

set_option linter.unusedSectionVars false

/-! Lemmas about `Averager`. -/

namespace Verif

namespace Predictor

variable {σ α : Type}

theorem probOf_ok (r : ℝ) (s : σ) : probOf (.ok (r, s)) = Real.exp r := rfl

theorem seqProb_of_run {P : Predictor σ α} {s : σ} {xs : List (Obs α)} {r : ℝ} {s' : σ}
    (h : P.run s xs = .ok (r, s')) : P.seqProb s xs = Real.exp r := by
  simp [seqProb, h, probOf]

theorem seqProb_nonneg (P : Predictor σ α) (s : σ) (xs : List (Obs α)) : 0 ≤ P.seqProb s xs := by
  unfold seqProb probOf
  split
  · exact (Real.exp_pos _).le
  · exact le_rfl

end Predictor

namespace Averager

variable {σ α : Type} {P : Predictor σ α}

/-- The cumulative log probability is the log of the total weight (true after construction and kept). -/
structure Inv (s : Averager σ) : Prop where
  ne : s.models ≠ []
  sum : Real.exp s.logProb = ((s.models.map Prod.snd).map Real.exp).sum

theorem updateModels_ok {a : α} {h : List α} {w : ℝ} {ms ms' : List (σ × ℝ)} :
    updateModels P a h w ms = .ok ms' ↔
      List.Forall₂ (fun p q => P.update p.1 a h w = .ok (q.2 - p.2, q.1)) ms ms' := by
  induction ms generalizing ms' with
  | nil => simp [updateModels, eq_comm]
  | cons p ms ih =>
    obtain ⟨m, lp⟩ := p
    simp only [updateModels, bind_eq_ok, pure_eq_ok, Except.ok.injEq, Prod.exists]
    constructor
    · rintro ⟨r, m', h1, rest, h2, rfl⟩
      refine List.Forall₂.cons ?_ (ih.mp h2)
      simpa using h1
    · intro hf
      cases hf with
      | @cons _ q _ l2 hq hr =>
        obtain ⟨m', lp'⟩ := q
        exact ⟨lp' - lp, m', hq, l2, ih.mpr hr, by simp⟩

theorem predictModels_ok {a : α} {h : List α} {ms : List (σ × ℝ)} {vs : List ℝ} {ms' : List (σ × ℝ)} :
    predictModels P a h ms = .ok (vs, ms') →
      List.Forall₂ (fun p q => ∃ r, P.logPredict p.1 a h = .ok (r, q.1) ∧ q.2 = p.2) ms ms' ∧
      List.Forall₂ (fun p v => ∃ t, P.logPredict p.1 a h = .ok (v - p.2, t)) ms vs := by
  induction ms generalizing vs ms' with
  | nil =>
    intro h
    simp only [predictModels, pure_eq_ok, Except.ok.injEq, Prod.mk.injEq] at h
    obtain ⟨rfl, rfl⟩ := h
    exact ⟨.nil, .nil⟩
  | cons p ms ih =>
    obtain ⟨m, lp⟩ := p
    intro h
    simp only [predictModels, bind_eq_ok, pure_eq_ok, Except.ok.injEq, Prod.exists, Prod.mk.injEq] at h
    obtain ⟨r, m', h1, vs', rest, h2, rfl, rfl⟩ := h
    obtain ⟨i1, i2⟩ := ih h2
    exact ⟨.cons ⟨r, h1, rfl⟩ i1, .cons ⟨m', by simpa using h1⟩ i2⟩

theorem predictModels_total {a : α} {h : List α} {ms : List (σ × ℝ)}
    (ht : ∀ p ∈ ms, ∃ r t, P.logPredict p.1 a h = .ok (r, t)) :
    ∃ vs ms', predictModels P a h ms = .ok (vs, ms') := by
  induction ms with
  | nil => exact ⟨_, _, rfl⟩
  | cons p ms ih =>
    obtain ⟨m, lp⟩ := p
    obtain ⟨r, t, h1⟩ := ht (m, lp) (by simp)
    obtain ⟨vs, ms', h2⟩ := ih (fun p hp => ht p (by simp [hp]))
    simp only at h1
    exact ⟨_, _, by simp only [predictModels, h1, h2, ok_bind]; rfl⟩

theorem updateModels_total {a : α} {h : List α} {w : ℝ} {ms : List (σ × ℝ)}
    (ht : ∀ p ∈ ms, ∃ r t, P.update p.1 a h w = .ok (r, t)) :
    ∃ ms', updateModels P a h w ms = .ok ms' := by
  induction ms with
  | nil => exact ⟨_, rfl⟩
  | cons p ms ih =>
    obtain ⟨m, lp⟩ := p
    obtain ⟨r, t, h1⟩ := ht (m, lp) (by simp)
    obtain ⟨ms', h2⟩ := ih (fun p hp => ht p (by simp [hp]))
    simp only at h1
    exact ⟨_, by simp only [updateModels, h1, h2, ok_bind]; rfl⟩

theorem update_ok {s s' : Averager σ} {a : α} {h : List α} {w r : ℝ} (hne : s.models ≠ []) :
    update P s a h w = .ok (r, s') ↔
      List.Forall₂ (fun p q => P.update p.1 a h w = .ok (q.2 - p.2, q.1)) s.models s'.models ∧
      s'.logProb = Real.log (((s'.models.map Prod.snd).map Real.exp).sum) ∧
      r = s'.logProb - s.logProb := by
  simp only [update, bind_eq_ok, pure_eq_ok, Except.ok.injEq, Prod.mk.injEq]
  constructor
  · rintro ⟨ms, h1, lp, h2, rfl, rfl⟩
    exact ⟨updateModels_ok.mp h1, (logsumexp_ok_iff.mp h2).2, rfl⟩
  · rintro ⟨h1, h2, rfl⟩
    refine ⟨_, updateModels_ok.mpr h1, s'.logProb, ?_, rfl, rfl⟩
    rw [logsumexp_ok_iff]
    refine ⟨?_, h2⟩
    intro h0
    have hl := h1.length_eq
    rw [List.map_eq_nil_iff] at h0
    rw [h0] at hl
    exact hne (List.eq_nil_of_length_eq_zero (by simpa using hl))

theorem exp_log_sum {l : List (σ × ℝ)} (h : l ≠ []) :
    Real.exp (Real.log (((l.map Prod.snd).map Real.exp).sum)) = ((l.map Prod.snd).map Real.exp).sum := by
  cases l with
  | nil => exact absurd rfl h
  | cons p l => exact Real.exp_log sum_exp_pos

theorem Inv.update {s s' : Averager σ} (hi : Inv s) {a : α} {h : List α} {w r : ℝ}
    (hu : update P s a h w = .ok (r, s')) : Inv s' := by
  obtain ⟨h1, h2, h3⟩ := (update_ok hi.ne).mp hu
  have hne : s'.models ≠ [] := by
    intro h0
    have hl := h1.length_eq
    rw [h0] at hl
    exact hi.ne (List.eq_nil_of_length_eq_zero (by simpa using hl))
  refine ⟨hne, ?_⟩
  rw [h2, exp_log_sum hne]

theorem Inv.logPredict {s s' : Averager σ} (hi : Inv s) {a : α} {h : List α} {r : ℝ}
    (hu : Averager.logPredict P s a h = .ok (r, s')) : Inv s' := by
  simp only [Averager.logPredict, bind_eq_ok, pure_eq_ok, Except.ok.injEq, Prod.mk.injEq, Prod.exists] at hu
  obtain ⟨vs, ms, h1, lp, h2, rfl, rfl⟩ := hu
  obtain ⟨h3, -⟩ := predictModels_ok h1
  have hs : ms.map Prod.snd = s.models.map Prod.snd := by
    clear h1 h2
    generalize s.models = l at h3
    induction h3 with
    | nil => rfl
    | cons hq _ ih =>
      obtain ⟨r, _, hq⟩ := hq
      simp [hq, ih]
  refine ⟨?_, ?_⟩
  · intro h0
    have hl := h3.length_eq
    simp only at h0
    rw [h0] at hl
    exact hi.ne (List.eq_nil_of_length_eq_zero (by simpa using hl))
  · simp only
    rw [hs]
    exact hi.sum

theorem init_ok {ms : List σ} {s : Averager σ} :
    init ms = .ok s ↔ ms ≠ [] ∧ s = ⟨ms.map fun m => (m, Real.log (1 / (ms.length : ℝ))), 0⟩ := by
  simp only [init, bind_eq_ok, pyDiv_eq_ok, pyLog_eq_ok, pure_eq_ok, Except.ok.injEq]
  constructor
  · rintro ⟨q, ⟨h1, rfl⟩, l, ⟨_, rfl⟩, rfl⟩
    refine ⟨?_, rfl⟩
    rintro rfl
    simp at h1
  · rintro ⟨h1, rfl⟩
    have hp : 0 < (ms.length : ℝ) := by
      have := List.length_pos_iff.mpr h1
      exact_mod_cast this
    exact ⟨_, ⟨hp.ne', rfl⟩, _, ⟨by positivity, rfl⟩, rfl⟩

theorem inv_init {ms : List σ} {s : Averager σ} (h : init ms = .ok s) : Inv s := by
  obtain ⟨hne, rfl⟩ := init_ok.mp h
  have hp : 0 < (ms.length : ℝ) := by
    have := List.length_pos_iff.mpr hne
    exact_mod_cast this
  refine ⟨by simpa using hne, ?_⟩
  have : ((ms.map fun m => (m, Real.log (1 / (ms.length : ℝ)))).map Prod.snd).map Real.exp
      = List.replicate ms.length (1 / (ms.length : ℝ)) := by
    simp only [List.map_map]
    rw [List.eq_replicate_iff]
    refine ⟨by simp, ?_⟩
    intro b hb
    simp only [List.mem_map] at hb
    obtain ⟨m, _, rfl⟩ := hb
    simp only [Function.comp_apply]
    exact Real.exp_log (by positivity)
  simp only [this, List.sum_replicate, Real.exp_zero, nsmul_eq_mul]
  field_simp

/-- A whole run of the `Averager`: every component runs on the same observations, and the returned total is the
change of the cumulative log probability. -/
theorem run_ok {s s' : Averager σ} (hi : Inv s) {xs : List (Obs α)} {r : ℝ}
    (hr : (predictor P).run s xs = .ok (r, s')) :
    List.Forall₂ (fun p q => P.run p.1 xs = .ok (q.2 - p.2, q.1)) s.models s'.models ∧
      r = s'.logProb - s.logProb ∧ Inv s' := by
  induction xs generalizing s r with
  | nil =>
    simp only [Predictor.run, pure_eq_ok, Except.ok.injEq, Prod.mk.injEq] at hr
    obtain ⟨rfl, rfl⟩ := hr
    refine ⟨?_, by simp, hi⟩
    rw [List.forall₂_same]
    intro p _
    simp [Predictor.run]
  | cons o os ih =>
    obtain ⟨r1, s1, r2, h1, h2, rfl⟩ := Predictor.run_cons_ok.mp hr
    obtain ⟨f1, _, e1⟩ := (update_ok hi.ne).mp h1
    obtain ⟨f2, e2, hi2⟩ := ih (hi.update h1) h2
    refine ⟨?_, by rw [e1, e2]; ring, hi2⟩
    clear h1 h2 hi2 e2 ih hr
    generalize s.models = l at f1
    generalize s1.models = l1 at f1 f2
    generalize s'.models = l2 at f2
    induction f1 generalizing l2 with
    | nil => cases f2; exact .nil
    | cons h1 _ ih =>
      cases f2 with
      | cons h2 f2 =>
        refine .cons ?_ (ih _ f2)
        exact Predictor.run_cons_ok.mpr ⟨_, _, _, h1, h2, by ring⟩

theorem run_total {s : Averager σ} (hi : Inv s) {xs : List (Obs α)}
    (ht : ∀ p ∈ s.models, ∃ r t, P.run p.1 xs = .ok (r, t)) :
    ∃ r s', (predictor P).run s xs = .ok (r, s') := by
  induction xs generalizing s with
  | nil => exact ⟨_, _, rfl⟩
  | cons o os ih =>
    obtain ⟨ms', h1⟩ := updateModels_total (P := P) (a := o.sym) (h := o.hist) (w := o.weight) (ms := s.models)
      (fun p hp => by
        obtain ⟨r, t, hr⟩ := ht p hp
        obtain ⟨r1, s1, r2, h1, h2, rfl⟩ := Predictor.run_cons_ok.mp hr
        exact ⟨_, _, h1⟩)
    have f1 := updateModels_ok.mp h1
    have hu : update P s o.sym o.hist o.weight =
        .ok (Real.log ((ms'.map Prod.snd).map Real.exp).sum - s.logProb,
          ⟨ms', Real.log ((ms'.map Prod.snd).map Real.exp).sum⟩) :=
      (update_ok hi.ne).mpr ⟨f1, rfl, rfl⟩
    obtain ⟨r, s', h2⟩ := ih (hi.update hu) (by
      intro q hq
      simp only at hq
      obtain ⟨i, hi', rfl⟩ := List.mem_iff_getElem.mp hq
      have hl := f1.length_eq
      have hget := (List.forall₂_iff_get.mp f1).2 i (by omega) (by omega)
      simp only [List.get_eq_getElem] at hget
      obtain ⟨r, t, hr⟩ := ht (s.models[i]) (List.getElem_mem _)
      obtain ⟨r1, s1, r2, h1, h2, rfl⟩ := Predictor.run_cons_ok.mp hr
      rw [hget] at h1
      simp only [Except.ok.injEq, Prod.mk.injEq] at h1
      obtain ⟨_, rfl⟩ := h1
      exact ⟨_, _, h2⟩)
    exact ⟨_, _, Predictor.run_cons_ok.mpr ⟨_, _, _, hu, h2, rfl⟩⟩

/-- The mixture formula for one `update`. -/
theorem probOf_update {s s' : Averager σ} (hi : Inv s) {a : α} {h : List α} {w r : ℝ}
    (hu : update P s a h w = .ok (r, s')) :
    Real.exp r * Real.exp s.logProb =
      (s.models.map fun p => Real.exp p.2 * Predictor.probOf (P.update p.1 a h w)).sum := by
  obtain ⟨f1, _, e1⟩ := (update_ok hi.ne).mp hu
  have hi' := hi.update hu
  rw [← Real.exp_add, e1, sub_add_cancel, hi'.sum]
  clear hu e1 hi' hi
  generalize s.models = l at f1
  generalize s'.models = l' at f1
  induction f1 with
  | nil => rfl
  | cons hq _ ih =>
    simp only [List.map_cons, List.sum_cons, ih, hq, Predictor.probOf_ok]
    congr 1
    rw [← Real.exp_add]
    congr 1
    ring

/-- The mixture formula for one `log_predict`. -/
theorem probOf_logPredict {s s' : Averager σ} {a : α} {h : List α} {r : ℝ}
    (hu : Averager.logPredict P s a h = .ok (r, s')) :
    Real.exp r * Real.exp s.logProb =
      (s.models.map fun p => Real.exp p.2 * Predictor.probOf (P.logPredict p.1 a h)).sum := by
  simp only [Averager.logPredict, bind_eq_ok, pure_eq_ok, Except.ok.injEq, Prod.mk.injEq, Prod.exists] at hu
  obtain ⟨vs, ms, h1, lp, h2, rfl, rfl⟩ := hu
  obtain ⟨-, f⟩ := predictModels_ok h1
  obtain ⟨hne, rfl⟩ := logsumexp_ok_iff.mp h2
  rw [← Real.exp_add, sub_add_cancel]
  have : Real.exp (Real.log (vs.map Real.exp).sum) = (vs.map Real.exp).sum := by
    cases vs with
    | nil => exact absurd rfl hne
    | cons v vs => exact Real.exp_log sum_exp_pos
  rw [this]
  clear this h1 h2
  generalize s.models = l at f
  clear hne
  induction f with
  | nil => rfl
  | cons hq _ ih =>
    obtain ⟨t, hq⟩ := hq
    simp only [List.map_cons, List.sum_cons, ih, hq, Predictor.probOf_ok]
    congr 1
    rw [← Real.exp_add]
    congr 1
    ring

theorem logPredict_total {s : Averager σ} (hi : Inv s) {a : α} {h : List α}
    (ht : ∀ p ∈ s.models, ∃ r t, P.logPredict p.1 a h = .ok (r, t)) :
    ∃ r s', Averager.logPredict P s a h = .ok (r, s') := by
  obtain ⟨vs, ms', h1⟩ := predictModels_total ht
  obtain ⟨-, f⟩ := predictModels_ok h1
  have hne : vs ≠ [] := by
    rintro rfl
    exact hi.ne (List.eq_nil_of_length_eq_zero (by simpa using f.length_eq))
  refine ⟨Real.log (vs.map Real.exp).sum - s.logProb, ⟨ms', s.logProb⟩, ?_⟩
  simp only [Averager.logPredict, h1, ok_bind]
  rw [logsumexp_eq hne]
  rfl

theorem update_total {s : Averager σ} (hi : Inv s) {a : α} {h : List α} {w : ℝ}
    (ht : ∀ p ∈ s.models, ∃ r t, P.update p.1 a h w = .ok (r, t)) :
    ∃ r s', update P s a h w = .ok (r, s') := by
  obtain ⟨ms', h1⟩ := updateModels_total ht
  exact ⟨_, ⟨ms', Real.log ((ms'.map Prod.snd).map Real.exp).sum⟩, (update_ok hi.ne).mpr
    ⟨updateModels_ok.mp h1, rfl, rfl⟩⟩

theorem maxByKey_spec (best : σ × ℝ) (l : List (σ × ℝ)) :
    ∃ i, ∃ hi : i < (best :: l).length, maxByKey best l = (best :: l)[i] ∧
      (∀ p ∈ best :: l, p.2 ≤ ((best :: l)[i]).2) ∧
      ∀ j (hj : j < i), ((best :: l)[j]'(by omega)).2 < ((best :: l)[i]).2 := by
  induction l generalizing best with
  | nil => exact ⟨0, by simp, rfl, by simp, by simp⟩
  | cons x l ih =>
    by_cases hb : best.2 < x.2
    · obtain ⟨i, hi, h1, h2, h3⟩ := ih x
      refine ⟨i + 1, by simpa using hi, ?_, ?_, ?_⟩
      · rw [maxByKey, if_pos hb, h1]
        rfl
      · intro p hp
        rcases List.mem_cons.mp hp with rfl | hp
        · exact le_trans hb.le (h2 x (by simp))
        · exact h2 p hp
      · intro j hj
        cases j with
        | zero => exact lt_of_lt_of_le hb (h2 x (by simp))
        | succ j => exact h3 j (by omega)
    · obtain ⟨i, hi, h1, h2, h3⟩ := ih best
      rw [not_lt] at hb
      cases i with
      | zero =>
        refine ⟨0, by simp, ?_, ?_, by simp⟩
        · rw [maxByKey, if_neg (not_lt.mpr hb), h1]
          rfl
        · intro p hp
          simp only [List.getElem_cons_zero] at h2 ⊢
          rcases List.mem_cons.mp hp with rfl | hp
          · exact le_rfl
          rcases List.mem_cons.mp hp with rfl | hp
          · exact hb
          · exact h2 p (by simp [hp])
      | succ i =>
        refine ⟨i + 2, by simp at hi ⊢; omega, ?_, ?_, ?_⟩
        · rw [maxByKey, if_neg (not_lt.mpr hb), h1]
          rfl
        · intro p hp
          have hbest := h2 best (by simp)
          simp only [List.getElem_cons_succ] at h2 hbest ⊢
          rcases List.mem_cons.mp hp with rfl | hp
          · exact hbest
          rcases List.mem_cons.mp hp with rfl | hp
          · exact le_trans hb hbest
          · exact h2 p (by simp [hp])
        · intro j hj
          have h0 := h3 0 (by omega)
          simp only [List.getElem_cons_zero, List.getElem_cons_succ] at h0 h3 ⊢
          match j with
          | 0 => exact h0
          | 1 => exact lt_of_le_of_lt hb h0
          | j + 2 =>
            have := h3 (j + 1) (by omega)
            simpa using this

end Averager

end Verif
