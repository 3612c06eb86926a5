import Verif.Model.LearnersKT
import Verif.Proofs.CtwPTW
import Verif.Proofs.CtwCTW
import Verif.Proofs.AveragerLawful

/-! The estimators of ctw.py and learners.py against those of model.py. -/

set_option linter.unusedSectionVars false

namespace Verif

open Predictor

theorem map_call_id {α : Type} (cs : List (Call α)) : cs.map (Call.map id) = cs := by
  have : (Call.map id : Call α → Call α) = id := by
    funext c
    cases c <;> simp [Call.map]
  rw [this, List.map_id]

/-- Runs correspond under a simulation. -/
theorem Hom.run {σ τ α : Type} {P : Predictor σ α} {Q : Predictor τ α} {W : ℝ → Prop} {R : σ → τ → Prop}
    (hH : Hom P Q id W R) {s : σ} {t : τ} (h : R s t) (xs : List (Obs α)) (hW : ∀ o ∈ xs, W o.weight) :
    CorrRes R (P.run s xs) (Q.run t xs) := by
  induction xs generalizing s t with
  | nil => exact ⟨rfl, h⟩
  | cons o xs ih =>
    simp only [Predictor.run]
    have := hH.update s t o.sym o.hist o.weight h (hW o (by simp))
    rw [List.map_id] at this
    rcases corrRes_cases this with ⟨e, h1, h2⟩ | ⟨r, s', t', h1, h2, h3⟩
    · rw [h1, show Q.update t o.sym o.hist o.weight = .error e from h2]; exact rfl
    · rw [h1, show Q.update t o.sym o.hist o.weight = .ok (r, t') from h2]
      simp only [ok_bind]
      rcases corrRes_cases (ih h3 fun o ho => hW o (by simp [ho])) with ⟨e, h4, h5⟩ | ⟨r2, s2, t2, h4, h5, h6⟩
      · rw [h4, h5]; exact rfl
      · rw [h4, h5]; exact ⟨rfl, h6⟩

theorem CorrRes.probOf_eq {σ τ : Type} {R : σ → τ → Prop} {x : Py (ℝ × σ)} {y : Py (ℝ × τ)} (h : CorrRes R x y) :
    probOf x = probOf y := by
  rcases corrRes_cases h with ⟨e, rfl, rfl⟩ | ⟨r, s, t, rfl, rfl, _⟩ <;> rfl

/-- A model simulated by a lawful one is lawful. -/
theorem Hom.lawful {σ τ α : Type} {P : Predictor σ α} {Q : Predictor τ α} {W : ℝ → Prop} {R : σ → τ → Prop}
    (hH : Hom P Q id W R) {I : τ → Prop} {A : List α} (hQ : Q.Lawful I A W) :
    P.Lawful (fun s => ∃ t, R s t ∧ I t) A W := by
  have hu : ∀ {s t}, R s t → ∀ a h w, W w → CorrRes R (P.update s a h w) (Q.update t a h w) := by
    intro s t hr a h w hw
    have := hH.update s t a h w hr hw
    rwa [List.map_id] at this
  have hp : ∀ {s t}, R s t → ∀ a h, CorrRes R (P.logPredict s a h) (Q.logPredict t a h) := by
    intro s t hr a h
    have := hH.predict s t a h hr
    rwa [List.map_id] at this
  refine ⟨?_, ?_, ?_, ?_⟩
  · rintro s a h w ⟨t, hr, ht⟩ ha hw
    obtain ⟨r, t', h1, h2⟩ := hQ.update_ok t a h w ht ha hw
    rcases corrRes_cases (hu hr a h w hw) with ⟨e, _, g⟩ | ⟨r', s', t2, g1, g2, g3⟩
    · rw [h1] at g; simp at g
    · rw [h1] at g2
      simp only [Except.ok.injEq, Prod.mk.injEq] at g2
      obtain ⟨rfl, rfl⟩ := g2
      exact ⟨r, s', g1, _, g3, h2⟩
  · rintro s a h ⟨t, hr, ht⟩ ha
    obtain ⟨r, t', h1, h2⟩ := hQ.predict_ok t a h ht ha
    rcases corrRes_cases (hp hr a h) with ⟨e, _, g⟩ | ⟨r', s', t2, g1, g2, g3⟩
    · rw [h1] at g; simp at g
    · rw [h1] at g2
      simp only [Except.ok.injEq, Prod.mk.injEq] at g2
      obtain ⟨rfl, rfl⟩ := g2
      exact ⟨r, s', g1, _, g3, h2⟩
  · rintro s a h w ⟨t, hr, ht⟩ ha hw r s' hus
    rcases corrRes_cases (hu hr a h w hw) with ⟨e, g, _⟩ | ⟨r', s2, t2, g1, g2, _⟩
    · rw [hus] at g; simp at g
    · rw [hus] at g1
      simp only [Except.ok.injEq, Prod.mk.injEq] at g1
      obtain ⟨u, hu'⟩ := hQ.coherent t a h w ht ha hw _ _ g2
      rcases corrRes_cases (hp hr a h) with ⟨e, _, k⟩ | ⟨r3, s3, t3, k1, k2, _⟩
      · rw [hu'] at k; simp at k
      · rw [hu'] at k2
        simp only [Except.ok.injEq, Prod.mk.injEq] at k2
        exact ⟨s3, by rw [g1.1, k2.1]; exact k1⟩
  · rintro s h ⟨t, hr, ht⟩
    rw [← hQ.normalised t h ht]
    congr 1
    exact List.map_congr_left fun a _ => (hp hr a h).probOf_eq

theorem KT.missing {α : Type} [DecidableEq α] {A : List α} {d : PyDict α ℝ} (hk : d.keys = A) {a : α} (ha : a ∉ A) :
    d.getE a = .error .keyError := by
  have : d.get? a = none := by
    cases h : d.get? a with
    | none => rfl
    | some c => exact absurd (hk ▸ PyDict.get?_isSome.mp ⟨c, h⟩) ha
  simp [PyDict.getE, this]

namespace CKT

variable {α : Type} [DecidableEq α]

/-- The counts are those of a good `model.KT`. -/
def Same (A : List α) (s : CKT α) (t : KT α) : Prop := KT.Good A t ∧ s.counts = t.counts

theorem logPredict_eq {A : List α} {s : CKT α} {t : KT α} (h : Same A s t) (a : α) : s.logPredict a = t.logPredict a := by
  obtain ⟨hg, hc⟩ := h
  by_cases ha : a ∈ A
  · obtain ⟨c, h1, h2⟩ := hg.get ha
    have hS := hg.sum_pos (List.ne_nil_of_mem ha)
    rw [hg.logPredict ha h1]
    simp only [CKT.logPredict, hc, PyDict.getE_ok.mpr h1, ok_bind, ← hg.sum, pyLog_of_pos h2, pyLog_of_pos hS, pure_eq_ok]
    rw [Real.log_div h2.ne' hS.ne']
  · simp [CKT.logPredict, KT.logPredict, hc, KT.missing hg.keys ha]

theorem hom (A : List α) : Hom (probSeq (α := α)).toPredictor KT.predictor id (fun w => 0 ≤ w) (Same A) where
  update := by
    intro s t a h w hs hw
    rw [List.map_id, id_eq]
    change CorrRes _ (s.update a w) (t.update a w)
    simp only [CKT.update, KT.update, logPredict_eq hs]
    obtain ⟨hg, hc⟩ := hs
    by_cases ha : a ∈ A
    · obtain ⟨c, h1, h2⟩ := hg.get ha
      simp only [hg.logPredict ha h1, ok_bind, hc, PyDict.getE_ok.mpr h1, pure_eq_ok]
      exact ⟨rfl, hg.step ha h1 hw, rfl⟩
    · simp only [KT.logPredict, KT.missing hg.keys ha]
      exact rfl
  predict := by
    intro s t a h hs
    rw [List.map_id, id_eq]
    change CorrRes _ (do let r ← s.logPredict a; pure (r, s)) (do let r ← t.logPredict a; pure (r, t))
    rw [logPredict_eq hs]
    cases t.logPredict a with
    | error e => exact rfl
    | ok r => exact ⟨rfl, hs⟩

theorem tracks : (probSeq (α := α)).Tracks := by
  intro s a w r s' hu
  change s.update a w = _ at hu
  simp only [CKT.update, bind_eq_ok, pure_eq_ok, Except.ok.injEq, Prod.mk.injEq] at hu
  obtain ⟨q, _, c, _, rfl, rfl⟩ := hu
  rfl

theorem predict_same {s t : CKT α} {a : α} {r : ℝ} (h : (probSeq (α := α)).logPredict s a = .ok (r, t)) : t = s := by
  simp only [probSeq, bind_eq_ok, pure_eq_ok, Except.ok.injEq, Prod.mk.injEq] at h
  obtain ⟨_, _, _, rfl⟩ := h
  rfl

theorem predict_lp {s t : CKT α} {a : α} {r : ℝ} (h : (probSeq (α := α)).logPredict s a = .ok (r, t)) :
    (probSeq (α := α)).lp t = (probSeq (α := α)).lp s := by rw [predict_same h]

theorem stable (I : CKT α → Prop) : CPNode.Stable (probSeq (α := α)) I := by
  intro s a r t _ h
  have := predict_same h
  subst this
  exact ⟨rfl, _, h⟩

theorem pure : (probSeq (α := α)).toPredictor.PurePredict :=
  PurePredict.of_id fun _ _ _ _ _ h => predict_same h

/-- The states of a `ctw.KT` over `A`. -/
def Good (A : List α) (s : CKT α) : Prop := ∃ t, Same A s t ∧ KT.Good A t

theorem lawful {A : List α} (hA : A.Nodup) (hne : A ≠ []) :
    (probSeq (α := α)).toPredictor.Lawful (Good A) A (fun w => 0 ≤ w) :=
  (hom A).lawful (KT.lawfulFull hA hne)

theorem init_default {A : List α} (hA : A.Nodup) (hne : A ≠ []) :
    init A none = .ok ⟨A.map fun a => (a, 1 / (A.length : ℝ)), 0⟩ := by
  simp [init, KT.init_default hA hne]

theorem same_default {A : List α} (hne : A ≠ []) :
    Same A ⟨A.map fun a => (a, 1 / (A.length : ℝ)), 0⟩ ⟨A.map fun a => (a, 1 / (A.length : ℝ)), 1⟩ :=
  ⟨KT.good_default hne, rfl⟩

theorem good_default {A : List α} (hne : A ≠ []) : Good A ⟨A.map fun a => (a, 1 / (A.length : ℝ)), 0⟩ :=
  ⟨_, same_default hne, KT.good_default hne⟩

end CKT

namespace LKT

variable {α : Type} [DecidableEq α]

/-- The counts are those of a good `model.KT`, whose total is one more than the number of steps. -/
def Same (A : List α) (s : LKT α) (t : KT α) : Prop :=
  KT.Good A t ∧ s.counts = t.counts ∧ t.sumCounts = s.numSteps + 1

theorem logPredict_eq {A : List α} {s : LKT α} {t : KT α} (h : Same A s t) (a : α) : s.logPredict a = t.logPredict a := by
  obtain ⟨hg, hc, hn⟩ := h
  by_cases ha : a ∈ A
  · obtain ⟨c, h1, h2⟩ := hg.get ha
    have hS := hg.sum_pos (List.ne_nil_of_mem ha)
    rw [hg.logPredict ha h1]
    simp only [LKT.logPredict, hc, PyDict.getE_ok.mpr h1, ok_bind, ← hn, pyLog_of_pos h2, pyLog_of_pos hS, pure_eq_ok]
    rw [Real.log_div h2.ne' hS.ne']
  · simp [LKT.logPredict, KT.logPredict, hc, KT.missing hg.keys ha]

theorem hom (A : List α) : Hom (predictor (α := α)) KT.predictor id (fun w => w = 1) (Same A) where
  update := by
    intro s t a h w hs hw
    subst hw
    rw [List.map_id, id_eq]
    change CorrRes _ (s.update a) (t.update a 1)
    simp only [LKT.update, KT.update, logPredict_eq hs]
    obtain ⟨hg, hc, hn⟩ := hs
    by_cases ha : a ∈ A
    · obtain ⟨c, h1, h2⟩ := hg.get ha
      simp only [hg.logPredict ha h1, ok_bind, hc, PyDict.getE_ok.mpr h1, pure_eq_ok]
      exact ⟨rfl, hg.step ha h1 (by norm_num), rfl, by push_cast; rw [hn]⟩
    · simp only [KT.logPredict, KT.missing hg.keys ha]
      exact rfl
  predict := by
    intro s t a h hs
    rw [List.map_id, id_eq]
    change CorrRes _ (do let r ← s.logPredict a; pure (r, s)) (do let r ← t.logPredict a; pure (r, t))
    rw [logPredict_eq hs]
    cases t.logPredict a with
    | error e => exact rfl
    | ok r => exact ⟨rfl, hs⟩

theorem init_eq {A : List α} (hA : A.Nodup) (hne : A ≠ []) :
    init A = .ok ⟨A.map fun a => (a, 1 / (A.length : ℝ)), 0, 0⟩ := by
  have hl : (A.length : ℝ) ≠ 0 := by simpa using hne
  simp [init, KT.comprehension_ok (g := fun _ => 1 / (A.length : ℝ)) (fun a _ => pyDiv_of_ne hl) hA [] (by simp)]

theorem same_default {A : List α} (hne : A ≠ []) :
    Same A ⟨A.map fun a => (a, 1 / (A.length : ℝ)), 0, 0⟩ ⟨A.map fun a => (a, 1 / (A.length : ℝ)), 1⟩ :=
  ⟨KT.good_default hne, rfl, by simp⟩

/-- The running `log_prob` is the sum of the reported values. -/
theorem run_logProb {s s' : LKT α} {xs : List (Obs α)} {r : ℝ} (h : predictor.run s xs = .ok (r, s')) :
    s'.logProb = s.logProb + r ∧ s'.numSteps = s.numSteps + xs.length := by
  induction xs generalizing s r with
  | nil =>
    simp only [Predictor.run, pure_eq_ok, Except.ok.injEq, Prod.mk.injEq] at h
    obtain ⟨rfl, rfl⟩ := h
    simp
  | cons o xs ih =>
    obtain ⟨r1, s1, r2, h1, h2, rfl⟩ := run_cons_ok.mp h
    obtain ⟨i1, i2⟩ := ih h2
    change s.update o.sym = _ at h1
    simp only [LKT.update, bind_eq_ok, pure_eq_ok, Except.ok.injEq, Prod.mk.injEq] at h1
    obtain ⟨q, _, c, _, rfl, rfl⟩ := h1
    simp only [i1, i2, List.length_cons]
    constructor
    · ring
    · omega

end LKT

namespace CAverager

variable {σ α : Type} {Q : ProbSeq σ α}

theorem logsumexp_shift (c : ℝ) (l : List ℝ) : logsumexp (l.map (c + ·)) = (logsumexp l).map (c + ·) := by
  cases l with
  | nil => rfl
  | cons v vs =>
    rw [logsumexp_eq (by simp), logsumexp_eq (by simp)]
    simp only [Except.map, Except.ok.injEq]
    have : ((v :: vs).map (c + ·)).map Real.exp = ((v :: vs).map Real.exp).map (Real.exp c * ·) := by
      simp only [List.map_map]
      apply List.map_congr_left
      intro x _
      simp [Real.exp_add]
    rw [this, List.sum_map_mul_left, List.map_id', Real.log_mul (Real.exp_ne_zero c) sum_exp_pos.ne', Real.log_exp]

/-- A `ctw.Averager` as a `model.Averager`. -/
def abs (Q : ProbSeq σ α) (s : CAverager σ) : Averager σ := ⟨s.models.map fun m => (m, s.log1n + Q.lp m), s.logProb⟩

theorem updateModels_sim (hQ : Q.Tracks) (c : ℝ) (a : α) (h : List α) (w : ℝ) (ms : List σ) :
    Averager.updateModels Q.toPredictor a h w (ms.map fun m => (m, c + Q.lp m)) =
      (updateModels Q a w ms).map fun ms' => ms'.map fun m => (m, c + Q.lp m) := by
  induction ms with
  | nil => rfl
  | cons m ms ih =>
    simp only [List.map_cons, Averager.updateModels, updateModels, ih]
    change (Q.update m a w >>= _) = _
    cases h1 : Q.update m a w with
    | error e => rfl
    | ok p =>
      obtain ⟨r, m'⟩ := p
      simp only [ok_bind]
      cases updateModels Q a w ms with
      | error e => rfl
      | ok ms' =>
        simp only [Except.map, ok_bind, pure_eq_ok, List.map_cons, hQ m a w r m' h1, add_assoc]

theorem predictModels_sim (hL : ∀ s a r t, Q.logPredict s a = .ok (r, t) → Q.lp t = Q.lp s) (c : ℝ) (a : α) (h : List α)
    (ms : List σ) :
    Averager.predictModels Q.toPredictor a h (ms.map fun m => (m, c + Q.lp m)) =
      (predictModels Q a ms).map fun p => (p.1.map (c + ·), p.2.map fun m => (m, c + Q.lp m)) := by
  induction ms with
  | nil => rfl
  | cons m ms ih =>
    simp only [List.map_cons, Averager.predictModels, predictModels, ih]
    change (Q.logPredict m a >>= _) = _
    cases h1 : Q.logPredict m a with
    | error e => rfl
    | ok p =>
      obtain ⟨r, m'⟩ := p
      simp only [ok_bind]
      cases predictModels Q a ms with
      | error e => rfl
      | ok q =>
        simp only [Except.map, ok_bind, pure_eq_ok, List.map_cons, hL m a r m' h1, Except.ok.injEq, Prod.mk.injEq,
          List.cons.injEq, and_true]
        ring

theorem hom (hQ : Q.Tracks) (hL : ∀ s a r t, Q.logPredict s a = .ok (r, t) → Q.lp t = Q.lp s) :
    Hom (probSeq Q).toPredictor (Averager.predictor Q.toPredictor) id (fun _ => True) (fun s t => t = abs Q s) where
  update := by
    rintro s t a h w rfl -
    rw [List.map_id, id_eq]
    change CorrRes _ (update Q s a w) (Averager.update Q.toPredictor (abs Q s) a h w)
    simp only [update, Averager.update, abs, updateModels_sim hQ]
    cases updateModels Q a w s.models with
    | error e => exact rfl
    | ok ms =>
      simp only [Except.map, ok_bind, List.map_map]
      have e1 : ms.map (Prod.snd ∘ fun m => (m, s.log1n + Q.lp m)) = (ms.map Q.lp).map (s.log1n + ·) := by
        simp [List.map_map, Function.comp_def]
      rw [e1, logsumexp_shift]
      cases logsumexp (ms.map Q.lp) with
      | error e => exact rfl
      | ok l => exact ⟨rfl, rfl⟩
  predict := by
    rintro s t a h rfl
    rw [List.map_id, id_eq]
    change CorrRes _ (logPredict Q s a) (Averager.logPredict Q.toPredictor (abs Q s) a h)
    simp only [logPredict, Averager.logPredict, abs, predictModels_sim hL]
    cases predictModels Q a s.models with
    | error e => exact rfl
    | ok p =>
      obtain ⟨vs, ms⟩ := p
      simp only [Except.map, ok_bind, logsumexp_shift]
      cases logsumexp vs with
      | error e => exact rfl
      | ok l => exact ⟨rfl, rfl⟩

theorem init_ok {ms : List σ} {s : CAverager σ} :
    init Q ms = .ok s ↔
      ms ≠ [] ∧ s = ⟨ms.map fun m => Q.setLP m 0, Real.log (1 / (ms.length : ℝ)), 0⟩ := by
  simp only [init, bind_eq_ok, pyDiv_eq_ok, pyLog_eq_ok, pure_eq_ok, Except.ok.injEq]
  constructor
  · rintro ⟨q, ⟨h1, rfl⟩, l, ⟨_, rfl⟩, rfl⟩
    refine ⟨?_, rfl⟩
    rintro rfl
    simp at h1
  · rintro ⟨h1, rfl⟩
    have hp : 0 < (ms.length : ℝ) := by
      have := List.length_pos_iff.mpr h1
      exact_mod_cast this
    exact ⟨_, ⟨hp.ne', rfl⟩, _, ⟨by positivity, rfl⟩, rfl⟩

/-- A new `ctw.Averager` corresponds to a new `model.Averager` over the components with their `log_prob` set to zero. -/
theorem init_abs (hset : ∀ s x, Q.lp (Q.setLP s x) = x) {ms : List σ} {s : CAverager σ} (h : init Q ms = .ok s) :
    Averager.init (ms.map fun m => Q.setLP m 0) = .ok (abs Q s) := by
  obtain ⟨hne, rfl⟩ := init_ok.mp h
  rw [Averager.init_ok]
  refine ⟨by simpa using hne, ?_⟩
  simp [abs, hset]

theorem tracks : (probSeq Q).Tracks := by
  intro s a w r s' hu
  change update Q s a w = _ at hu
  simp only [update, bind_eq_ok, pure_eq_ok, Except.ok.injEq, Prod.mk.injEq] at hu
  obtain ⟨ms, _, l, _, rfl, rfl⟩ := hu
  simp only [probSeq]
  ring

theorem predict_lp {s t : CAverager σ} {a : α} {r : ℝ} (h : (probSeq Q).logPredict s a = .ok (r, t)) :
    (probSeq Q).lp t = (probSeq Q).lp s := by
  change logPredict Q s a = _ at h
  simp only [logPredict, bind_eq_ok, pure_eq_ok, Except.ok.injEq, Prod.mk.injEq, Prod.exists] at h
  obtain ⟨vs, ms, _, l, _, _, rfl⟩ := h
  rfl

end CAverager

namespace CCTW

variable {σ α : Type} [DecidableEq α] {Q : ProbSeq σ α} {fresh : σ} {d : ℕ} {zero : α}

/-- `log_predict` keeps `log_prob`, and asking again gives the same answer. -/
theorem stable (hL : ∀ s a r t, Q.logPredict s a = .ok (r, t) → Q.lp t = Q.lp s)
    (hP : Q.toPredictor.PurePredict) (hf : Q.lp fresh = 0) {I : CCTW σ α → Prop}
    (hI : ∀ s, I s → ∃ m, CCTWNode.Rel Q d s.tree m) : CPNode.Stable (probSeq Q fresh d zero) I := by
  intro s a r t hs h
  obtain ⟨m, hr⟩ := hI s hs
  have h' : s.logPredict Q fresh d zero a = .ok (r, t) := h
  rcases corrRes_cases (corr_predict (zero := zero) hL hf hr a) with ⟨e, h1, _⟩ | ⟨r', s', m', h1, h2, h3, h4, h5⟩
  · rw [h'] at h1; simp at h1
  · rw [h'] at h1
    simp only [Except.ok.injEq, Prod.mk.injEq] at h1
    obtain ⟨rfl, rfl⟩ := h1
    refine ⟨h5, ?_⟩
    have hb := CTWNode.eqvAll_bisimulation (P := Q.toPredictor) (fresh := fresh) (recent d zero) _ _
      (CTWNode.logPredict_eqv hP h2)
    have h6 := hb.2 a s.history
    rw [h2] at h6
    rcases sameResult_ok h6 with ⟨e, g, _⟩ | ⟨r2, _, m2, g1, g2, _⟩
    · simp at g
    · simp only [Except.ok.injEq, Prod.mk.injEq] at g1
      rcases corrRes_cases (corr_predict (zero := zero) hL hf h3 a) with ⟨e, _, k⟩ | ⟨r3, s3, m3, k1, k2, _⟩
      · rw [h4, g2] at k; simp at k
      · rw [h4, g2] at k2
        simp only [Except.ok.injEq, Prod.mk.injEq] at k2
        exact ⟨s3, by rw [g1.1, k2.1]; exact k1⟩

end CCTW

end Verif
