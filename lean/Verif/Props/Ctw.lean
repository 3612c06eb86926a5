import Verif.Proofs.CtwBase
import Verif.Props.PTW
import Verif.Props.CTW
import Verif.Props.Mixtures

/-!
# C39 and C47-C49: the sequence predictors of ctw.py

`Q.Tracks` says that `log_prob` is the running sum of the returned values; it holds for every class of ctw.py
(`C39_log_prob_tracks`).
-/

namespace Verif

open Predictor

section PTW

variable {σ α : Type} (Q : ProbSeq σ α) (fresh : σ) (height : ℕ)

/-- Every class of ctw.py keeps `log_prob` as the running sum of what `update` returns. -/
theorem C39_log_prob_tracks [DecidableEq α] (d : ℕ) (zero : α) :
    (CKT.probSeq (α := α)).Tracks ∧ (CAverager.probSeq Q).Tracks ∧ (CCTW.probSeq Q fresh d zero).Tracks ∧
      (CPTW.probSeq Q fresh height).Tracks := by
  refine ⟨CKT.tracks, CAverager.tracks, CCTW.tracks, ?_⟩
  intro s a w r s' hu
  change s.update Q fresh height a w = _ at hu
  simp only [CPTW.update, bind_eq_ok] at hu
  obtain ⟨n, _, hu⟩ := hu
  split_ifs at hu
  simp only [bind_eq_ok, pure_eq_ok, Except.ok.injEq, Prod.mk.injEq] at hu
  obtain ⟨l, _, rfl, rfl⟩ := hu
  simp only [CPTW.probSeq]
  ring

/-- **C39.** Whenever a run of `ctw.PTW(height, Base)` succeeds on `xs`, `xs` has at most `2 ^ height` symbols and the
reported probability is the recursively defined partition-tree mixture. -/
theorem C39_ctw_PTW_closed_form (hQ : Q.Tracks) (hf : Q.lp fresh = 0) (xs : List (Obs α)) (r : ℝ) (s : CPTW σ)
    (hr : (CPTW.probSeq Q fresh height).toPredictor.run (CPTW.init fresh) xs = .ok (r, s)) :
    xs.length ≤ 2 ^ height ∧ r = s.logProb ∧
      Real.exp r = ptwProb (fun _ => Q.toPredictor.seqProb fresh) 0 height 0 xs := by
  obtain ⟨h1, h2⟩ := (CPTW.inv_init (fr := fun _ => fresh) hf).run hQ hf hr
  rw [List.nil_append] at h1
  have h3 : r = s.logProb := by simpa [CPTW.init] using h2
  exact ⟨h1.length, h3, by rw [h3]; exact h1.lp⟩

/-- **C39 (agreement).** `ctw.PTW(height, Base)` reports what `model.PTWFixedLength(Base, 2 ** height)` reports, on every
sequence on which both succeed. -/
theorem C39_ctw_PTW_eq_PTWFixedLength (hQ : Q.Tracks) (hf : Q.lp fresh = 0) (xs : List (Obs α)) (r r' : ℝ)
    (s : CPTW σ) (s' : PTW σ)
    (hr : (CPTW.probSeq Q fresh height).toPredictor.run (CPTW.init fresh) xs = .ok (r, s))
    (hr' : (PTWFixedLength.predictor Q.toPredictor fresh 0 height).run (PTW.init fresh 0) xs = .ok (r', s')) :
    r = r' := by
  obtain ⟨h1, _, h2⟩ := C39_ctw_PTW_closed_form Q fresh height hQ hf xs r s hr
  have h4 := C24_PTWFixedLength_closed_form Q.toPredictor fresh 0 height xs (by simpa using h1) r' s' hr'
  rw [Nat.sub_zero] at h4
  apply Real.exp_injective
  rw [h2, h4]

/-- **C39 (success and limit).** Over a base model that accepts the symbols, a run succeeds if it has at most `2 ^ height`
symbols, and otherwise the assertion on the height fails. -/
theorem C39_ctw_PTW_total (hQ : Q.Tracks) (hf : Q.lp fresh = 0) (I : σ → Prop) (A : List α) (W : ℝ → Prop)
    (hP : Q.toPredictor.UpdateLawful I A W) (hI : I fresh) (xs : List (Obs α))
    (hx : ∀ o ∈ xs, o.sym ∈ A ∧ W o.weight) :
    (xs.length ≤ 2 ^ height →
      ∃ r s, (CPTW.probSeq Q fresh height).toPredictor.run (CPTW.init fresh) xs = .ok (r, s)) ∧
    (2 ^ height < xs.length →
      (CPTW.probSeq Q fresh height).toPredictor.run (CPTW.init fresh) xs = .error .assertionError) := by
  have hall : PTWNode.All I (CPNode.abs Q (CPTW.init fresh).tree) := by
    simpa [CPTW.init, CPNode.abs, CPNode.absD, CPData.new, PTWNode.All] using hI
  obtain ⟨h1, h2⟩ := (CPTW.inv_init (fr := fun _ => fresh) hf).run_total (height := height) hQ hf hP hI hall hx
  rw [List.nil_append] at h1 h2
  refine ⟨fun h => ?_, h2⟩
  obtain ⟨r, s, h3, _⟩ := h1 h
  exact ⟨r, s, h3⟩

/-- **C39 (prediction).** After fewer than `2 ^ height` symbols, `log_predict` returns exactly what `update` would
return, and the predicted probabilities sum to one.  The base model's prediction must agree with its update, keep its
`log_prob` and repeat itself. -/
theorem C39_ctw_PTW_predict (hQ : Q.Tracks) (hf : Q.lp fresh = 0) (I : σ → Prop) (A : List α) (W : ℝ → Prop)
    (hP : Q.toPredictor.Lawful I A W) (hI : I fresh) (hst : CPNode.Stable Q I) (xs : List (Obs α))
    (hx : ∀ o ∈ xs, o.sym ∈ A ∧ W o.weight) (hl : xs.length < 2 ^ height) (r : ℝ) (s : CPTW σ)
    (hr : (CPTW.probSeq Q fresh height).toPredictor.run (CPTW.init fresh) xs = .ok (r, s)) (w : ℝ) (hw : W w) :
    (∀ a ∈ A, ∃ q s' t, s.update Q fresh height a w = .ok (q, s') ∧ s.logPredict Q fresh height a = .ok (q, t)) ∧
    (A.map fun a => probOf (s.logPredict Q fresh height a)).sum = 1 := by
  have hall : PTWNode.All I (CPNode.abs Q (CPTW.init fresh).tree) := by
    simpa [CPTW.init, CPNode.abs, CPNode.absD, CPData.new, PTWNode.All] using hI
  obtain ⟨h1, _⟩ := (CPTW.inv_init (fr := fun _ => fresh) hf).run_total (height := height) hQ hf hP.updateLawful hI
    hall hx
  rw [List.nil_append] at h1
  obtain ⟨r', s1, h3, hi, hs⟩ := h1 hl.le
  rw [hr] at h3
  simp only [Except.ok.injEq, Prod.mk.injEq] at h3
  obtain ⟨rfl, rfl⟩ := h3
  have key : ∀ a ∈ A, ∃ q s' t, s.update Q fresh height a w = .ok (q, s') ∧
      s.logPredict Q fresh height a = .ok (q, t) := by
    intro a ha
    obtain ⟨q, s', hu, _⟩ := (hi.total hQ (fun _ => hf) hP.updateLawful.total (fun _ => hI) hs ha hw).1 hl
    obtain ⟨t, ht, _⟩ := hi.predict hQ (fun _ => hf) hP (fun _ => hI) hst hs ha hw hu
    exact ⟨q, s', t, hu, ht⟩
  refine ⟨key, ?_⟩
  have : ∀ a ∈ A, probOf (s.logPredict Q fresh height a) =
      ptwProb (PTWNode.blockProb Q.toPredictor fun _ => fresh) 0 height 0 (xs ++ [⟨a, [], w⟩]) *
        (Real.exp s.logProb)⁻¹ := by
    intro a ha
    obtain ⟨q, s', t, hu, ht⟩ := key a ha
    obtain ⟨h4, h5, _⟩ := hi.update (o := ⟨a, [], w⟩) hQ (fun _ => hf) hu
    rw [ht, probOf_ok, h5, Real.exp_sub, h4.lp, div_eq_mul_inv]
  rw [List.map_congr_left this, List.sum_map_mul_right,
    PTW.blockProb_sum hP.updateLawful (fun _ => hI) hx [] hw height 0 (by simpa using hl), ← hi.lp,
    mul_inv_cancel₀ (Real.exp_pos _).ne']

/-- **C39 (no effect).** If the base model's prediction does not change it, neither does that of `ctw.PTW`. -/
theorem C39_ctw_PTW_predict_pure (hQ : Q.Tracks) (hf : Q.lp fresh = 0) (I : σ → Prop) (A : List α) (W : ℝ → Prop)
    (hP : Q.toPredictor.Lawful I A W) (hI : I fresh)
    (hpure : ∀ s a r t, I s → Q.logPredict s a = .ok (r, t) → t = s) (xs : List (Obs α))
    (hx : ∀ o ∈ xs, o.sym ∈ A ∧ W o.weight) (hl : xs.length < 2 ^ height) (r : ℝ) (s : CPTW σ)
    (hr : (CPTW.probSeq Q fresh height).toPredictor.run (CPTW.init fresh) xs = .ok (r, s)) (w : ℝ) (hw : W w) (a : α)
    (ha : a ∈ A) : ∃ q, s.logPredict Q fresh height a = .ok (q, s) := by
  have hall : PTWNode.All I (CPNode.abs Q (CPTW.init fresh).tree) := by
    simpa [CPTW.init, CPNode.abs, CPNode.absD, CPData.new, PTWNode.All] using hI
  have hst : CPNode.Stable Q I := by
    intro s a r t hs h
    have := hpure s a r t hs h
    subst this
    exact ⟨rfl, _, h⟩
  obtain ⟨h1, _⟩ := (CPTW.inv_init (fr := fun _ => fresh) hf).run_total (height := height) hQ hf hP.updateLawful hI
    hall hx
  rw [List.nil_append] at h1
  obtain ⟨r', s1, h3, hi, hs⟩ := h1 hl.le
  rw [hr] at h3
  simp only [Except.ok.injEq, Prod.mk.injEq] at h3
  obtain ⟨rfl, rfl⟩ := h3
  obtain ⟨q, s', hu, _⟩ := (hi.total hQ (fun _ => hf) hP.updateLawful.total (fun _ => hI) hs ha hw).1 hl
  obtain ⟨t, ht, h4⟩ := hi.predict hQ (fun _ => hf) hP (fun _ => hI) hst hs ha hw hu
  rw [h4 hpure] at ht
  exact ⟨q, ht⟩

/-- The default base model of ctw.py meets the hypotheses, and three symbols fit height two. -/
example : ∃ r s, (CPTW.probSeq CKT.probSeq (⟨[(0, 1/2), (1, 1/2)], 0⟩ : CKT ℕ) 2).toPredictor.run
      (CPTW.init ⟨[(0, 1/2), (1, 1/2)], 0⟩) [⟨0, [], 1⟩, ⟨1, [], 1⟩, ⟨1, [], 1⟩] = .ok (r, s) ∧
    ([0, 1].map fun a => probOf (s.logPredict CKT.probSeq ⟨[(0, 1/2), (1, 1/2)], 0⟩ 2 a)).sum = 1 := by
  have hg : CKT.Good [0, 1] (⟨[(0, 1/2), (1, 1/2)], 0⟩ : CKT ℕ) := by
    have := CKT.good_default (A := [0, 1]) (by simp)
    norm_num at this ⊢
    exact this
  have hP := CKT.lawful (A := [0, 1]) (by decide) (by simp)
  have hx : ∀ o ∈ ([⟨0, [], 1⟩, ⟨1, [], 1⟩, ⟨1, [], 1⟩] : List (Obs ℕ)), o.sym ∈ [0, 1] ∧ 0 ≤ o.weight := by
    intro o ho
    simp only [List.mem_cons, List.not_mem_nil, or_false] at ho
    rcases ho with rfl | rfl | rfl <;> simp
  obtain ⟨r, s, hr⟩ := (C39_ctw_PTW_total _ _ 2 CKT.tracks rfl _ _ _ hP.updateLawful hg _ hx).1 (by norm_num)
  exact ⟨r, s, hr, (C39_ctw_PTW_predict _ _ 2 CKT.tracks rfl _ _ _ hP hg (CKT.stable _) _ hx (by norm_num) r s hr 1
    (by norm_num)).2⟩

end PTW

section KT

variable {α : Type} [DecidableEq α]

/-- **C47.** `ctw.KT(alphabet)` and `model.KT(alphabet)` answer every sequence of calls alike, whatever the symbols and
the non-negative weights. -/
theorem C47_ctw_KT_eq_model_KT (A : List α) (hA : A.Nodup) (hne : A ≠ []) (cs : List (Call α))
    (hw : ∀ c ∈ cs, c.Weight (fun w => 0 ≤ w)) :
    ∃ s t, CKT.init A none = .ok s ∧ KT.init A none = .ok t ∧ s.logProb = 0 ∧
      CKT.probSeq.toPredictor.outputs s cs = KT.predictor.outputs t cs := by
  refine ⟨_, _, CKT.init_default hA hne, KT.init_default hA hne, rfl, ?_⟩
  have := (CKT.hom A).outputs_eq (CKT.same_default hne) cs hw
  rwa [map_call_id] at this

/-- **C47 (given counts).** The same for initial counts given by the user, if they are positive. -/
theorem C47_ctw_KT_counts (A : List α) (hA : A.Nodup) (d : PyDict α ℝ) (hd : d ≠ [])
    (hp : ∀ a ∈ A, ∃ c, d.get? a = some c ∧ 0 < c) (cs : List (Call α)) (hw : ∀ c ∈ cs, c.Weight (fun w => 0 ≤ w)) :
    ∃ s t, CKT.init A (some d) = .ok s ∧ KT.init A (some d) = .ok t ∧
      CKT.probSeq.toPredictor.outputs s cs = KT.predictor.outputs t cs := by
  have hg : ∀ a ∈ A, d.get? a = some ((d.get? a).getD 1) := by
    intro a ha
    obtain ⟨c, hc, _⟩ := hp a ha
    simp [hc]
  have hi := KT.init_counts hA hd _ hg
  have hgood := KT.good_of_map (A := A) (fun a => (d.get? a).getD 1) (by
    intro a ha
    obtain ⟨c, hc, h⟩ := hp a ha
    simpa [hc] using h)
  refine ⟨_, _, by simp only [CKT.init, hi, ok_bind, pure_eq_ok]; rfl, hi, ?_⟩
  have := (CKT.hom A).outputs_eq (s := ⟨A.map fun a => (a, (d.get? a).getD 1), 0⟩) ⟨hgood, rfl⟩ cs hw
  rwa [map_call_id] at this

/-- **C47 (learners.py).** `learners.KT(alphabet)`, which takes no weights, answers like `model.KT` with weight one. -/
theorem C47_learners_KT_eq_model_KT (A : List α) (hA : A.Nodup) (hne : A ≠ []) (cs : List (Call α))
    (hw : ∀ c ∈ cs, c.Weight (fun w => w = 1)) :
    ∃ s t, LKT.init A = .ok s ∧ KT.init A none = .ok t ∧
      LKT.predictor.outputs s cs = KT.predictor.outputs t cs := by
  refine ⟨_, _, LKT.init_eq hA hne, KT.init_default hA hne, ?_⟩
  have := (LKT.hom A).outputs_eq (LKT.same_default hne) cs hw
  rwa [map_call_id] at this

/-- **C47 (running total).** The attributes `log_prob` and `num_steps` of a `learners.KT` are the sum of the returned
values and the number of updates. -/
theorem C47_learners_KT_log_prob (A : List α) (s0 s : LKT α) (h0 : LKT.init A = .ok s0) (xs : List (Obs α)) (r : ℝ)
    (hr : LKT.predictor.run s0 xs = .ok (r, s)) : s.logProb = r ∧ s.numSteps = xs.length := by
  simp only [LKT.init, bind_eq_ok, pure_eq_ok, Except.ok.injEq] at h0
  obtain ⟨d, _, rfl⟩ := h0
  simpa using LKT.run_logProb hr

/-- **C47 (empty alphabet).** Over the empty alphabet nothing is raised on construction, and every symbol is then a
`KeyError`. -/
theorem C47_learners_KT_empty (a : α) : ∃ s, LKT.init ([] : List α) = .ok s ∧ s.logPredict a = .error .keyError :=
  ⟨⟨[], 0, 0⟩, rfl, rfl⟩

/-- A mixed sequence of calls, including a symbol outside the alphabet. -/
example : ∀ c ∈ ([.update 0 [] 1, .predict 1 [], .update 1 [0] 1, .predict 7 []] : List (Call ℕ)),
    c.Weight (fun w => w = 1) := by
  intro c hc
  simp only [List.mem_cons, List.not_mem_nil, or_false] at hc
  rcases hc with rfl | rfl | rfl | rfl <;> simp [Call.Weight]

end KT

section CTW

variable {σ α : Type} [DecidableEq α] (Q : ProbSeq σ α) (fresh : σ) (d : ℕ) (zero : α)

/-- **C48.** `ctw.CTW(depth)`, which keeps its own history, answers every sequence of calls as a `model.CTW` does that is
handed the symbols of the earlier updates as history, and that takes the last `depth` symbols, zero-padded, as
context. -/
theorem C48_ctw_CTW_eq_model_CTW (hQ : Q.Tracks) (hL : ∀ s a r t, Q.logPredict s a = .ok (r, t) → Q.lp t = Q.lp s)
    (hf : Q.lp fresh = 0) (cs : List (Call α)) :
    (CCTW.probSeq Q fresh d zero).toPredictor.outputs (CCTW.init fresh) cs =
      (CTW.predictor Q.toPredictor fresh (recent d zero)).outputs (CTW.init fresh) (withHistory [] cs) :=
  CCTW.outputs_eq hQ hL hf (.new hf d) cs

/-- **C48 (default models).** For `depth ≥ 1`, `ctw.CTW(depth, KT)` and `model.CTW(depth, KT)` agree. -/
theorem C48_ctw_CTW_KT_eq_model_CTW_KT (A : List α) (hne : A ≠ []) (hd : 1 ≤ d)
    (cs : List (Call α)) (hw : ∀ c ∈ cs, c.Weight (fun w => 0 ≤ w)) :
    (CCTW.probSeq CKT.probSeq ⟨A.map fun a => (a, 1 / (A.length : ℝ)), 0⟩ d zero).toPredictor.outputs
        (CCTW.init ⟨A.map fun a => (a, 1 / (A.length : ℝ)), 0⟩) cs =
      (CTW.predictor KT.predictor ⟨A.map fun a => (a, 1 / (A.length : ℝ)), 1⟩ (CTW.mkcontext d zero)).outputs
        (CTW.init ⟨A.map fun a => (a, 1 / (A.length : ℝ)), 1⟩) (withHistory [] cs) := by
  rw [C48_ctw_CTW_eq_model_CTW _ _ d zero CKT.tracks (fun s a r t h => CKT.predict_lp h) rfl]
  have hH := CTWNode.hom (f := Equiv.refl α) (CKT.hom A) (CKT.same_default hne) (ctx := recent d zero)
    (ctx' := CTW.mkcontext d zero) (by intro h; simp [mkcontext_eq_recent (show d ≠ 0 by omega)])
  have hw' : ∀ (h : List α) (cs : List (Call α)), (∀ c ∈ cs, c.Weight (fun w => 0 ≤ w)) →
      ∀ c ∈ withHistory h cs, c.Weight (fun w => 0 ≤ w) := by
    intro h cs
    induction cs generalizing h with
    | nil => intro _ c hc; simp [withHistory] at hc
    | cons c0 cs ih =>
      intro hw c hc
      cases c0 with
      | update a h' w =>
        simp only [withHistory, List.mem_cons] at hc
        rcases hc with rfl | hc
        · exact hw (.update a h' w) (by simp)
        · exact ih _ (fun c hc => hw c (by simp [hc])) c hc
      | predict a h' =>
        simp only [withHistory, List.mem_cons] at hc
        rcases hc with rfl | hc
        · trivial
        · exact ih _ (fun c hc => hw c (by simp [hc])) c hc
  have := hH.outputs_eq (CTWNode.tcorr_new (CKT.same_default hne)) (withHistory [] cs) (hw' [] cs hw)
  rwa [map_call_id] at this

/-- **C48 (closed form).** The probability of a sequence is the recursively defined context-tree mixture, each symbol in
the context of the symbols before it. -/
theorem C48_ctw_CTW_closed_form (hQ : Q.Tracks) (hf : Q.lp fresh = 0) (xs : List (Obs α)) (r : ℝ) (s : CCTW σ α)
    (hr : (CCTW.probSeq Q fresh d zero).toPredictor.run (CCTW.init fresh) xs = .ok (r, s)) :
    s.history = xs.map Obs.sym ∧
    Real.exp r = ctwProb (Q.toPredictor.seqProb fresh) d (withCtx (recent d zero) (addHist [] xs)) := by
  rcases corrRes_cases (CCTW.run_corr (zero := zero) (s := CCTW.init fresh) hQ hf (.new hf d) xs) with
    ⟨e, h1, _⟩ | ⟨r', s', m, h1, h2, _, h4⟩
  · rw [hr] at h1; simp at h1
  · rw [hr] at h1
    simp only [Except.ok.injEq, Prod.mk.injEq] at h1
    obtain ⟨rfl, rfl⟩ := h1
    refine ⟨by simpa [CCTW.init] using h4, ?_⟩
    exact C13_CTW_closed_form _ _ _ d _ (fun o _ => recent_length d zero o.hist) r m h2

/-- **C48 (depth 0).** At depth 0, where the context function returns the whole history, the history is ignored and the
reported probability is that of the base model. -/
theorem C48_ctw_CTW_depth_zero (hQ : Q.Tracks) (hf : Q.lp fresh = 0) (xs : List (Obs α)) (r : ℝ) (s : CCTW σ α)
    (hr : (CCTW.probSeq Q fresh 0 zero).toPredictor.run (CCTW.init fresh) xs = .ok (r, s)) :
    Real.exp r = Q.toPredictor.seqProb fresh (addHist [] xs) := by
  rw [(C48_ctw_CTW_closed_form Q fresh 0 zero hQ hf xs r s hr).2, ctwProb]
  simp [withCtx, Function.comp_def]

/-- **C48 (prediction).** Over a lawful base model, in every state that predictions and updates can reach, `log_predict`
returns what `update` returns, neither raises, and the predicted probabilities sum to one. -/
theorem C48_ctw_CTW_predict (hQ : Q.Tracks) (hL : ∀ s a r t, Q.logPredict s a = .ok (r, t) → Q.lp t = Q.lp s)
    (hf : Q.lp fresh = 0) (I : σ → Prop) (A : List α) (W : ℝ → Prop) (hP : Q.toPredictor.Lawful I A W) (hI : I fresh)
    (s : CCTW σ α) (hr : Reach (CCTW.probSeq Q fresh d zero).toPredictor A W (CCTW.init fresh) s) (w : ℝ) (hw : W w) :
    (∀ a ∈ A, ∃ r s' t, s.update Q fresh d zero a w = .ok (r, s') ∧ s.logPredict Q fresh d zero a = .ok (r, t)) ∧
      (A.map fun a => probOf (s.logPredict Q fresh d zero a)).sum = 1 := by
  have hlaw := CCTW.lawful (d := d) (zero := zero) hQ hL hf hP
  have hs := hlaw.reach (s := CCTW.init fresh) ⟨_, .new hf d, CTWNode.WF.new hI d⟩ hr
  refine ⟨?_, hlaw.normalised s [] hs⟩
  intro a ha
  obtain ⟨r, s', h1, _⟩ := hlaw.update_ok s a [] w hs ha hw
  obtain ⟨t, ht⟩ := hlaw.coherent s a [] w hs ha hw r s' h1
  exact ⟨r, s', t, h1, ht⟩

/-- **C48 (composition).** A `ctw.CTW` over `KT` is a base model to which C39 applies. -/
theorem C48_ctw_CTW_base (A : List α) (hA : A.Nodup) (hne : A ≠ []) :
    ∃ I : CCTW (CKT α) α → Prop,
      (CCTW.probSeq CKT.probSeq ⟨A.map fun a => (a, 1 / (A.length : ℝ)), 0⟩ d zero).toPredictor.Lawful I A (fun w => 0 ≤ w) ∧
      CPNode.Stable (CCTW.probSeq CKT.probSeq ⟨A.map fun a => (a, 1 / (A.length : ℝ)), 0⟩ d zero) I ∧
      I (CCTW.init ⟨A.map fun a => (a, 1 / (A.length : ℝ)), 0⟩) := by
  refine ⟨_, CCTW.lawful CKT.tracks (fun s a r t h => CKT.predict_lp h) rfl (CKT.lawful hA hne),
    CCTW.stable (fun s a r t h => CKT.predict_lp h) CKT.pure rfl ?_,
    _, CCTWNode.Rel.new (Q := CKT.probSeq) (fresh := ⟨A.map fun a => (a, 1 / (A.length : ℝ)), 0⟩) rfl d, CTWNode.WF.new (CKT.good_default hne) d⟩
  rintro s ⟨m, h, _⟩
  exact ⟨m, h⟩

/-- Histories added to a sequence of calls, and contexts of length two. -/
example : withHistory [] [Call.update 5 [] 1, .predict 6 [], .update 7 [] 1, .predict 8 []] =
    [.update 5 [] 1, .predict 6 [5], .update 7 [5] 1, .predict 8 [5, 7]] := rfl

example : recent 2 0 [5] = [0, 5] ∧ recent 2 0 [5, 6, 7] = [6, 7] ∧ recent 0 0 [5, 6] = [] := ⟨rfl, rfl, rfl⟩

end CTW

section Averager

variable {σ α : Type} (Q : ProbSeq σ α)

/-- Assigning `log_prob` has no effect on what a model answers. -/
def ProbSeq.Detached (Q : ProbSeq σ α) : Prop :=
  ∃ R, Hom Q.toPredictor Q.toPredictor id (fun _ => True) R ∧ ∀ s x, R s (Q.setLP s x)

/-- What any `ctw.Averager` computes: the uniform mixture of its components with their `log_prob` set to zero. -/
theorem C49_ctw_Averager_reset (hQ : Q.Tracks) (hL : ∀ s a r t, Q.logPredict s a = .ok (r, t) → Q.lp t = Q.lp s)
    (hset : ∀ s x, Q.lp (Q.setLP s x) = x) (ms : List σ) (s0 s : CAverager σ) (h0 : CAverager.init Q ms = .ok s0)
    (xs : List (Obs α)) (r : ℝ) (hr : (CAverager.probSeq Q).toPredictor.run s0 xs = .ok (r, s)) :
    Real.exp r = (ms.map fun m => Q.toPredictor.seqProb (Q.setLP m 0) xs).sum / ms.length := by
  have h1 := CAverager.init_abs hset h0
  have hne : ms ≠ [] := (CAverager.init_ok.mp h0).1
  obtain ⟨s1, h2, _, h3⟩ := C08_Averager_mixture Q.toPredictor (ms.map fun m => Q.setLP m 0) (by simpa using hne) xs
  rw [h1] at h2
  simp only [Except.ok.injEq] at h2
  subst h2
  rcases corrRes_cases ((CAverager.hom hQ hL).run rfl xs (fun _ _ => trivial)) with ⟨e, h4, _⟩ | ⟨r', s', t, h4, h5, _⟩
  · rw [hr] at h4; simp at h4
  · rw [hr] at h4
    simp only [Except.ok.injEq, Prod.mk.injEq] at h4
    obtain ⟨rfl, rfl⟩ := h4
    have := (h3 r t h5).1
    simpa [List.map_map, Function.comp_def] using this

/-- **C49, partial.** A `ctw.Averager` over components that are new, or on whose answers `log_prob` has no influence, is
their uniform mixture.  Missing: trained components that recompute `log_prob` in `update`, where the claim is false
(`C49_ctw_Averager_not_mixture`). -/
theorem C49_ctw_Averager_mixture_partial (hQ : Q.Tracks)
    (hL : ∀ s a r t, Q.logPredict s a = .ok (r, t) → Q.lp t = Q.lp s) (hset : ∀ s x, Q.lp (Q.setLP s x) = x)
    (hget : ∀ s, Q.setLP s (Q.lp s) = s) (ms : List σ) (hm : Q.Detached ∨ ∀ m ∈ ms, Q.lp m = 0)
    (s0 s : CAverager σ) (h0 : CAverager.init Q ms = .ok s0)
    (xs : List (Obs α)) (r : ℝ) (hr : (CAverager.probSeq Q).toPredictor.run s0 xs = .ok (r, s)) :
    Real.exp r = (ms.map fun m => Q.toPredictor.seqProb m xs).sum / ms.length := by
  rw [C49_ctw_Averager_reset Q hQ hL hset ms s0 s h0 xs r hr]
  congr 2
  apply List.map_congr_left
  intro m hmem
  rcases hm with ⟨R, hR, hR2⟩ | hm
  · exact ((hR.run (hR2 m 0) xs (fun _ _ => trivial)).probOf_eq).symm
  · have := hget m
    rw [hm m hmem] at this
    rw [this]

/-- **C49 (prediction).** `log_predict` of a `ctw.Averager` over lawful components agrees with `update` and is
normalised, in every state that predictions and updates can reach. -/
theorem C49_ctw_Averager_predict (hQ : Q.Tracks) (hL : ∀ s a r t, Q.logPredict s a = .ok (r, t) → Q.lp t = Q.lp s)
    (hset : ∀ s x, Q.lp (Q.setLP s x) = x) (I : σ → Prop) (A : List α) (W : ℝ → Prop) (hP : Q.toPredictor.Lawful I A W)
    (ms : List σ) (hm : ∀ m ∈ ms, I (Q.setLP m 0)) (s0 s : CAverager σ) (h0 : CAverager.init Q ms = .ok s0)
    (hr : Reach (CAverager.probSeq Q).toPredictor A W s0 s) (w : ℝ) (hw : W w) :
    (∀ a ∈ A, ∃ r s' t, CAverager.update Q s a w = .ok (r, s') ∧ CAverager.logPredict Q s a = .ok (r, t)) ∧
      (A.map fun a => probOf (CAverager.logPredict Q s a)).sum = 1 := by
  have hH := CAverager.hom hQ hL
  have hlaw := Hom.lawful (W := W) ⟨fun s t a h w hst _ => hH.update s t a h w hst trivial, hH.predict⟩
    (Averager.lawful hP)
  have hs := hlaw.reach (s := s0) ⟨_, rfl, Averager.over_init (by
    intro m hm'
    obtain ⟨m, hmem, rfl⟩ := List.mem_map.mp hm'
    exact hm m hmem) (CAverager.init_abs hset h0)⟩ hr
  refine ⟨?_, hlaw.normalised s [] hs⟩
  intro a ha
  obtain ⟨r, s', h1, _⟩ := hlaw.update_ok s a [] w hs ha hw
  obtain ⟨t, ht⟩ := hlaw.coherent s a [] w hs ha hw r s' h1
  exact ⟨r, s', t, h1, ht⟩

/-- `ctw.KT` meets every hypothesis of the theorems above. -/
theorem C49_ctw_KT_detached [DecidableEq α] :
    (CKT.probSeq (α := α)).Detached ∧ (∀ s x, (CKT.probSeq (α := α)).lp (CKT.probSeq.setLP s x) = x) ∧
      ∀ s, (CKT.probSeq (α := α)).setLP s (CKT.probSeq.lp s) = s := by
  refine ⟨⟨fun s t => s.counts = t.counts, ⟨?_, ?_⟩, fun _ _ => rfl⟩, fun _ _ => rfl, fun _ => rfl⟩
  · intro s t a h w hs _
    rw [id_eq]
    change CorrRes _ (s.update a w) (t.update a w)
    have hp : s.logPredict a = t.logPredict a := by simp only [CKT.logPredict, hs]
    simp only [CKT.update, hp, hs]
    cases t.logPredict a with
    | error e => exact rfl
    | ok r =>
      simp only [ok_bind]
      cases t.counts.getE a with
      | error e => exact rfl
      | ok c => exact ⟨rfl, rfl⟩
  · intro s t a h hs
    rw [id_eq]
    change CorrRes _ (do let r ← s.logPredict a; pure (r, s)) (do let r ← t.logPredict a; pure (r, t))
    have hp : s.logPredict a = t.logPredict a := by simp only [CKT.logPredict, hs]
    rw [hp]
    cases t.logPredict a with
    | error e => exact rfl
    | ok r => exact ⟨rfl, hs⟩

/-- `update` computes the new `log_prob` without reading the old one, and returns the difference. -/
def ProbSeq.Recomputes (Q : ProbSeq σ α) : Prop :=
  ∀ s a w r s', Q.update s a w = .ok (r, s') → Q.update (Q.setLP s 0) a w = .ok (r + Q.lp s, s')

/-- `Averager`, `CTW` and `PTW` do so, over any base model. -/
theorem C49_recomputing_classes [DecidableEq α] (fresh : σ) (d height : ℕ) (zero : α) :
    (CAverager.probSeq Q).Recomputes ∧ (CCTW.probSeq Q fresh d zero).Recomputes ∧
      (CPTW.probSeq Q fresh height).Recomputes := by
  refine ⟨?_, ?_, ?_⟩
  · intro s a w r s' h
    change CAverager.update Q s a w = _ at h
    change CAverager.update Q { s with logProb := 0 } a w = .ok (r + s.logProb, s')
    simp only [CAverager.update, bind_eq_ok, pure_eq_ok, Except.ok.injEq, Prod.mk.injEq] at h ⊢
    obtain ⟨ms, h1, l, h2, rfl, rfl⟩ := h
    exact ⟨ms, h1, l, h2, by ring, rfl⟩
  · intro s a w r s' h
    change s.update Q fresh d zero a w = _ at h
    change CCTW.update Q fresh d zero ⟨.mk s.tree.base 0 s.tree.keys s.tree.children, s.history⟩ a w =
      .ok (r + s.tree.lp, s')
    simp only [CCTW.update, bind_eq_ok, pure_eq_ok, Except.ok.injEq, Prod.mk.injEq] at h ⊢
    obtain ⟨t, h1, rfl, rfl⟩ := h
    refine ⟨t, ?_, by simp [CCTWNode.lp], rfl⟩
    rw [← h1]
    cases d with
    | zero => rfl
    | succ d =>
      cases (CTW.mkcontext (d + 1) zero s.history).reverse with
      | nil => rfl
      | cons c cs => rfl
  · intro s a w r s' h
    change s.update Q fresh height a w = _ at h
    change CPTW.update Q fresh height { s with logProb := 0 } a w = .ok (r + s.logProb, s')
    simp only [CPTW.update, bind_eq_ok] at h ⊢
    obtain ⟨n, h1, h⟩ := h
    refine ⟨n, h1, ?_⟩
    split_ifs at h ⊢
    simp only [bind_eq_ok, pure_eq_ok, Except.ok.injEq, Prod.mk.injEq] at h ⊢
    obtain ⟨l, h2, rfl, rfl⟩ := h
    exact ⟨l, h2, by ring, rfl⟩

/-- **C49 (defect).** `Averager([m])` over such a component reports the component's own probability multiplied by all the
probability that the component has assigned in the past. -/
theorem C49_ctw_Averager_double_counts (hQ : Q.Tracks) (hset : ∀ s x, Q.lp (Q.setLP s x) = x) (hR : Q.Recomputes)
    (m m' : σ) (a : α) (w r : ℝ) (hu : Q.update m a w = .ok (r, m')) :
    ∃ s0 s, CAverager.init Q [m] = .ok s0 ∧ CAverager.update Q s0 a w = .ok (r + Q.lp m, s) := by
  refine ⟨_, ⟨[m'], 0, r + Q.lp m⟩, CAverager.init_ok.mpr ⟨by simp, rfl⟩, ?_⟩
  have h1 := hR m a w r m' hu
  have h2 := hQ _ a w _ _ h1
  simp only [hset] at h2
  simp [CAverager.update, CAverager.updateModels, h1, logsumexp_eq, h2]

/-- **C49 (defect).** So the probabilities it reports sum not to one but to the component's past probability. -/
theorem C49_ctw_Averager_not_normalised (hQ : Q.Tracks) (hset : ∀ s x, Q.lp (Q.setLP s x) = x) (hR : Q.Recomputes)
    (I : σ → Prop) (A : List α) (W : ℝ → Prop) (hP : Q.toPredictor.UpdateLawful I A W) (m : σ) (hm : I m) (w : ℝ)
    (hw : W w) :
    ∃ s0, CAverager.init Q [m] = .ok s0 ∧
      (A.map fun a => probOf (CAverager.update Q s0 a w)).sum = Real.exp (Q.lp m) := by
  refine ⟨_, CAverager.init_ok.mpr ⟨by simp, rfl⟩, ?_⟩
  have : ∀ a ∈ A, probOf (CAverager.update Q ⟨[m].map fun m => Q.setLP m 0, Real.log (1 / (([m].length : ℕ) : ℝ)), 0⟩ a w)
      = probOf (Q.toPredictor.update m a [] w) * Real.exp (Q.lp m) := by
    intro a ha
    obtain ⟨r, m', h1, _⟩ := hP.total m a [] w hm ha hw
    obtain ⟨s0, s, h2, h3⟩ := C49_ctw_Averager_double_counts Q hQ hset hR m m' a w r h1
    obtain ⟨_, rfl⟩ := CAverager.init_ok.mp h2
    rw [h3, h1, probOf_ok, probOf_ok, Real.exp_add]
  rw [List.map_congr_left this, List.sum_map_mul_right, hP.sum_probOf hm hw [], one_mul]

/-- **C49 (witness).** The mixture claim is false: for a `CTW` of depth 0 over `KT` that has seen one symbol,
`Averager([m])` assigns the next symbol half the probability that `m` assigns. -/
theorem C49_ctw_Averager_not_mixture :
    ∃ (m : CCTW (CKT ℕ) ℕ) (s0 s : CAverager (CCTW (CKT ℕ) ℕ)) (r q : ℝ) (m' : CCTW (CKT ℕ) ℕ),
      let Q := CCTW.probSeq (CKT.probSeq (α := ℕ)) ⟨[(0, 1/2), (1, 1/2)], 0⟩ 0 0
      CAverager.init Q [m] = .ok s0 ∧ CAverager.update Q s0 0 1 = .ok (r, s) ∧ Q.update m 0 1 = .ok (q, m') ∧
        Real.exp q = 3/4 ∧ Real.exp r = 3/8 := by
  let Q := CCTW.probSeq (CKT.probSeq (α := ℕ)) ⟨[(0, 1/2), (1, 1/2)], 0⟩ 0 0
  let m : CCTW (CKT ℕ) ℕ := ⟨.mk ⟨[(0, 3/2), (1, 1/2)], Real.log (1/2)⟩ (Real.log (1/2)) [] fun _ => none, [0]⟩
  let m' : CCTW (CKT ℕ) ℕ :=
    ⟨.mk ⟨[(0, 5/2), (1, 1/2)], Real.log (1/2) + (Real.log (3/2) - Real.log 2)⟩
      (Real.log (1/2) + (Real.log (3/2) - Real.log 2)) [] fun _ => none, [0, 0]⟩
  have hu : Q.update m 0 1 = .ok (Real.log (3/2) - Real.log 2, m') := by
    norm_num [Q, m, m', CCTW.probSeq, CCTW.update, CCTWNode.update, CKT.probSeq, CKT.update, CKT.logPredict,
      CCTWNode.base, CCTWNode.lp, CCTWNode.keys, CCTWNode.children, PyDict.getE, PyDict.get?, PyDict.set,
      PyDict.values, pyLog]
  obtain ⟨s0, s, h1, h2⟩ := C49_ctw_Averager_double_counts Q CCTW.tracks (fun _ _ => rfl)
    (C49_recomputing_classes CKT.probSeq _ 0 0 0).2.1 m m' 0 1 _ hu
  refine ⟨m, s0, s, _, _, m', h1, h2, hu, ?_, ?_⟩
  · rw [Real.exp_sub, Real.exp_log (by norm_num), Real.exp_log (by norm_num)]; norm_num
  · have : Q.lp m = Real.log (1/2) := rfl
    rw [this, Real.exp_add, Real.exp_sub, Real.exp_log (by norm_num), Real.exp_log (by norm_num),
      Real.exp_log (by norm_num)]
    norm_num

/-- **C49 (MAP).** `map` returns a component with the largest `log_prob`, the first if there are several. -/
theorem C49_ctw_Averager_map (s : CAverager σ) (hne : s.models ≠ []) :
    ∃ i, ∃ hi : i < s.models.length, CAverager.map Q s = .ok s.models[i] ∧
      (∀ m ∈ s.models, Q.lp m ≤ Q.lp s.models[i]) ∧ ∀ j (hj : j < i), Q.lp (s.models[j]'(by omega)) < Q.lp s.models[i] := by
  obtain ⟨ms, l1, lp⟩ := s
  simp only at hne ⊢
  unfold CAverager.map
  cases ms with
  | nil => exact absurd rfl hne
  | cons x xs =>
    obtain ⟨i, hi, h1, h2, h3⟩ := Averager.maxByKey_spec (x, Q.lp x) (xs.map fun m => (m, Q.lp m))
    have hg : ∀ j (hj : j < ((x, Q.lp x) :: xs.map fun m => (m, Q.lp m)).length),
        ((x, Q.lp x) :: xs.map fun m => (m, Q.lp m))[j] = ((x :: xs)[j]'(by simpa using hj), Q.lp ((x :: xs)[j]'(by simpa using hj))) := by
      intro j hj
      cases j with
      | zero => rfl
      | succ j => simp
    have hi' : i < (x :: xs).length := by simpa using hi
    refine ⟨i, hi', ?_, ?_, ?_⟩
    · simp only [List.map_cons, h1, hg]
    · intro m hm
      have := h2 (m, Q.lp m) (by
        rcases List.mem_cons.mp hm with rfl | hm
        · simp
        · exact List.mem_cons_of_mem _ (List.mem_map.mpr ⟨m, hm, rfl⟩))
      simpa only [hg] using this
    · intro j hj
      have := h3 j hj
      simpa only [hg] using this

end Averager

end Verif
