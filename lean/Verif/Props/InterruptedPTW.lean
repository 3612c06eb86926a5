import Verif.Props.Interrupted
import Verif.Props.PTW

/-!
# C133: interrupted updates of `PTW` and `PTWFixedLength`

The full property fails for both classes: `C133_PTW_more` and `C133_PTWFixedLength_more` are histories after which the probabilities sum to
more than one.
-/

namespace Verif

open Predictor PTWData

variable {σ α : Type}

namespace PTWNode

variable {P : Predictor σ α} {stg : Stages σ α}

theorem head?_cons_of {β : Type} {l : List β} {x : β} (h : l.head? = some x) : ∃ t, l = x :: t := by
  cases l with
  | nil => simp at h
  | cons y t => exact ⟨t, by simpa using h⟩

theorem baseStages_head (hP : P.Ends stg) (d : PTWData σ) (a : α) (h : List α) (w : ℝ) : (baseStages P stg d a h w).head? = some d := by
  obtain ⟨t, ht⟩ := head?_cons_of (hP d.base a h w).1
  simp [baseStages, ht]

theorem leafStages_ends (hP : P.Ends stg) (d : PTWData σ) (a : α) (h : List α) (w : ℝ) :
    (leafStages P stg d a h w).head? = some (.leaf d) ∧
      ∀ n, leafUpdate P d a h w = .ok n → (leafStages P stg d a h w).getLast? = some n := by
  obtain ⟨t, ht⟩ := head?_cons_of (baseStages_head hP d a h w)
  refine ⟨by simp [leafStages, ht], fun n hn => ?_⟩
  cases hb : d.baseStep P a h w with
  | error e => simp [leafUpdate, hb] at hn
  | ok d1 =>
    simp only [leafUpdate, hb, ok_bind, pure_eq_ok, Except.ok.injEq] at hn
    simp [leafStages, hb, hn]

theorem innerStages_ends (hP : P.Ends stg) (d : PTWData σ) (r : PTWNode σ) (rs : List (PTWNode σ)) (r' : Py (PTWNode σ)) (a : α)
    (h : List α) (w : ℝ) : (innerStages P stg d r rs r' a h w).head? = some (.inner d r) ∧
      ∀ d1 r1, d.baseStep P a h w = .ok d1 → r' = .ok r1 → (innerStages P stg d r rs r' a h w).getLast? = some (combine d1 r1) := by
  obtain ⟨t, ht⟩ := head?_cons_of (baseStages_head hP d a h w)
  refine ⟨by simp [innerStages, ht], fun d1 r1 h1 h2 => ?_⟩
  simp [innerStages, h1, h2]

theorem promotedStages_ends (hP : P.Ends stg) (fresh : Py σ) (h0 : ℕ) (n : PTWNode σ) (a : α) (h : List α) (w : ℝ) :
    (promotedStages P stg fresh h0 n a h w).head? = some n ∧
      ∀ n', promoted P fresh h0 n.data a h w = .ok n' → (promotedStages P stg fresh h0 n a h w).getLast? = some n' := by
  refine ⟨by simp [promotedStages], fun n' hn => ?_⟩
  cases fresh with
  | error e => simp [promoted] at hn
  | ok f =>
    simp only [promoted, ok_bind] at hn
    rw [bind_eq_ok] at hn
    obtain ⟨d1, h1, hn⟩ := hn
    rw [bind_eq_ok] at hn
    obtain ⟨r, h2, hn⟩ := hn
    rw [pure_eq_ok, Except.ok.injEq] at hn
    have := (innerStages_ends hP { n.data with leftLP := n.data.lp, height := n.data.height + 1 } (.leaf (PTWData.new f h0))
      (leafStages P stg (PTWData.new f h0) a h w) (leafUpdate P (PTWData.new f h0) a h w) a h w).2 d1 r h1 h2
    simp [promotedStages, List.getLast?_cons, this, hn]

theorem stages_ends (hP : P.Ends stg) (fresh : Py σ) (h0 : ℕ) (a : α) (h : List α) (w : ℝ) (n : PTWNode σ) :
    (stages P stg fresh h0 a h w n).head? = some n ∧
      ∀ n', update P fresh h0 a h w n = .ok n' → (stages P stg fresh h0 a h w n).getLast? = some n' := by
  cases n with
  | leaf d =>
    by_cases hc : d.complete = true
    · rw [stages, update, if_pos hc, if_pos hc]
      exact promotedStages_ends hP fresh h0 (.leaf d) a h w
    · rw [stages, update, if_neg hc, if_neg hc]
      exact leafStages_ends hP d a h w
  | inner d r =>
    by_cases hc : d.complete = true
    · rw [stages, update, if_pos hc, if_pos hc]
      exact promotedStages_ends hP fresh h0 (.inner d r) a h w
    · rw [stages, update, if_neg hc, if_neg hc]
      have := innerStages_ends hP d r (stages P stg fresh h0 a h w r) (update P fresh h0 a h w r) a h w
      refine ⟨this.1, fun n' hn => ?_⟩
      rw [bind_eq_ok] at hn
      obtain ⟨d1, h1, hn⟩ := hn
      rw [bind_eq_ok] at hn
      obtain ⟨r', h2, hn⟩ := hn
      rw [pure_eq_ok, Except.ok.injEq] at hn
      rw [this.2 d1 r' h1 h2, hn]

end PTWNode

/-- **C133 (first and last, PTW).** The first stage of an update is the model before it and the last one the model after it. -/
theorem C133_PTW_ends (P : Predictor σ α) (stg : Stages σ α) (hP : P.Ends stg) (fresh : σ) (h0 height : ℕ) :
    (PTW.predictor P fresh h0).Ends (PTW.stages P stg (.ok fresh) h0) ∧
    (PTWFixedLength.predictor P fresh h0 height).Ends (PTWFixedLength.stages P stg (.ok fresh) h0 height) := by
  refine ⟨fun s a h w => ⟨by simp [PTW.stages], fun r s' hu => ?_⟩, fun s a h w => ?_⟩
  · change PTW.update P (.ok fresh) h0 s a h w = _ at hu
    simp [PTW.stages, hu, List.getLast?_cons]
  · have := PTWNode.stages_ends hP (.ok fresh) h0 a h w s.tree
    obtain ⟨t, ht⟩ := PTWNode.head?_cons_of this.1
    refine ⟨by simp [PTWFixedLength.stages, ht], fun r s' hu => ?_⟩
    change PTWFixedLength.update P (.ok fresh) h0 height s a h w = _ at hu
    rw [PTWFixedLength.update, bind_eq_ok] at hu
    obtain ⟨n, h1, hu⟩ := hu
    rw [pure_eq_ok, Except.ok.injEq, Prod.mk.injEq] at hu
    simp [PTWFixedLength.stages, h1, List.range_succ, hu.2]

theorem PTW.sum_twice {P : Predictor σ α} {I : σ → Prop} {A : List α} {W : ℝ → Prop} (hP : P.UpdateLawful I A W) {fresh : σ} (hf : I fresh)
    {h0 : ℕ} {xs : List (Obs α)} (hx : ∀ o ∈ xs, o.sym ∈ A ∧ W o.weight) {r : ℝ} {s : PTW σ}
    (hr : (PTW.predictor P fresh h0).run (PTW.init fresh h0) xs = .ok (r, s)) (h' : List α) {w' : ℝ} (hw' : W w') :
    (A.map fun b => probOf ((PTW.predictor P fresh h0).update ⟨s.tree, s.logProb, s.adjusted⟩ b h' w')).sum =
      Real.exp (s.adjusted - s.adj) := by
  have hL := PTW.updateLawful (m := h0) hP hf
  obtain ⟨r', s1, h1, h2⟩ := hL.run_ok (s := PTW.init fresh h0) ⟨[], by simp [GoodObs], PTW.inv_init, hf⟩ hx
  rw [hr, Except.ok.injEq, Prod.mk.injEq] at h1
  rw [← h1.2] at h2
  have hadj : (⟨s.tree, s.logProb, s.adjusted⟩ : PTW σ).adjusted = s.adjusted + (s.adjusted - s.adj) := by
    unfold PTW.adjusted
    split_ifs <;> simp
  have key : ∀ b ∈ A, probOf ((PTW.predictor P fresh h0).update ⟨s.tree, s.logProb, s.adjusted⟩ b h' w') =
      probOf ((PTW.predictor P fresh h0).update s b h' w') * Real.exp (s.adjusted - s.adj) := by
    intro b hb
    obtain ⟨r, s', hu, -⟩ := hL.total s b h' w' h2 hb hw'
    rw [hu]
    change PTW.update P (.ok fresh) h0 s b h' w' = _ at hu
    rw [PTW.update, bind_eq_ok] at hu
    obtain ⟨n, hn, hu⟩ := hu
    rw [pure_eq_ok, Except.ok.injEq, Prod.mk.injEq] at hu
    have : (PTW.predictor P fresh h0).update ⟨s.tree, s.logProb, s.adjusted⟩ b h' w' =
        .ok (r + (s.adjusted - s.adj), ⟨n, n.data.lp + (s.adjusted + (s.adjusted - s.adj)), s.adjusted + (s.adjusted - s.adj)⟩) := by
      change PTW.update P (.ok fresh) h0 _ b h' w' = _
      rw [PTW.update]
      simp only [hn, ok_bind, hadj, pure_eq_ok, Except.ok.injEq, Prod.mk.injEq, and_true]
      rw [← hu.1]
      ring
    rw [this, probOf_ok, probOf_ok, Real.exp_add]
  rw [List.map_congr_left key, List.sum_map_mul_right, hL.sum_probOf h2 hw' h', one_mul]

/-- **C133 (PTW, the size of the error).** If an update of `PTW` is interrupted after the adjustment for the growth of the tree is recorded,
the next update records it once more, and the probabilities sum to the exponential of the adjustment instead of one. -/
theorem C133_PTW_twice (P : Predictor σ α) (stg : Stages σ α) (hE : P.Ends stg) (I : σ → Prop) (A : List α) (W : ℝ → Prop)
    (hP : P.UpdateLawful I A W) (fresh : σ) (hf : I fresh) (h0 : ℕ) (xs : List (Obs α)) (hx : ∀ o ∈ xs, o.sym ∈ A ∧ W o.weight) (a : α)
    (h h' : List α) (w w' : ℝ) (hw' : W w') : ∃ r s, (PTW.predictor P fresh h0).run (PTW.init fresh h0) xs = .ok (r, s) ∧
      ∃ t ∈ PTW.stages P stg (.ok fresh) h0 s a h w, t.tree = s.tree ∧ t.logProb = s.logProb ∧
        (A.map fun b => probOf ((PTW.predictor P fresh h0).update t b h' w')).sum = Real.exp (t.adj - s.adj) := by
  have hL := PTW.updateLawful (m := h0) hP hf
  obtain ⟨r, s, h1, -⟩ := hL.run_ok (s := PTW.init fresh h0) ⟨[], by simp [GoodObs], PTW.inv_init, hf⟩ hx
  refine ⟨r, s, h1, ⟨s.tree, s.logProb, s.adjusted⟩, ?_, rfl, rfl, PTW.sum_twice hP hf hx h1 h' hw'⟩
  obtain ⟨t, ht⟩ := PTWNode.head?_cons_of (PTWNode.stages_ends hE (.ok fresh) h0 a h w s.tree).1
  simp [PTW.stages, ht]

namespace PTW

theorem ktb_logPredict {s : KTBinary} {b : Bool} (h1 : 0 < s.get b) (h2 : 0 < s.c0 + s.c1) :
    s.logPredict b = .ok (Real.log (s.get b / (s.c0 + s.c1))) := by
  rw [KTBinary.logPredict, pyDiv_of_ne h2.ne', ok_bind, pyLog_of_pos (div_pos h1 h2)]

theorem ktb_first (b : Bool) : (KTBinary.init none).logPredict b = .ok (Real.log (1 / 2)) := by
  cases b <;> rw [ktb_logPredict (by norm_num [KTBinary.init, KTBinary.get]) (by norm_num [KTBinary.init])] <;>
    norm_num [KTBinary.init, KTBinary.get]

theorem ktb_second (b : Bool) : ((KTBinary.init none).bump false 1).logPredict b = .ok (Real.log (if b then 1 / 4 else 3 / 4)) := by
  cases b <;> rw [ktb_logPredict (by norm_num [KTBinary.init, KTBinary.get, KTBinary.bump]) (by norm_num [KTBinary.init, KTBinary.bump])] <;>
    norm_num [KTBinary.init, KTBinary.get, KTBinary.bump]

/-- The tree after 0. -/
noncomputable def tree1 : PTWNode KTBinary :=
  .leaf ⟨(KTBinary.init none).bump false 1, 0, 1, 0 + Real.log (1 / 2), 0, 0 + Real.log (1 / 2)⟩

theorem tree_first (b : Bool) : PTWNode.leafUpdate KTBinary.predictor (PTWData.new (KTBinary.init none) 0) b [] 1 =
    .ok (.leaf ⟨(KTBinary.init none).bump b 1, 0, 1, 0 + Real.log (1 / 2), 0, 0 + Real.log (1 / 2)⟩) := by
  simp [PTWNode.leafUpdate, PTWData.baseStep, PTWData.new, KTBinary.predictor, KTBinary.update, ktb_first]

theorem tree_one : PTWNode.update KTBinary.predictor (.ok (KTBinary.init none)) 0 false [] 1 (.leaf (PTWData.new (KTBinary.init none) 0)) =
    .ok tree1 := by
  rw [PTWNode.update, if_neg (by simp [PTWData.new, PTWData.complete]), tree_first]
  rfl

theorem tree_two (b : Bool) : ∃ n, PTWNode.update KTBinary.predictor (.ok (KTBinary.init none)) 0 b [] 1 tree1 = .ok n ∧
    n.data.count = 2 ∧ n.data.height = 1 ∧ Real.exp n.data.baseLP = 1 / 2 * (if b then 1 / 4 else 3 / 4) ∧
    Real.exp n.data.lp = (1 / 2 * (if b then 1 / 4 else 3 / 4) + 1 / 4) / 2 := by
  have e : (0 : ℝ) < if b then 1 / 4 else 3 / 4 := by split_ifs <;> norm_num
  refine ⟨PTWNode.combine ⟨((KTBinary.init none).bump false 1).bump b 1, 1, 1, 0 + Real.log (1 / 2) + Real.log (if b then 1 / 4 else 3 / 4),
    0 + Real.log (1 / 2), 0 + Real.log (1 / 2)⟩
    (.leaf ⟨(KTBinary.init none).bump b 1, 0, 1, 0 + Real.log (1 / 2), 0, 0 + Real.log (1 / 2)⟩), ?_, rfl, rfl, ?_, ?_⟩
  · rw [tree1, PTWNode.update, if_pos (by simp [PTWData.complete]), PTWNode.promoted]
    have hb : PTWData.baseStep KTBinary.predictor (⟨(KTBinary.init none).bump false 1, 0 + 1, 1, 0 + Real.log (1 / 2), 0 + Real.log (1 / 2),
        0 + Real.log (1 / 2)⟩ : PTWData KTBinary) b [] 1 = .ok ⟨((KTBinary.init none).bump false 1).bump b 1, 1, 1,
          0 + Real.log (1 / 2) + Real.log (if b then 1 / 4 else 3 / 4), 0 + Real.log (1 / 2), 0 + Real.log (1 / 2)⟩ := by
      simp only [PTWData.baseStep, KTBinary.predictor, KTBinary.update, ktb_second, ok_bind, pure_eq_ok]
    simp only [ok_bind, tree_first, hb, pure_eq_ok]
  · simp only [PTWNode.combine, PTWNode.data]
    rw [Real.exp_add, zero_add, Real.exp_log (by norm_num), Real.exp_log e]
  · simp only [PTWNode.combine, PTWNode.data, Nat.sub_zero, Nat.sub_self, PTWData.correct, zero_add]
    rw [CTWNode.exp_lse, Real.exp_add, Real.exp_add, Real.exp_log (by norm_num), Real.exp_log e]
    ring

end PTW

/-- The hypotheses of the two theorems above are met by `KTBinary` and its stages, after 0 and 1. -/
example : ∃ r s, (PTW.predictor KTBinary.predictor (KTBinary.init none) 0).run (PTW.init (KTBinary.init none) 0)
      [⟨false, [], 1⟩, ⟨true, [], 1⟩] = .ok (r, s) ∧
    ∃ t ∈ PTW.stages KTBinary.predictor KTBinary.stages (.ok (KTBinary.init none)) 0 s false [] 1, t.tree = s.tree ∧ t.logProb = s.logProb ∧
      ([false, true].map fun b => probOf ((PTW.predictor KTBinary.predictor (KTBinary.init none) 0).update t b [] 1)).sum = Real.exp (t.adj - s.adj) :=
  C133_PTW_twice KTBinary.predictor KTBinary.stages (C133_ends (σ := KTBinary) (α := Bool) (κ := Bool)).2.1 _ _ _ KTBinary.lawful.updateLawful _ (by norm_num [KTBinary.init]) 0 _ (by simp)
    false [] [] 1 1 zero_le_one

/-- **C133 (the code violates it: PTW).** `PTW` over `KTBinary` that has seen 0 and 1 and is interrupted in its third update assigns
probabilities with the sum 6/5. -/
theorem C133_PTW_more : ∃ r s, (PTW.predictor KTBinary.predictor (KTBinary.init none) 0).run (PTW.init (KTBinary.init none) 0)
      [⟨false, [], 1⟩, ⟨true, [], 1⟩] = .ok (r, s) ∧
    ∃ t ∈ PTW.stages KTBinary.predictor KTBinary.stages (.ok (KTBinary.init none)) 0 s false [] 1,
      ([false, true].map fun b => probOf ((PTW.predictor KTBinary.predictor (KTBinary.init none) 0).update t b [] 1)).sum = 6 / 5 := by
  obtain ⟨n, hn, hc, hh, hb, hl⟩ := PTW.tree_two true
  have hrun : ∃ r s, (PTW.predictor KTBinary.predictor (KTBinary.init none) 0).run (PTW.init (KTBinary.init none) 0)
      [⟨false, [], 1⟩, ⟨true, [], 1⟩] = .ok (r, s) ∧ s.tree = n := by
    simp only [Predictor.run, PTW.predictor, PTW.update, PTW.init, PTW.tree_one, hn, ok_bind, pure_eq_ok]
    exact ⟨_, _, rfl, rfl⟩
  obtain ⟨r, s, hr, rfl⟩ := hrun
  refine ⟨r, s, hr, ⟨s.tree, s.logProb, s.adjusted⟩, ?_, ?_⟩
  · obtain ⟨t, ht⟩ := PTWNode.head?_cons_of (PTWNode.stages_ends (C133_ends (σ := Unit) (κ := Unit) (α := Bool)).2.1
      (.ok (KTBinary.init none)) 0 false [] 1 s.tree).1
    simp [PTW.stages, ht]
  · rw [PTW.sum_twice KTBinary.lawful.updateLawful (by norm_num [KTBinary.init]) (by simp) hr [] (by norm_num : (0 : ℝ) ≤ 1),
      PTW.adjusted, if_pos (by rw [PTWData.complete, hc, hh]; decide), add_sub_cancel_left, Real.exp_sub, CTWNode.exp_lse, hb, hl]
    norm_num

/-- **C133 (the code violates it: PTWFixedLength).** `PTWFixedLength` for four symbols over `KTBinary` that has seen 0 and is interrupted in
the update with another 0, between the assignments to `log_prob`, assigns probabilities with the sum 11/10. -/
theorem C133_PTWFixedLength_more : ∃ r s, (PTWFixedLength.predictor KTBinary.predictor (KTBinary.init none) 0 2).run
      (PTW.init (KTBinary.init none) 0) [⟨false, [], 1⟩] = .ok (r, s) ∧
    ∃ t ∈ PTWFixedLength.stages KTBinary.predictor KTBinary.stages (.ok (KTBinary.init none)) 0 2 s false [] 1,
      ([false, true].map fun b => probOf ((PTWFixedLength.predictor KTBinary.predictor (KTBinary.init none) 0 2).update t b [] 1)).sum
        = 11 / 10 := by
  obtain ⟨n, hn, hc, hh, hb, hl⟩ := PTW.tree_two false
  have hrun : ∃ r s, (PTWFixedLength.predictor KTBinary.predictor (KTBinary.init none) 0 2).run (PTW.init (KTBinary.init none) 0)
      [⟨false, [], 1⟩] = .ok (r, s) ∧ s.tree = PTW.tree1 := by
    simp only [Predictor.run, PTWFixedLength.predictor, PTWFixedLength.update, PTW.init, PTW.tree_one, ok_bind, pure_eq_ok]
    exact ⟨_, _, rfl, rfl⟩
  obtain ⟨r, s, hr, hs⟩ := hrun
  refine ⟨r, s, hr, ⟨n, n.data.lp, s.adj⟩, ?_, ?_⟩
  · simp only [PTWFixedLength.stages, hs, hn, List.mem_append, List.mem_map, List.mem_range]
    exact .inr ⟨0, by omega, rfl⟩
  · obtain ⟨r2, s2, hr2, hsum⟩ := C24_PTWFixedLength_normalised KTBinary.predictor (KTBinary.init none) _ _ _ KTBinary.lawful.updateLawful
      (by norm_num [KTBinary.init]) 0 2 [⟨false, [], 1⟩, ⟨false, [], 1⟩] (by simp) (by simp) [] 1 (by norm_num : (0 : ℝ) ≤ 1)
    have e2 : s2 = ⟨n, PTWData.correct n.data.baseLP 1 n.data.lp, s.adj⟩ := by
      have h1 : (PTWFixedLength.predictor KTBinary.predictor (KTBinary.init none) 0 2).run (PTW.init (KTBinary.init none) 0)
          ([⟨false, [], 1⟩] ++ [⟨false, [], 1⟩]) = .ok (r2, s2) := hr2
      rw [run_append_ok] at h1
      obtain ⟨r1, s1, r3, g1, g2, -⟩ := h1
      rw [hr, Except.ok.injEq, Prod.mk.injEq] at g1
      rw [← g1.2] at g2
      simp only [Predictor.run, PTWFixedLength.predictor, PTWFixedLength.update, hs, hn, ok_bind, pure_eq_ok, Except.ok.injEq,
        Prod.mk.injEq, hh] at g2
      exact g2.2.symm
    have key : ∀ b ∈ [false, true], probOf ((PTWFixedLength.predictor KTBinary.predictor (KTBinary.init none) 0 2).update
        ⟨n, n.data.lp, s.adj⟩ b [] 1) = probOf ((PTWFixedLength.predictor KTBinary.predictor (KTBinary.init none) 0 2).update s2 b [] 1) *
          (11 / 10) := by
      intro b _
      have hx : Real.exp (PTWData.correct n.data.baseLP 1 n.data.lp) = 11 / 10 * Real.exp n.data.lp := by
        simp only [PTWData.correct]
        rw [CTWNode.exp_lse, hb, hl]
        norm_num
      rw [e2]
      cases hu : n.update KTBinary.predictor (.ok (KTBinary.init none)) 0 b [] 1 with
      | error e => simp [PTWFixedLength.predictor, PTWFixedLength.update, hu, probOf]
      | ok n' =>
        simp only [PTWFixedLength.predictor, PTWFixedLength.update, hu, ok_bind, pure_eq_ok, probOf_ok]
        rw [Real.exp_sub, Real.exp_sub, hx]
        have := Real.exp_pos n.data.lp
        field_simp
    rw [List.map_congr_left key, List.sum_map_mul_right, hsum, one_mul]

end Verif
