import Verif.Proofs.Interrupted

/-!
# C133: interrupted updates

The full property: an update that is interrupted leaves the model as it was before the update or as it is after it.  This holds for
`KTBinary` (`C133_KTBinary_atomic`).  It fails for `KT` (`C133_KT_for_ever`), `SAD` (`C133_SAD_symbol_lost`), `Averager` and `CTW`
(`C133_CTW_less`); for the last two the sum of the probabilities stays at most one and becomes one again
(`C133_at_most_one_partial`, `C133_Averager_recovers_partial`, `C133_CTW_recovers_partial`).
-/

namespace Verif

open Predictor

variable {σ κ α : Type} [DecidableEq κ] [DecidableEq α]

namespace CTWNode

theorem stages_ends {P : Predictor σ α} {stg : Stages σ α} (hP : P.Ends stg) (fresh : σ) (a : α) (h : List α) (w : ℝ) (cs : List κ)
    (n : CTWNode σ κ) : (stages P stg fresh a h w cs n).head? = some n ∧
      ∀ r n', update P fresh a h w cs n = .ok (r, n') → (stages P stg fresh a h w cs n).getLast? = some n' := by
  obtain ⟨b, x, y, z, ch⟩ := n
  have h0 := (hP b a h w).1
  cases hs : stg b a h w with
  | nil => simp [hs] at h0
  | cons b' l =>
    rw [hs] at h0
    simp only [List.head?_cons, Option.some.injEq] at h0
    subst h0
    cases cs with
    | nil =>
      refine ⟨by simp [stages, base, hs, baseLP, childrenLP, lp, children], fun r n' hu => ?_⟩
      cases hb : P.update b' a h w with
      | error e => simp [update, base, hb] at hu
      | ok v =>
        obtain ⟨r1, b1⟩ := v
        simp only [update, base, hb, ok_bind, pure_eq_ok, Except.ok.injEq, Prod.mk.injEq] at hu
        rw [← hu.2]
        simp [stages, base, hb, baseLP, childrenLP, children]
    | cons c cs =>
      refine ⟨by simp [stages, base, hs, baseLP, childrenLP, lp, children], fun r n' hu => ?_⟩
      cases hb : P.update b' a h w with
      | error e => simp [update, base, hb] at hu
      | ok v =>
        obtain ⟨r1, b1⟩ := v
        cases hk : update P fresh a h w cs ((ch c).getD (new fresh)) with
        | error e => simp [update, base, hb, children, hk] at hu
        | ok v2 =>
          obtain ⟨rc, k⟩ := v2
          simp only [update, base, hb, children, hk, ok_bind, pure_eq_ok, Except.ok.injEq, Prod.mk.injEq] at hu
          rw [← hu.2]
          simp [stages, base, hb, hk, baseLP, childrenLP, children, List.getLast?_append, List.getLast?_cons]

end CTWNode

/-- **C133 (first and last).** For every class the first stage of an update is the model before it and the last one the model after
it. -/
theorem C133_ends :
    (KT.predictor (α := α)).Ends KT.stages ∧ KTBinary.predictor.Ends KTBinary.stages ∧ (SAD.predictor (α := α)).Ends SAD.stages ∧
    ∀ (P : Predictor σ α) (stg : Stages σ α), P.Ends stg → (Averager.predictor P).Ends (Averager.stages P stg) ∧
      ∀ (fresh : σ) (ctx : List α → List κ), (CTW.predictor P fresh ctx).Ends (CTW.stages P stg fresh ctx) := by
  refine ⟨fun s a h w => ?_, fun s a h w => ?_, fun s a h w => ?_, fun P stg hP => ⟨fun s a h w => ⟨?_, ?_⟩, fun fresh ctx n a h w => ?_⟩⟩
  · unfold KT.stages
    cases h1 : s.logPredict a with
    | error e => simp [KT.predictor, KT.update, h1]
    | ok v => cases h2 : s.counts.getE a <;> simp [KT.predictor, KT.update, h1, h2]
  · unfold KTBinary.stages
    cases h1 : s.logPredict a <;> simp [KTBinary.predictor, KTBinary.update, h1]
  · unfold SAD.stages
    cases h1 : s.logPredict a with
    | error e => simp [SAD.predictor, SAD.update, h1]
    | ok v =>
      cases h3 : s.counts.get? a with
      | none => cases h2 : (s.counts.set a 0).getE a <;> simp [SAD.predictor, SAD.update, h1, h2, h3]
      | some c => cases h2 : s.counts.getE a <;> simp [SAD.predictor, SAD.update, h1, h2, h3]
  · have key : ∀ l : List (σ × ℝ), (Averager.modelsStages P stg a h w l).head? = some l := by
      intro l
      cases l with
      | nil => rfl
      | cons p l =>
        obtain ⟨m, lp⟩ := p
        have := (hP m a h w).1
        cases hs : stg m a h w with
        | nil => simp [hs] at this
        | cons m' l' =>
          rw [hs] at this
          simp only [List.head?_cons, Option.some.injEq] at this
          simp [Averager.modelsStages, hs, this]
    have h1 := key s.models
    unfold Averager.stages
    cases hm : Averager.modelsStages P stg a h w s.models with
    | nil => simp [hm] at h1
    | cons l ls =>
      rw [hm] at h1
      simp only [List.head?_cons, Option.some.injEq] at h1
      simp [h1]
  · intro r s' hu
    change Averager.update P s a h w = _ at hu
    simp [Averager.stages, hu]
  · exact CTWNode.stages_ends hP fresh a h w _ n

/-- **C133 (KTBinary).** An interrupted update of `KTBinary` leaves it as before or as after the update. -/
theorem C133_KTBinary_atomic (s t : KTBinary) (b : Bool) (h : List Bool) (w : ℝ) (ht : t ∈ KTBinary.stages s b h w) :
    t = s ∨ ∃ r, KTBinary.predictor.update s b h w = .ok (r, t) := by
  unfold KTBinary.stages at ht
  cases h1 : s.logPredict b with
  | error e => exact .inl (by simpa [h1] using ht)
  | ok v =>
    simp only [h1, List.mem_cons, List.not_mem_nil, or_false] at ht
    rcases ht with rfl | rfl
    · exact .inl rfl
    · exact .inr ⟨v, by simp [KTBinary.predictor, KTBinary.update, h1]⟩

/-- **C133 (composition).** If for a model the probabilities sum to at most one whatever was interrupted, then so they do for
mixtures and context trees of such models; `KTBinary` is one. -/
theorem C133_compose (P : Predictor σ α) (stg : Stages σ α) (I : σ → Prop) (A : List α) (W : ℝ → Prop) (hP : P.Bounded stg I A W) :
    (∃ J, (Averager.predictor P).Bounded (Averager.stages P stg) J A W ∧
      ∀ ms s, (∀ m ∈ ms, I m) → Averager.init ms = .ok s → J s) ∧
    ∀ fresh, I fresh → ∀ (d : ℕ) (ctx : List α → List κ), (∀ h, (ctx h).length = d) →
      ∃ J, (CTW.predictor P fresh ctx).Bounded (CTW.stages P stg fresh ctx) J A W ∧ J (CTW.init fresh) := by
  refine ⟨⟨_, Averager.bounded hP, fun ms s hm hs => ?_⟩, fun fresh hf d ctx hctx =>
    ⟨_, CTWNode.bounded hP hf hctx, CTWNode.heavy_new hf d⟩⟩
  have ho := Averager.over_init hm hs
  exact ⟨ho.inv.ne, ho.all, ho.inv.sum.ge⟩

/-- **C133 (at most one, partial).** After any number of updates, complete or interrupted at any point, the probabilities that the next
update of a mixture of `KTBinary` models or of a context tree with default arguments and depth at least one reports sum to at most
one.  Missing: that they sum to one (`C133_CTW_less`). -/
theorem C133_at_most_one_partial :
    (∀ (n : ℕ) (s t : Averager KTBinary) (h : List Bool) (w : ℝ), 0 ≤ w →
      Averager.init (List.replicate n (KTBinary.init none)) = .ok s →
      Session (Averager.predictor KTBinary.predictor) (Averager.stages KTBinary.predictor KTBinary.stages) [false, true] (0 ≤ ·) s t →
      ([false, true].map fun b => probOf ((Averager.predictor KTBinary.predictor).update t b h w)).sum ≤ 1) ∧
    (∀ (d : ℕ) (t : CTWNode KTBinary Bool) (h : List Bool) (w : ℝ), 1 ≤ d → 0 ≤ w →
      let P := CTW.predictor KTBinary.predictor (KTBinary.init none) (CTW.mkcontext d false)
      Session P (CTW.stages KTBinary.predictor KTBinary.stages (KTBinary.init none) (CTW.mkcontext d false)) [false, true] (0 ≤ ·)
        (CTW.init (KTBinary.init none)) t →
      ([false, true].map fun b => probOf (P.update t b h w)).sum ≤ 1) := by
  have hk0 : 0 < (KTBinary.init none).c0 ∧ 0 < (KTBinary.init none).c1 := by norm_num [KTBinary.init]
  have hc := C133_compose (κ := Bool) _ _ _ _ _ KTBinary.bounded
  constructor
  · intro n s t h w hw hs hS
    obtain ⟨J, hJ, h0⟩ := hc.1
    exact hJ.le_one t h w (hJ.session (h0 _ _ (fun m hm => by rw [List.eq_of_mem_replicate hm]; exact hk0) hs) hS) hw
  · intro d t h w hd hw P hS
    have hl : ∀ h, (CTW.mkcontext d false h).length = d := by
      intro h
      rw [CTW.mkcontext, pyTail, if_neg (by omega), List.length_append, List.length_replicate, List.length_drop]
      omega
    obtain ⟨J, hJ, h0⟩ := hc.2 _ hk0 d (CTW.mkcontext d false) hl
    exact hJ.le_one t h w (hJ.session h0 hS) hw

/-- **C133 (mixtures recover, partial).** After an interrupted session, one complete update of a mixture makes the probabilities of the next
one sum to one again. -/
theorem C133_Averager_recovers_partial (P : Predictor σ α) (stg : Stages σ α) (I : σ → Prop) (A : List α) (W : ℝ → Prop)
    (hP : P.Bounded stg I A W) (hL : P.UpdateLawful I A W) (ms : List σ) (hm : ∀ m ∈ ms, I m) (s t t' : Averager σ)
    (hs : Averager.init ms = .ok s) (hS : Session (Averager.predictor P) (Averager.stages P stg) A W s t) (a : α) (ha : a ∈ A)
    (h h' : List α) (w w' : ℝ) (hw : W w) (hw' : W w') (r : ℝ) (hu : (Averager.predictor P).update t a h w = .ok (r, t')) :
    (A.map fun b => probOf ((Averager.predictor P).update t' b h' w')).sum = 1 := by
  have ho := Averager.over_init hm hs
  have hb := Averager.bounded hP
  have ht := hb.session ⟨ho.inv.ne, ho.all, ho.inv.sum.ge⟩ hS
  have ht' : Averager.Below I t' := by
    obtain ⟨r2, t2, h1, h2⟩ := hb.total t a h w ht ha hw
    rw [hu, Except.ok.injEq, Prod.mk.injEq] at h1
    exact h1.2 ▸ h2
  have hi : Averager.Over I t' := ⟨⟨ht'.ne, (Averager.update_value ht.ne hu).2.1⟩, ht'.all⟩
  exact (Averager.updateLawful hL).sum_probOf hi hw' h'

/-- **C133 (context trees recover, partial).** After an interrupted session and one complete update of a context tree, the probabilities
of the next update with the same context sum to one again. -/
theorem C133_CTW_recovers_partial (P : Predictor σ α) (stg : Stages σ α) (I : σ → Prop) (A : List α) (W : ℝ → Prop)
    (hP : P.Bounded stg I A W) (hL : P.UpdateLawful I A W) (fresh : σ) (hf : I fresh) (d : ℕ) (ctx : List α → List κ)
    (hctx : ∀ h, (ctx h).length = d) (t t' : CTWNode σ κ)
    (hS : Session (CTW.predictor P fresh ctx) (CTW.stages P stg fresh ctx) A W (CTW.init fresh) t) (a : α) (ha : a ∈ A)
    (h h' : List α) (he : ctx h' = ctx h) (w w' : ℝ) (hw : W w) (hw' : W w') (r : ℝ)
    (hu : (CTW.predictor P fresh ctx).update t a h w = .ok (r, t')) :
    (A.map fun b => probOf ((CTW.predictor P fresh ctx).update t' b h' w')).sum = 1 := by
  have ht := (CTWNode.bounded hP hf hctx).session (CTWNode.heavy_new hf d) hS
  have hl : (ctx h).reverse.length = d := by rw [List.length_reverse, hctx]
  have := CTWNode.sum_after hP hL hf ha hw hw' (ctx h).reverse t t' (hl ▸ ht) hu (h' := h')
  simp only [CTW.predictor, he]
  exact this

/-- **C133 (the code violates it: context trees).** An interruption of the first update of a context tree of depth one, after the base
model of the root has been updated, leaves a tree whose probabilities sum to 3/4. -/
theorem C133_CTW_less : ∃ t ∈ CTW.stages KTBinary.predictor KTBinary.stages (KTBinary.init none) (CTW.mkcontext 1 false)
      (CTW.init (KTBinary.init none)) false [] 1,
    ([false, true].map fun b => probOf ((CTW.predictor KTBinary.predictor (KTBinary.init none) (CTW.mkcontext 1 false)).update
      t b [] 1)).sum = 3 / 4 := by
  have hlp : ∀ (s : KTBinary) (b : Bool), 0 < s.get b → 0 < s.c0 + s.c1 → s.logPredict b = .ok (Real.log (s.get b / (s.c0 + s.c1))) := by
    intro s b h1 h2
    rw [KTBinary.logPredict, pyDiv_of_ne h2.ne', ok_bind, pyLog_of_pos (div_pos h1 h2)]
  let s0 := KTBinary.init none
  have e0 : s0.logPredict false = .ok (Real.log (1 / 2)) := by
    rw [hlp _ _ (by norm_num [s0, KTBinary.init, KTBinary.get]) (by norm_num [s0, KTBinary.init])]
    norm_num [s0, KTBinary.init, KTBinary.get]
  have e1 : s0.logPredict true = .ok (Real.log (1 / 2)) := by
    rw [hlp _ _ (by norm_num [s0, KTBinary.init, KTBinary.get]) (by norm_num [s0, KTBinary.init])]
    norm_num [s0, KTBinary.init, KTBinary.get]
  let s1 := s0.bump false 1
  have f0 : s1.logPredict false = .ok (Real.log (3 / 4)) := by
    rw [hlp _ _ (by norm_num [s1, s0, KTBinary.init, KTBinary.get, KTBinary.bump]) (by norm_num [s1, s0, KTBinary.init, KTBinary.bump])]
    norm_num [s1, s0, KTBinary.init, KTBinary.get, KTBinary.bump]
  have f1 : s1.logPredict true = .ok (Real.log (1 / 4)) := by
    rw [hlp _ _ (by norm_num [s1, s0, KTBinary.init, KTBinary.get, KTBinary.bump]) (by norm_num [s1, s0, KTBinary.init, KTBinary.bump])]
    norm_num [s1, s0, KTBinary.init, KTBinary.get, KTBinary.bump]
  refine ⟨.mk s1 (0 + Real.log (1 / 2)) 0 0 (fun _ => none), ?_, ?_⟩
  · simp [CTW.stages, CTW.init, CTW.mkcontext, pyTail, CTWNode.stages, CTWNode.new, CTWNode.base, CTWNode.baseLP, CTWNode.childrenLP,
      CTWNode.lp, CTWNode.children, KTBinary.predictor, KTBinary.update, e0, s0, s1]
  · have key : ∀ (b : Bool) (p : ℝ), 0 < p → s1.logPredict b = .ok (Real.log p) → s0.logPredict b = .ok (Real.log (1 / 2)) →
        probOf ((CTW.predictor KTBinary.predictor (KTBinary.init none) (CTW.mkcontext 1 false)).update
          (.mk s1 (0 + Real.log (1 / 2)) 0 0 (fun _ => none)) b [] 1) = (p / 2 + 1 / 2) / 2 := by
      intro b p hp h1 h2
      have : ∃ t, (CTW.predictor KTBinary.predictor (KTBinary.init none) (CTW.mkcontext 1 false)).update
          (.mk s1 (0 + Real.log (1 / 2)) 0 0 (fun _ => none)) b [] 1 = .ok
          (log05 + logsumexp2 (0 + Real.log (1 / 2) + Real.log p) (0 + (0 + Real.log (1 / 2) - 0)) - 0, t) := by
        have h2' : (KTBinary.init none).logPredict b = .ok (Real.log (1 / 2)) := h2
        have hc : (CTW.mkcontext 1 false []).reverse = [false] := rfl
        simp only [CTW.predictor, hc, CTWNode.update, CTWNode.new, CTWNode.base, CTWNode.baseLP, CTWNode.childrenLP,
          CTWNode.lp, CTWNode.children, KTBinary.predictor, KTBinary.update, h1, h2', ok_bind, pure_eq_ok, Option.getD_none,
          Except.ok.injEq, Prod.mk.injEq]
        exact ⟨_, trivial, rfl⟩
      obtain ⟨t, ht⟩ := this
      rw [ht]
      change Real.exp _ = _
      rw [sub_zero, CTWNode.exp_lse]
      simp only [zero_add, sub_zero]
      rw [Real.exp_add, Real.exp_log hp, Real.exp_log (by norm_num)]
      ring
    simp only [List.map_cons, List.map_nil, List.sum_cons, List.sum_nil, key _ _ (by norm_num) f0 e0, key _ _ (by norm_num) f1 e1]
    norm_num

/-- **C133 (the code violates it: KT).** If an update of `KT` with weight `w` is interrupted between its two assignments, then for ever
after the probabilities sum to `1 + w / (1 + T)`, where `T` is the total weight of the complete updates, those before the interruption
and those after it. -/
theorem C133_KT_for_ever (A : List α) (hA : A.Nodup) (s0 s : KT α) (h0 : KT.init A none = .ok s0) (ys : List (Obs α))
    (hy : ∀ o ∈ ys, o.sym ∈ A ∧ 0 ≤ o.weight) (r0 : ℝ) (hr0 : KT.predictor.run s0 ys = .ok (r0, s)) (a : α) (ha : a ∈ A) (h : List α)
    (w : ℝ) (hw : 0 < w) : ∃ t ∈ KT.stages s a h w, ∀ xs : List (Obs α), (∀ o ∈ xs, o.sym ∈ A ∧ 0 ≤ o.weight) →
      ∃ r t', KT.predictor.run t xs = .ok (r, t') ∧ ∀ h', (A.map fun b => probOf (KT.predictor.logPredict t' b h')).sum =
        1 + w / (1 + totalWeight ys + totalWeight xs) ∧
        1 < (A.map fun b => probOf (KT.predictor.logPredict t' b h')).sum := by
  have hne := List.ne_nil_of_mem ha
  have hl : (0 : ℝ) < A.length := by exact_mod_cast List.length_pos_iff.mpr hne
  rw [KT.init_default hA hne, Except.ok.injEq] at h0
  have hg0 : KT.Good A s0 := by
    have := KT.good_of_map (A := A) (fun _ => 1 / (A.length : ℝ)) (fun _ _ => by positivity)
    have e : (A.map fun _ => 1 / (A.length : ℝ)).sum = 1 := by
      rw [List.map_const', List.sum_replicate, nsmul_eq_mul]
      field_simp
    rw [e] at this
    exact h0 ▸ this
  have hs0 : s0.sumCounts = 1 := by rw [← h0]
  obtain ⟨hs, hsum, -⟩ := KT.run_counts hg0 hy hr0
  rw [hs0] at hsum
  obtain ⟨c, hc, hc0⟩ := hs.get ha
  have hS := hs.sum_pos (List.ne_nil_of_mem ha)
  have hst : KT.stages s a h w = [s, { counts := s.counts.set a (c + w), sumCounts := s.sumCounts },
      { counts := s.counts.set a (c + w), sumCounts := s.sumCounts + w }] := by
    simp only [KT.stages, hs.logPredict ha hc, PyDict.getE_ok.mpr hc]
  have hoff : KT.Off A w { counts := s.counts.set a (c + w), sumCounts := s.sumCounts } := by
    have hg := hs.step ha hc hw.le
    exact ⟨hg.keys, hg.pos, hS, hg.sum.symm⟩
  refine ⟨{ counts := s.counts.set a (c + w), sumCounts := s.sumCounts }, by rw [hst]; simp, fun xs hx => ?_⟩
  obtain ⟨r, t', h1, h2, h3⟩ := hoff.run hx
  refine ⟨r, t', h1, fun h' => ?_⟩
  have hp := h2.spos
  have e : (A.map fun b => probOf (KT.predictor.logPredict t' b h')).sum = 1 + w / (1 + totalWeight ys + totalWeight xs) := by
    rw [h2.sum_predict hA h', add_div, div_self hp.ne', h3, hsum]
  refine ⟨e, ?_⟩
  rw [e]
  have : 0 < w / (1 + totalWeight ys + totalWeight xs) := div_pos hw (by rw [← hsum]; rw [h3] at hp; exact hp)
  linarith

/-- **C133 (the code violates it: SAD).** If the first update of `SAD` with a symbol is interrupted right after `setdefault`, the symbol is
lost: whatever is observed afterwards, failed updates included, predicting the symbol and updating with it raise. -/
theorem C133_SAD_symbol_lost (s : SAD α) (a : α) (h : List α) (w : ℝ) (hnew : s.counts.get? a = none) (r : ℝ)
    (hr : s.logPredict a = .ok r) : ∃ t ∈ SAD.stages s a h w, ∀ xs : List (Obs α),
      let t' := xs.foldl (fun t o => (SAD.xpredictor.update t o.sym o.hist o.weight).2) t
      ∀ h' w', (∃ e, SAD.predictor.logPredict t' a h' = .error e) ∧ ∃ e, SAD.predictor.update t' a h' w' = .error e := by
  have key : ∀ t : SAD α, t.counts.get? a = some 0 → ∃ e, t.logPredict a = .error e := by
    intro t ht
    unfold SAD.logPredict
    cases hb : t.beta with
    | error e => exact ⟨e, rfl⟩
    | ok b =>
      simp only [ok_bind, ht]
      by_cases h0 : t.sumCounts + b = 0
      · exact ⟨_, by simp [pyDiv, h0]; rfl⟩
      · refine ⟨.valueError, ?_⟩
        rw [pyDiv_of_ne h0, zero_div, ok_bind]
        simp [pyLog]
  have hst : ({ s with counts := s.counts.set a 0 } : SAD α) ∈ SAD.stages s a h w := by
    unfold SAD.stages
    simp only [hr, hnew]
    cases (s.counts.set a 0).getE a <;> simp
  refine ⟨_, hst, fun xs => ?_⟩
  have inv : ∀ (xs : List (Obs α)) (t : SAD α), t.counts.get? a = some 0 →
      (xs.foldl (fun t o => (SAD.xpredictor.update t o.sym o.hist o.weight).2) t).counts.get? a = some 0 := by
    intro xs
    induction xs with
    | nil => exact fun t ht => ht
    | cons o xs ih =>
      intro t ht
      refine ih _ ?_
      change (t.xupdate o.sym o.weight).2.counts.get? a = some 0
      unfold SAD.xupdate
      by_cases hoa : o.sym = a
      · obtain ⟨e, he⟩ := key t ht
        rw [hoa, he]
        exact ht
      · cases hl : t.logPredict o.sym with
        | error e => exact ht
        | ok v =>
          cases hg : t.counts.get? o.sym with
          | none =>
            simp only
            cases hgE : (t.counts.set o.sym 0).getE o.sym with
            | error e =>
              simp only
              rw [PyDict.get?_set_other _ _ (Ne.symm hoa)]
              exact ht
            | ok c =>
              simp only
              rw [PyDict.get?_set_other _ _ (Ne.symm hoa), PyDict.get?_set_other _ _ (Ne.symm hoa)]
              exact ht
          | some x =>
            simp only
            cases hgE : t.counts.getE o.sym with
            | error e => exact ht
            | ok c =>
              simp only
              rw [PyDict.get?_set_other _ _ (Ne.symm hoa)]
              exact ht
  intro t' h' w'
  have ht' := inv xs { s with counts := s.counts.set a 0 } (by simp [PyDict.get?_set_self])
  obtain ⟨e, he⟩ := key t' ht'
  exact ⟨⟨e, by simp [SAD.predictor, he]⟩, e, by simp [SAD.predictor, SAD.update, he]⟩

/-- The hypotheses are met: a context tree interrupted in its first update (and a mixture of two `KTBinary` models); a lawful base; `KT` on
two symbols after one update; `SAD` on three symbols before its first update. -/
example : (∃ t, Session (CTW.predictor KTBinary.predictor (KTBinary.init none) (CTW.mkcontext 1 false))
        (CTW.stages KTBinary.predictor KTBinary.stages (KTBinary.init none) (CTW.mkcontext 1 false)) [false, true] (0 ≤ ·)
        (CTW.init (KTBinary.init none)) t ∧ t ≠ CTW.init (KTBinary.init none)) ∧
    (∃ s, Averager.init (List.replicate 2 (KTBinary.init none)) = .ok s) ∧
    KTBinary.predictor.UpdateLawful (fun s => 0 < s.c0 ∧ 0 < s.c1) [false, true] (0 ≤ ·) ∧
    (∃ s r s', KT.init [0, 1] none = .ok s ∧ KT.predictor.run s [⟨1, [], 2⟩] = .ok (r, s')) ∧
    (SAD.init 3 : SAD ℕ).counts.get? 5 = none ∧ (SAD.init 3 : SAD ℕ).logPredict 5 = .ok (Real.log (1 / 3)) := by
  have hk0 : 0 < (KTBinary.init none).c0 ∧ 0 < (KTBinary.init none).c1 := by norm_num [KTBinary.init]
  refine ⟨?_, ?_, KTBinary.lawful.updateLawful, ?_, rfl, ?_⟩
  · obtain ⟨t, ht, hs⟩ := C133_CTW_less
    refine ⟨t, .interrupted .new (by simp) (by norm_num : (0 : ℝ) ≤ 1) ht, fun he => ?_⟩
    have := (CTWNode.updateLawful (fresh := KTBinary.init none) KTBinary.lawful.updateLawful (d := 1) (ctx := CTW.mkcontext 1 false)
      (fun h => by simp [CTW.mkcontext, pyTail]; omega)).sum_probOf (CTWNode.WF.new (fresh := KTBinary.init none) (I := fun s => 0 < s.c0 ∧ 0 < s.c1) hk0 1) (by norm_num : (0 : ℝ) ≤ 1) []
    rw [he] at hs
    have h2 := hs.symm.trans this
    norm_num at h2
  · exact ⟨_, by simp only [Averager.init, List.length_replicate]; rw [pyDiv_of_ne (by norm_num), ok_bind, pyLog_of_pos (by norm_num)]; rfl⟩
  · have hi := KT.init_default (A := [0, 1]) (by simp) (by simp)
    have hg := KT.good_of_map (A := [0, 1]) (fun _ => 1 / 2) (fun _ _ => by norm_num)
    obtain ⟨r, s', h1, -⟩ := (KT.lawful (A := [0, 1]) (by simp) (by simp)).run_ok hg (xs := [⟨1, [], 2⟩]) (by simp)
    refine ⟨_, r, s', hi, ?_⟩
    norm_num at h1 ⊢
    exact h1
  · have h : PyDict.get? (ν := ℝ) ([] : PyDict ℕ ℝ) 5 = none := rfl
    simp [SAD.init, SAD.logPredict, SAD.beta, pyDiv, pyLog, h]

end Verif
