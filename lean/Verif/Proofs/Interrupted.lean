import Verif.Spec.Interrupted
import Verif.Proofs.CTWPure
import Verif.Proofs.AveragerLawful
import Verif.Proofs.CTWLawful

/-!
# Lemmas about interrupted updates
-/

namespace Verif

open Predictor

namespace Predictor

variable {σ α : Type}

theorem probOf_nonneg (x : Py (ℝ × σ)) : 0 ≤ probOf x := by
  unfold probOf
  split
  · exact (Real.exp_pos _).le
  · exact le_rfl

theorem Bounded.nonpos {P : Predictor σ α} {stg : Stages σ α} {I : σ → Prop} {A : List α} {W : ℝ → Prop}
    (hP : P.Bounded stg I A W) {s s' : σ} {a : α} {h : List α} {w r : ℝ} (hs : I s) (ha : a ∈ A) (hw : W w)
    (hu : P.update s a h w = .ok (r, s')) : r ≤ 0 := by
  have h1 := hP.le_one s h w hs hw
  have h2 : probOf (P.update s a h w) ≤ (A.map fun a => probOf (P.update s a h w)).sum :=
    List.single_le_sum (fun x hx => by
      obtain ⟨b, -, rfl⟩ := List.mem_map.mp hx
      exact probOf_nonneg _) _ (List.mem_map.mpr ⟨a, ha, rfl⟩)
  rw [hu] at h2
  have h3 : Real.exp r ≤ 1 := h2.trans h1
  exact Real.exp_le_one_iff.mp h3

theorem Bounded.session {P : Predictor σ α} {stg : Stages σ α} {I : σ → Prop} {A : List α} {W : ℝ → Prop}
    (hP : P.Bounded stg I A W) {s t : σ} (hs : I s) (h : Session P stg A W s t) : I t := by
  induction h with
  | new => exact hs
  | update _ ha hw hu ih =>
    obtain ⟨r, s', h1, h2⟩ := hP.total _ _ _ _ ih ha hw
    rw [hu, Except.ok.injEq, Prod.mk.injEq] at h1
    exact h1.2 ▸ h2
  | interrupted _ ha hw ht ih => exact hP.stages _ _ _ _ _ ih ha hw ht

end Predictor

namespace KTBinary

theorem bounded : predictor.Bounded stages (fun s => 0 < s.c0 ∧ 0 < s.c1) [false, true] (fun w => 0 ≤ w) where
  total := lawful.updateLawful.total
  le_one s h w hs hw := (lawful.updateLawful.sum_probOf hs hw h).le
  stages s a h w t hs ha hw ht := by
    obtain ⟨r, s', h1, h2⟩ := lawful.updateLawful.total s a h w hs ha hw
    unfold stages at ht
    simp only [predictor, update, logPredict_pos hs.1 hs.2, ok_bind, pure_eq_ok, Except.ok.injEq, Prod.mk.injEq] at h1
    rw [logPredict_pos hs.1 hs.2] at ht
    simp only [List.mem_cons, List.not_mem_nil, or_false] at ht
    rcases ht with rfl | rfl
    · exact hs
    · rw [h1.2]
      exact h2

end KTBinary

namespace Averager

variable {σ α : Type} {P : Predictor σ α} {stg : Stages σ α}

/-- The weights do not exceed the recorded probability. -/
structure Below (I : σ → Prop) (s : Averager σ) : Prop where
  ne : s.models ≠ []
  all : ∀ p ∈ s.models, I p.1
  le : ((s.models.map Prod.snd).map Real.exp).sum ≤ Real.exp s.logProb

theorem sum_forall₂ {a : α} {h : List α} {w : ℝ} {l l' : List (σ × ℝ)}
    (f : List.Forall₂ (fun p q => P.update p.1 a h w = .ok (q.2 - p.2, q.1)) l l') :
    ((l'.map Prod.snd).map Real.exp).sum = (l.map fun p => Real.exp p.2 * probOf (P.update p.1 a h w)).sum := by
  induction f with
  | nil => rfl
  | cons hq _ ih =>
    simp only [List.map_cons, List.sum_cons, ih, hq, Predictor.probOf_ok]
    congr 1
    rw [← Real.exp_add]
    congr 1
    ring

theorem update_value {s s' : Averager σ} (hne : s.models ≠ []) {a : α} {h : List α} {w r : ℝ}
    (hu : update P s a h w = .ok (r, s')) : s'.models ≠ [] ∧
    Real.exp s'.logProb = ((s'.models.map Prod.snd).map Real.exp).sum ∧
    Real.exp r * Real.exp s.logProb =
      (s.models.map fun p => Real.exp p.2 * probOf (P.update p.1 a h w)).sum := by
  obtain ⟨f1, e0, e1⟩ := (update_ok hne).mp hu
  have hne' : s'.models ≠ [] := by
    intro h0
    have hl := f1.length_eq
    rw [h0] at hl
    exact hne (List.eq_nil_of_length_eq_zero (by simpa using hl))
  have h2 : Real.exp s'.logProb = ((s'.models.map Prod.snd).map Real.exp).sum := by rw [e0, exp_log_sum hne']
  refine ⟨hne', h2, ?_⟩
  rw [← Real.exp_add, e1, sub_add_cancel, h2, sum_forall₂ f1]

theorem update_returns {s : Averager σ} (hne : s.models ≠ []) {a : α} {h : List α} {w : ℝ}
    (ht : ∀ p ∈ s.models, ∃ r t, P.update p.1 a h w = .ok (r, t)) : ∃ r s', update P s a h w = .ok (r, s') := by
  obtain ⟨ms, hm⟩ := updateModels_total ht
  have hl := (updateModels_ok.mp hm).length_eq
  have hne' : ms ≠ [] := by
    intro h0
    rw [h0] at hl
    exact hne (List.eq_nil_of_length_eq_zero (by simpa using hl))
  simp only [update, hm, ok_bind]
  rw [logsumexp_eq (by simpa using hne')]
  exact ⟨_, _, rfl⟩

/-- What the sum of the probabilities of the next update is. -/
theorem sum_update {A : List α} {s : Averager σ} (hne : s.models ≠ []) {h : List α} {w : ℝ}
    (ht : ∀ a ∈ A, ∀ p ∈ s.models, ∃ r t, P.update p.1 a h w = .ok (r, t)) :
    (A.map fun a => probOf ((predictor P).update s a h w)).sum * Real.exp s.logProb =
      (s.models.map fun p => Real.exp p.2 * (A.map fun a => probOf (P.update p.1 a h w)).sum).sum := by
  rw [← List.sum_map_mul_right, List.map_congr_left (g := fun a =>
    (s.models.map fun p => Real.exp p.2 * probOf (P.update p.1 a h w)).sum), sum_map_sum_comm]
  · congr 1
    apply List.map_congr_left
    intro p _
    rw [List.sum_map_mul_left]
  · intro a ha
    obtain ⟨r, s', hu⟩ := update_returns hne (ht a ha)
    change probOf (update P s a h w) * _ = _
    rw [hu, probOf_ok, (update_value hne hu).2.2]

theorem modelsStages_below {I : σ → Prop} {A : List α} {W : ℝ → Prop} (hP : P.Bounded stg I A W) {a : α} (ha : a ∈ A)
    {h : List α} {w : ℝ} (hw : W w) {l l' : List (σ × ℝ)} (hl : ∀ p ∈ l, I p.1)
    (h' : l' ∈ modelsStages P stg a h w l) : (l ≠ [] → l' ≠ []) ∧ (∀ p ∈ l', I p.1) ∧
      ((l'.map Prod.snd).map Real.exp).sum ≤ ((l.map Prod.snd).map Real.exp).sum := by
  induction l generalizing l' with
  | nil =>
    simp only [modelsStages, List.mem_singleton] at h'
    subst h'
    simp
  | cons p rest ih =>
    obtain ⟨m, lp⟩ := p
    have hm : I m := hl (m, lp) (by simp)
    have hrest : ∀ p ∈ rest, I p.1 := fun p hp => hl p (by simp [hp])
    obtain ⟨r, m', hu, hi⟩ := hP.total m a h w hm ha hw
    simp only [modelsStages, hu, List.mem_append, List.mem_map] at h'
    rcases h' with ⟨m1, h1, rfl⟩ | ⟨l1, h1, rfl⟩
    · refine ⟨by simp, ?_, by simp⟩
      intro p hp
      rcases List.mem_cons.mp hp with rfl | hp
      · exact hP.stages _ _ _ _ _ hm ha hw h1
      · exact hrest p hp
    · obtain ⟨-, i2, i3⟩ := ih hrest h1
      refine ⟨by simp, ?_, ?_⟩
      · intro p hp
        rcases List.mem_cons.mp hp with rfl | hp
        · exact hi
        · exact i2 p hp
      · have : Real.exp (lp + r) ≤ Real.exp lp := Real.exp_le_exp.mpr (by linarith [hP.nonpos hm ha hw hu])
        simp only [List.map_cons, List.sum_cons]
        linarith

theorem bounded {I : σ → Prop} {A : List α} {W : ℝ → Prop} (hP : P.Bounded stg I A W) :
    (predictor P).Bounded (stages P stg) (Below I) A W := by
  have htot : ∀ s a h w, Below I s → a ∈ A → W w → ∃ r s', update P s a h w = .ok (r, s') ∧ Below I s' := by
    intro s a h w hs ha hw
    obtain ⟨r, s', hu⟩ := update_returns (P := P) (a := a) (h := h) (w := w) hs.ne (fun p hp => by
      obtain ⟨r, t, h1, -⟩ := hP.total p.1 a h w (hs.all p hp) ha hw
      exact ⟨r, t, h1⟩)
    obtain ⟨h1, h2, -⟩ := update_value hs.ne hu
    refine ⟨r, s', hu, h1, ?_, h2.ge⟩
    refine forall₂_all ((update_ok hs.ne).mp hu).1 hs.all ?_
    intro p q hp hq
    obtain ⟨r, t, h1, h2⟩ := hP.total p.1 a h w hp ha hw
    rw [h1, Except.ok.injEq, Prod.mk.injEq] at hq
    exact hq.2 ▸ h2
  refine ⟨htot, ?_, ?_⟩
  · intro s h w hs hw
    have h1 := sum_update (P := P) (A := A) (h := h) (w := w) hs.ne (fun a ha p hp => by
      obtain ⟨r, t, h1, -⟩ := hP.total p.1 a h w (hs.all p hp) ha hw
      exact ⟨r, t, h1⟩)
    have h2 : (s.models.map fun p => Real.exp p.2 * (A.map fun a => probOf (P.update p.1 a h w)).sum).sum ≤
        ((s.models.map Prod.snd).map Real.exp).sum := by
      rw [List.map_map]
      refine List.sum_le_sum fun p hp => ?_
      have := hP.le_one p.1 h w (hs.all p hp) hw
      exact mul_le_of_le_one_right (Real.exp_pos _).le this
    have h3 := h1.le.trans (h2.trans hs.le)
    exact (mul_le_iff_le_one_left (Real.exp_pos _)).mp h3
  · intro s a h w t hs ha hw ht
    simp only [stages, List.mem_append, List.mem_map] at ht
    rcases ht with ⟨l, hl, rfl⟩ | ht
    · obtain ⟨h1, h2, h3⟩ := modelsStages_below hP ha hw hs.all hl
      exact ⟨h1 hs.ne, h2, h3.trans hs.le⟩
    · obtain ⟨r, s', h1, h2⟩ := htot s a h w hs ha hw
      rw [h1] at ht
      simp only [List.mem_singleton] at ht
      exact ht ▸ h2

end Averager

namespace CTWNode

variable {σ κ α : Type} [DecidableEq κ] {P : Predictor σ α} {stg : Stages σ α} {fresh : σ}

/-- A tree of depth `d` whose recorded probabilities are at least those that the parts give. -/
def Heavy (I : σ → Prop) : ℕ → CTWNode σ κ → Prop
  | 0, n => I n.base ∧ n.baseLP ≤ n.lp
  | d + 1, n => I n.base ∧ (Real.exp n.baseLP + Real.exp n.childrenLP) / 2 ≤ Real.exp n.lp ∧
      ∀ c k, n.children c = some k → Heavy I d k

theorem heavy_new {I : σ → Prop} (hf : I fresh) (d : ℕ) : Heavy I d (new fresh : CTWNode σ κ) := by
  cases d with
  | zero => exact ⟨hf, le_rfl⟩
  | succ d =>
    refine ⟨hf, ?_, by simp [new, children]⟩
    simp [new, baseLP, childrenLP, lp]

theorem heavy_child {I : σ → Prop} (hf : I fresh) {d : ℕ} {n : CTWNode σ κ} (h : Heavy I (d + 1) n) (c : κ) :
    Heavy I d ((n.children c).getD (new fresh)) := by
  cases hc : n.children c with
  | none => exact heavy_new hf d
  | some k => exact h.2.2 c k hc

theorem heavy_mk {I : σ → Prop} {d : ℕ} {n : CTWNode σ κ} (h : Heavy I (d + 1) n) {b : σ} (hb : I b) {x y z : ℝ}
    (hx : (Real.exp x + Real.exp y) / 2 ≤ Real.exp z) {c : κ} {k : CTWNode σ κ} (hk : Heavy I d k) :
    Heavy I (d + 1) (mk b x y z (Function.update n.children c (some k))) := by
  refine ⟨hb, hx, fun c' k' hc => ?_⟩
  simp only [children, Function.update_apply] at hc
  split_ifs at hc with he
  · cases hc
    exact hk
  · exact h.2.2 c' k' hc

theorem exp_lse (x y : ℝ) : Real.exp (log05 + logsumexp2 x y) = (Real.exp x + Real.exp y) / 2 := by
  rw [half_lse2_eq_log, Real.exp_log (by positivity)]
  ring

theorem update_heavy {I : σ → Prop} {A : List α} {W : ℝ → Prop} (hP : P.Bounded stg I A W) (hf : I fresh) {h : List α} {w : ℝ}
    (hw : W w) (cs : List κ) (n : CTWNode σ κ) (hn : Heavy I cs.length n) :
    (∀ a ∈ A, ∃ r n', update P fresh a h w cs n = .ok (r, n') ∧ Heavy I cs.length n') ∧
    (A.map fun a => probOf (update P fresh a h w cs n)).sum ≤ 1 := by
  induction cs generalizing n with
  | nil =>
    have h1 := hP.le_one n.base h w hn.1 hw
    constructor
    · intro a ha
      obtain ⟨r, b, hu, hb⟩ := hP.total n.base a h w hn.1 ha hw
      exact ⟨n.baseLP + r - n.lp, mk b (n.baseLP + r) n.childrenLP (n.baseLP + r) n.children,
        by simp only [update, hu, ok_bind, pure_eq_ok], hb, le_rfl⟩
    · have h2 : (A.map fun a => probOf (update P fresh a h w [] n)).sum =
          Real.exp (n.baseLP - n.lp) * (A.map fun a => probOf (P.update n.base a h w)).sum := by
        rw [← List.sum_map_mul_left]
        congr 1
        apply List.map_congr_left
        intro a ha
        obtain ⟨r, b, hu, hb⟩ := hP.total n.base a h w hn.1 ha hw
        simp only [update, hu, ok_bind, pure_eq_ok, probOf_ok, ← Real.exp_add]
        congr 1
        ring
      rw [h2]
      have h3 : Real.exp (n.baseLP - n.lp) ≤ 1 := Real.exp_le_one_iff.mpr (by linarith [hn.2])
      calc _ ≤ Real.exp (n.baseLP - n.lp) * 1 := mul_le_mul_of_nonneg_left h1 (Real.exp_pos _).le
        _ ≤ 1 := by linarith
  | cons c cs ih =>
    have h1 := hP.le_one n.base h w hn.1 hw
    have hc := heavy_child hf hn c
    obtain ⟨i1, i2⟩ := ih _ hc
    have key : ∀ a ∈ A, ∃ r b rc k, P.update n.base a h w = .ok (r, b) ∧ I b ∧
        update P fresh a h w cs ((n.children c).getD (new fresh)) = .ok (rc, k) ∧ Heavy I cs.length k ∧
        update P fresh a h w (c :: cs) n = .ok (log05 + logsumexp2 (n.baseLP + r) (n.childrenLP + rc) - n.lp,
          mk b (n.baseLP + r) (n.childrenLP + rc) (log05 + logsumexp2 (n.baseLP + r) (n.childrenLP + rc))
            (Function.update n.children c (some k))) := by
      intro a ha
      obtain ⟨r, b, hu, hb⟩ := hP.total n.base a h w hn.1 ha hw
      obtain ⟨rc, k, hk, hk2⟩ := i1 a ha
      exact ⟨r, b, rc, k, hu, hb, hk, hk2, by simp only [update, hu, hk, ok_bind, pure_eq_ok]⟩
    constructor
    · intro a ha
      obtain ⟨r, b, rc, k, hu, hb, hk, hk2, h3⟩ := key a ha
      exact ⟨_, _, h3, heavy_mk hn hb (exp_lse _ _).ge hk2⟩
    · have h2 : (A.map fun a => probOf (update P fresh a h w (c :: cs) n)).sum * Real.exp n.lp =
          (Real.exp n.baseLP * (A.map fun a => probOf (P.update n.base a h w)).sum + Real.exp n.childrenLP *
            (A.map fun a => probOf (update P fresh a h w cs ((n.children c).getD (new fresh)))).sum) / 2 := by
        rw [← List.sum_map_mul_right, ← List.sum_map_mul_left, ← List.sum_map_mul_left, ← List.sum_map_add,
          div_eq_mul_inv, ← List.sum_map_mul_right]
        congr 1
        apply List.map_congr_left
        intro a ha
        obtain ⟨r, b, rc, k, hu, hb, hk, hk2, h3⟩ := key a ha
        rw [h3, hu, hk, probOf_ok, probOf_ok, probOf_ok, ← Real.exp_add, sub_add_cancel, exp_lse, Real.exp_add, Real.exp_add]
        ring
      have h3 : (A.map fun a => probOf (update P fresh a h w (c :: cs) n)).sum * Real.exp n.lp ≤ Real.exp n.lp := by
        rw [h2]
        have g1 := mul_le_of_le_one_right (Real.exp_pos n.baseLP).le h1
        have g2 := mul_le_of_le_one_right (Real.exp_pos n.childrenLP).le i2
        have := hn.2.1
        linarith
      exact (mul_le_iff_le_one_left (Real.exp_pos _)).mp h3

theorem update_nonpos {I : σ → Prop} {A : List α} {W : ℝ → Prop} (hP : P.Bounded stg I A W) (hf : I fresh) {h : List α} {w : ℝ}
    (hw : W w) {cs : List κ} {n : CTWNode σ κ} (hn : Heavy I cs.length n) {a : α} (ha : a ∈ A) {r : ℝ} {n' : CTWNode σ κ}
    (hu : update P fresh a h w cs n = .ok (r, n')) : r ≤ 0 := by
  have h1 := (update_heavy hP hf hw cs n hn (h := h)).2
  have h2 : probOf (update P fresh a h w cs n) ≤ (A.map fun a => probOf (update P fresh a h w cs n)).sum :=
    List.single_le_sum (fun x hx => by
      obtain ⟨b, -, rfl⟩ := List.mem_map.mp hx
      exact probOf_nonneg _) _ (List.mem_map.mpr ⟨a, ha, rfl⟩)
  rw [hu] at h2
  exact Real.exp_le_one_iff.mp (h2.trans h1)

theorem stages_heavy {I : σ → Prop} {A : List α} {W : ℝ → Prop} (hP : P.Bounded stg I A W) (hf : I fresh) {a : α} (ha : a ∈ A)
    {h : List α} {w : ℝ} (hw : W w) (cs : List κ) (n t : CTWNode σ κ) (hn : Heavy I cs.length n)
    (ht : t ∈ stages P stg fresh a h w cs n) : Heavy I cs.length t := by
  induction cs generalizing n t with
  | nil =>
    obtain ⟨r, b, hu, hb⟩ := hP.total n.base a h w hn.1 ha hw
    have hr := hP.nonpos hn.1 ha hw hu
    simp only [stages, hu, List.mem_append, List.mem_map, List.mem_cons, List.not_mem_nil, or_false] at ht
    rcases ht with ⟨b', h1, rfl⟩ | rfl | rfl
    · exact ⟨hP.stages _ _ _ _ _ hn.1 ha hw h1, hn.2⟩
    · refine ⟨hb, ?_⟩
      have := hn.2
      simp only [baseLP, lp] at this ⊢
      linarith
    · exact ⟨hb, le_rfl⟩
  | cons c cs ih =>
    obtain ⟨r, b, hu, hb⟩ := hP.total n.base a h w hn.1 ha hw
    have hr := hP.nonpos hn.1 ha hw hu
    have hc := heavy_child hf hn c
    obtain ⟨rc, k, hk, hk2⟩ := (update_heavy hP hf hw cs _ hc (h := h)).1 a ha
    have hrc := update_nonpos hP hf hw hc ha hk
    have e1 : Real.exp (n.baseLP + r) ≤ Real.exp n.baseLP := Real.exp_le_exp.mpr (by linarith)
    have e2 : Real.exp (n.childrenLP + rc) ≤ Real.exp n.childrenLP := Real.exp_le_exp.mpr (by linarith)
    have e3 := hn.2.1
    simp only [stages, hu, hk, List.mem_append, List.mem_map, List.mem_cons, List.not_mem_nil, or_false] at ht
    rcases ht with ⟨b', h1, rfl⟩ | (rfl | ⟨t', h1, rfl⟩) | rfl | rfl
    · exact ⟨hP.stages _ _ _ _ _ hn.1 ha hw h1, hn.2.1, hn.2.2⟩
    · refine ⟨hb, ?_, hn.2.2⟩
      change (Real.exp (n.baseLP + r) + Real.exp n.childrenLP) / 2 ≤ Real.exp n.lp
      linarith
    · exact heavy_mk hn hb (by linarith) (ih _ _ hc h1)
    · exact heavy_mk hn hb (by linarith) hk2
    · exact heavy_mk hn hb (exp_lse _ _).ge hk2

theorem bounded {I : σ → Prop} {A : List α} {W : ℝ → Prop} (hP : P.Bounded stg I A W) (hf : I fresh) {d : ℕ}
    {ctx : List α → List κ} (hctx : ∀ h, (ctx h).length = d) :
    (CTW.predictor P fresh ctx).Bounded (CTW.stages P stg fresh ctx) (Heavy I d) A W where
  total s a h w hs ha hw := by
    have hl : (ctx h).reverse.length = d := by rw [List.length_reverse, hctx]
    have := (update_heavy hP hf hw (ctx h).reverse s (hl ▸ hs) (h := h)).1 a ha
    rwa [hl] at this
  le_one s h w hs hw := by
    have hl : (ctx h).reverse.length = d := by rw [List.length_reverse, hctx]
    exact (update_heavy hP hf hw (ctx h).reverse s (hl ▸ hs) (h := h)).2
  stages s a h w t hs ha hw ht := by
    have hl : (ctx h).reverse.length = d := by rw [List.length_reverse, hctx]
    have := stages_heavy hP hf ha hw (ctx h).reverse s t (hl ▸ hs) ht
    rwa [hl] at this

/-- After a complete update the probabilities in the same context sum to one. -/
theorem sum_after {I : σ → Prop} {A : List α} {W : ℝ → Prop} (hP : P.Bounded stg I A W) (hL : P.UpdateLawful I A W) (hf : I fresh)
    {a : α} (ha : a ∈ A) {h h' : List α} {w w' : ℝ} (hw : W w) (hw' : W w') (cs : List κ) (n n' : CTWNode σ κ)
    (hn : Heavy I cs.length n) {r : ℝ} (hu : update P fresh a h w cs n = .ok (r, n')) :
    (A.map fun b => probOf (update P fresh b h' w' cs n')).sum = 1 := by
  induction cs generalizing n n' r with
  | nil =>
    obtain ⟨r1, b1, h1, hb1⟩ := hP.total n.base a h w hn.1 ha hw
    simp only [update, h1, ok_bind, pure_eq_ok, Except.ok.injEq, Prod.mk.injEq] at hu
    obtain ⟨-, rfl⟩ := hu
    rw [← hL.sum_probOf hb1 hw' h']
    congr 1
    apply List.map_congr_left
    intro x hx
    obtain ⟨r2, b2, h2, -⟩ := hP.total b1 x h' w' hb1 hx hw'
    simp only [update, base, baseLP, lp, h2, ok_bind, pure_eq_ok, probOf_ok]
    congr 1
    ring
  | cons c cs ih =>
    have hc := heavy_child hf hn c
    obtain ⟨r1, b1, h1, hb1⟩ := hP.total n.base a h w hn.1 ha hw
    obtain ⟨rc, k, hk, hk2⟩ := (update_heavy hP hf hw cs _ hc (h := h)).1 a ha
    simp only [update, h1, hk, ok_bind, pure_eq_ok, Except.ok.injEq, Prod.mk.injEq] at hu
    obtain ⟨-, rfl⟩ := hu
    have i := ih _ _ hc hk
    have h0 := hL.sum_probOf hb1 hw' h'
    set x := n.baseLP + r1
    set y := n.childrenLP + rc
    have h2 : (A.map fun b => probOf (update P fresh b h' w' (c :: cs)
          (mk b1 x y (log05 + logsumexp2 x y) (Function.update n.children c (some k))))).sum *
        Real.exp (log05 + logsumexp2 x y) =
        (Real.exp x * (A.map fun b => probOf (P.update b1 b h' w')).sum + Real.exp y *
          (A.map fun b => probOf (update P fresh b h' w' cs k)).sum) / 2 := by
      rw [← List.sum_map_mul_right, ← List.sum_map_mul_left, ← List.sum_map_mul_left, ← List.sum_map_add,
        div_eq_mul_inv, ← List.sum_map_mul_right]
      congr 1
      apply List.map_congr_left
      intro z hz
      obtain ⟨r2, b2, h2, -⟩ := hP.total b1 z h' w' hb1 hz hw'
      obtain ⟨rc2, k2, hk3, -⟩ := (update_heavy hP hf hw' cs _ hk2 (h := h')).1 z hz
      simp only [update, base, baseLP, childrenLP, lp, children, Function.update_self, Option.getD_some, h2, hk3, ok_bind,
        pure_eq_ok, probOf_ok]
      rw [← Real.exp_add, sub_add_cancel, exp_lse, Real.exp_add x, Real.exp_add y]
      ring
    rw [i, h0, exp_lse, mul_one, mul_one] at h2
    have hpos : (0 : ℝ) < (Real.exp x + Real.exp y) / 2 := by positivity
    exact mul_right_cancel₀ hpos.ne' (by rw [h2, one_mul])

end CTWNode

namespace KT

open PyDict

variable {α : Type} [DecidableEq α]

/-- A `KT` whose counts sum to `δ` more than the recorded total. -/
structure Off (A : List α) (δ : ℝ) (s : KT α) : Prop where
  keys : s.counts.keys = A
  pos : ∀ p ∈ s.counts, 0 < p.2
  spos : 0 < s.sumCounts
  sum : s.counts.values.sum = s.sumCounts + δ

theorem Off.get {A : List α} {δ : ℝ} {s : KT α} (h : Off A δ s) {a : α} (ha : a ∈ A) : ∃ c, s.counts.get? a = some c ∧ 0 < c := by
  obtain ⟨c, hc⟩ := get?_isSome.mpr (h.keys ▸ ha)
  exact ⟨c, hc, h.pos _ (mem_of_get? hc)⟩

theorem Off.logPredict {A : List α} {δ : ℝ} {s : KT α} (h : Off A δ s) {a : α} {c : ℝ}
    (hc : s.counts.get? a = some c) : s.logPredict a = .ok (Real.log (c / s.sumCounts)) := by
  have hc0 := h.pos _ (mem_of_get? hc)
  unfold KT.logPredict
  rw [getE_ok.mpr hc]
  simp only [ok_bind]
  rw [pyDiv_of_ne h.spos.ne']
  simp only [ok_bind]
  exact pyLog_of_pos (div_pos hc0 h.spos)

theorem Off.update {A : List α} {δ : ℝ} {s : KT α} (h : Off A δ s) {a : α} (ha : a ∈ A) {w : ℝ} (hw : 0 ≤ w) :
    ∃ r s', s.update a w = .ok (r, s') ∧ Off A δ s' ∧ s'.sumCounts = s.sumCounts + w := by
  obtain ⟨c, hc, hc0⟩ := h.get ha
  refine ⟨Real.log (c / s.sumCounts), ⟨s.counts.set a (c + w), s.sumCounts + w⟩, ?_, ⟨?_, ?_, ?_, ?_⟩, rfl⟩
  · simp only [KT.update, h.logPredict hc, getE_ok.mpr hc, ok_bind, pure_eq_ok]
  · rw [keys_set_of_mem _ (h.keys ▸ ha), h.keys]
  · intro p hp
    rcases mem_set hp with rfl | hp
    · simp only
      linarith
    · exact h.pos p hp
  · have := h.spos
    simp only
    linarith
  · rw [sum_values_set hc, h.sum]
    ring

theorem Off.sum_predict {A : List α} (hA : A.Nodup) {δ : ℝ} {s : KT α} (h : Off A δ s) (hist : List α) :
    (A.map fun a => probOf (predictor.logPredict s a hist)).sum = (s.sumCounts + δ) / s.sumCounts := by
  have h1 : (A.map fun a => probOf (predictor.logPredict s a hist)) =
      A.map fun a => (s.counts.get? a).getD 0 * s.sumCounts⁻¹ := by
    apply List.map_congr_left
    intro a ha
    obtain ⟨c, hc, hc0⟩ := h.get ha
    simp only [predictor, h.logPredict hc, ok_bind, pure_eq_ok, probOf_ok]
    rw [Real.exp_log (div_pos hc0 h.spos), hc]
    simp [div_eq_mul_inv]
  have h3 := sum_map_get (d := s.counts) (h.keys ▸ hA) (fun a => (s.counts.get? a).getD 0)
    (by intro a c hc; simp [hc])
  rw [h.keys] at h3
  rw [h1, List.sum_map_mul_right, h3, h.sum, div_eq_mul_inv]

theorem Off.run {A : List α} {δ : ℝ} {s : KT α} (h : Off A δ s) {xs : List (Obs α)}
    (hx : ∀ o ∈ xs, o.sym ∈ A ∧ 0 ≤ o.weight) : ∃ r s', predictor.run s xs = .ok (r, s') ∧ Off A δ s' ∧
      s'.sumCounts = s.sumCounts + totalWeight xs := by
  induction xs generalizing s with
  | nil => exact ⟨0, s, rfl, h, by simp [totalWeight]⟩
  | cons o xs ih =>
    obtain ⟨r, s', h1, h2, h3⟩ := h.update (hx o (by simp)).1 (hx o (by simp)).2
    obtain ⟨r2, s2, g1, g2, g3⟩ := ih h2 (fun p hp => hx p (by simp [hp]))
    refine ⟨r + r2, s2, ?_, g2, ?_⟩
    · have : predictor.update s o.sym o.hist o.weight = .ok (r, s') := h1
      simp only [Predictor.run, this, ok_bind, g1, pure_eq_ok]
    · rw [g3, h3]
      simp only [totalWeight, List.map_cons, List.sum_cons]
      ring

end KT

end Verif
