import Verif.Proofs.CTW
import Verif.Proofs.AveragerLawful
import Mathlib.Algebra.Order.BigOperators.Ring.Finset

set_option linter.unusedSectionVars false

/-! `CTW` keeps the contract of its base model; regret; equivalence with `CTW_KT`. -/

namespace Verif

open Predictor

namespace CTWNode

variable {σ κ α : Type} [DecidableEq κ] {P : Predictor σ α} {fresh : σ}

/-- A tree of depth `d` whose cached probabilities are consistent and whose base models satisfy `I`. -/
def WF (fresh : σ) (I : σ → Prop) : ℕ → CTWNode σ κ → Prop
  | 0, n => I n.base ∧ n.lp = n.baseLP
  | d + 1, n => I n.base ∧ n.lp = log05 + logsumexp2 n.baseLP n.childrenLP ∧
      ∀ c, WF fresh I d ((n.children c).getD (new fresh))

theorem WF.new {I : σ → Prop} (hI : I fresh) (d : ℕ) : WF fresh I d (new fresh : CTWNode σ κ) := by
  induction d with
  | zero => exact ⟨hI, rfl⟩
  | succ d ih =>
    refine ⟨hI, ?_, fun c => ih⟩
    change (0 : ℝ) = log05 + logsumexp2 0 0
    rw [logsumexp2_self]

theorem WF.base {I : σ → Prop} {d : ℕ} {n : CTWNode σ κ} (h : WF fresh I d n) : I n.base := by
  cases d with
  | zero => exact h.1
  | succ d => exact h.1

theorem WF.update_ok {I : σ → Prop} {A : List α} {W : ℝ → Prop} (hP : P.UpdateLawful I A W)
    {n : CTWNode σ κ} {ctx : List κ} (h : WF fresh I ctx.length n) {a : α} (ha : a ∈ A)
    (hi : List α) {w : ℝ} (hw : W w) :
    ∃ r n', n.update P fresh a hi w ctx = .ok (r, n') ∧ WF fresh I ctx.length n' := by
  induction ctx generalizing n with
  | nil =>
    obtain ⟨h1, h2⟩ := h
    obtain ⟨r, b, hb, hbI⟩ := hP.total n.base a hi w h1 ha hw
    exact ⟨_, mk b (n.baseLP + r) n.childrenLP (n.baseLP + r) n.children,
      by simp only [CTWNode.update, hb, ok_bind]; rfl, hbI, rfl⟩
  | cons c cs ih =>
    obtain ⟨h1, h2, h3⟩ := h
    obtain ⟨r, b, hb, hbI⟩ := hP.total n.base a hi w h1 ha hw
    obtain ⟨rc, ch', hch, hwf⟩ := ih (h3 c)
    refine ⟨_, mk b (n.baseLP + r) (n.childrenLP + rc) (log05 + logsumexp2 (n.baseLP + r) (n.childrenLP + rc))
      (Function.update n.children c (some ch')),
      by simp only [CTWNode.update, hb, hch, ok_bind]; rfl, hbI, rfl, ?_⟩
    intro c'
    simp only [children_mk]
    by_cases hcc : c' = c
    · subst hcc
      simpa using hwf
    · rw [Function.update_of_ne hcc]
      exact h3 c'

theorem WF.predict_ok {I : σ → Prop} {A : List α}
    (hP : ∀ s a h, I s → a ∈ A → ∃ r s', P.logPredict s a h = .ok (r, s') ∧ I s')
    {n : CTWNode σ κ} {ctx : List κ} (h : WF fresh I ctx.length n) {a : α} (ha : a ∈ A)
    (hi : List α) :
    ∃ r n', n.logPredict P fresh a hi ctx = .ok (r, n') ∧ WF fresh I ctx.length n' := by
  induction ctx generalizing n with
  | nil =>
    obtain ⟨h1, h2⟩ := h
    obtain ⟨r, b, hb, hbI⟩ := hP n.base a hi h1 ha
    exact ⟨_, mk b n.baseLP n.childrenLP n.lp n.children,
      by simp only [CTWNode.logPredict, hb, ok_bind]; rfl, hbI, h2⟩
  | cons c cs ih =>
    obtain ⟨h1, h2, h3⟩ := h
    obtain ⟨r, b, hb, hbI⟩ := hP n.base a hi h1 ha
    obtain ⟨rc, ch', hch, hwf⟩ := ih (h3 c)
    refine ⟨_, mk b n.baseLP n.childrenLP n.lp (Function.update n.children c (some ch')),
      by simp only [CTWNode.logPredict, hb, hch, ok_bind]; rfl, hbI, h2, ?_⟩
    intro c'
    simp only [children_mk]
    by_cases hcc : c' = c
    · subst hcc
      simpa using hwf
    · rw [Function.update_of_ne hcc]
      exact h3 c'

/-- `log_predict` and `update` agree on every tree, consistent or not, as soon as the base models do. -/
theorem logPredict_of_update {I : σ → Prop} {A : List α} {W : ℝ → Prop} (hP : P.Coherent I A W)
    {n n' : CTWNode σ κ} {ctx : List κ} (h : WF fresh I ctx.length n) {a : α} (ha : a ∈ A)
    (hi : List α) {w r : ℝ} (hw : W w) (hu : n.update P fresh a hi w ctx = .ok (r, n')) :
    ∃ t, n.logPredict P fresh a hi ctx = .ok (r, t) := by
  induction ctx generalizing n n' r with
  | nil =>
    simp only [CTWNode.update, bind_eq_ok, pure_eq_ok, Except.ok.injEq, Prod.mk.injEq, Prod.exists] at hu
    obtain ⟨q, b, hb, rfl, rfl⟩ := hu
    obtain ⟨t, ht⟩ := hP n.base a hi w h.base ha hw q b hb
    exact ⟨_, by simp only [CTWNode.logPredict, ht, ok_bind]; rfl⟩
  | cons c cs ih =>
    simp only [CTWNode.update, bind_eq_ok, pure_eq_ok, Except.ok.injEq, Prod.mk.injEq, Prod.exists] at hu
    obtain ⟨q, b, hb, rc, ch', hch, rfl, rfl⟩ := hu
    obtain ⟨t, ht⟩ := hP n.base a hi w h.base ha hw q b hb
    obtain ⟨tc, htc⟩ := ih (h.2.2 c) hch
    exact ⟨_, by simp only [CTWNode.logPredict, ht, htc, ok_bind]; rfl⟩

/-- The value returned for a symbol, as a mixture of the base's and the child's. -/
theorem mass {A : List α} {f : List κ → CTWNode σ κ → α → Py (ℝ × CTWNode σ κ)} {g : σ → α → Py (ℝ × σ)}
    (h0 : ∀ n a, ∀ r b, g n.base a = .ok (r, b) →
      probOf (f [] n a) * Real.exp n.lp = Real.exp n.baseLP * Real.exp r)
    (h1 : ∀ c cs n a, ∀ r b rc ch, g n.base a = .ok (r, b) →
      f cs ((n.children c).getD (new fresh)) a = .ok (rc, ch) →
      probOf (f (c :: cs) n a) * Real.exp n.lp =
        1/2 * (Real.exp n.baseLP * Real.exp r) + 1/2 * (Real.exp n.childrenLP * Real.exp rc))
    {I : σ → Prop} (hg : ∀ s, I s → (A.map fun a => probOf (g s a)).sum = 1)
    (hgt : ∀ s a, I s → a ∈ A → ∃ r b, g s a = .ok (r, b))
    {ctx : List κ} (hft : ∀ cs (n : CTWNode σ κ) a, WF fresh I cs.length n → a ∈ A → ∃ r b, f cs n a = .ok (r, b))
    {n : CTWNode σ κ} (h : WF fresh I ctx.length n) :
    (A.map fun a => probOf (f ctx n a)).sum = 1 := by
  induction ctx generalizing n with
  | nil =>
    have e : (A.map fun a => probOf (f [] n a) * Real.exp n.lp).sum = Real.exp n.lp := by
      rw [List.map_congr_left (g := fun a => Real.exp n.baseLP * probOf (g n.base a))]
      · rw [List.sum_map_mul_left, hg n.base h.base, mul_one, h.2]
      · intro a ha
        obtain ⟨r, b, hb⟩ := hgt n.base a h.base ha
        rw [h0 n a r b hb, hb, probOf_ok]
    rw [List.sum_map_mul_right] at e
    exact mul_right_cancel₀ (Real.exp_pos n.lp).ne' (by rw [e, one_mul])
  | cons c cs ih =>
    have e : (A.map fun a => probOf (f (c :: cs) n a) * Real.exp n.lp).sum = Real.exp n.lp := by
      rw [List.map_congr_left (g := fun a => 1/2 * (Real.exp n.baseLP * probOf (g n.base a)) +
        1/2 * (Real.exp n.childrenLP * probOf (f cs ((n.children c).getD (new fresh)) a)))]
      · rw [List.sum_map_add, List.sum_map_mul_left, List.sum_map_mul_left, List.sum_map_mul_left,
          List.sum_map_mul_left, hg n.base h.base, ih (h.2.2 c), h.2.1, exp_half_lse2]
        ring
      · intro a ha
        obtain ⟨r, b, hb⟩ := hgt n.base a h.base ha
        obtain ⟨rc, ch, hc⟩ := hft cs _ a (h.2.2 c) ha
        rw [h1 c cs n a r b rc ch hb hc, hb, hc, probOf_ok, probOf_ok]
    rw [List.sum_map_mul_right] at e
    exact mul_right_cancel₀ (Real.exp_pos n.lp).ne' (by rw [e, one_mul])

theorem lawful {I : σ → Prop} {A : List α} {W : ℝ → Prop} (hP : P.Lawful I A W) {d : ℕ}
    {ctx : List α → List κ} (hc : ∀ h, (ctx h).length = d) :
    (CTW.predictor P fresh ctx).Lawful (WF fresh I d) A W where
  update_ok := by
    intro n a h w hn ha hw
    have hl : (ctx h).reverse.length = d := by simp [hc]
    subst hl
    exact hn.update_ok hP.updateLawful ha h hw
  predict_ok := by
    intro n a h hn ha
    have hl : (ctx h).reverse.length = d := by simp [hc]
    subst hl
    exact hn.predict_ok hP.predict_ok ha h
  coherent := by
    intro n a h w hn ha hw r n' hu
    have hl : (ctx h).reverse.length = d := by simp [hc]
    subst hl
    exact logPredict_of_update hP.coherent hn ha h hw hu
  normalised := by
    intro n h hn
    have hl : (ctx h).reverse.length = d := by simp [hc]
    subst hl
    refine mass (f := fun cs n a => n.logPredict P fresh a h cs) (g := fun s a => P.logPredict s a h)
      ?_ ?_ (hP.normalised · h) ?_ ?_ hn
    · intro n a r b hb
      simp only [logPredict, hb, ok_bind, pure_eq_ok, probOf_ok]
      rw [← Real.exp_add, ← Real.exp_add]
      congr 1
      ring
    · intro c cs n a r b rc ch hb hch
      simp only [logPredict, hb, hch, ok_bind, pure_eq_ok, probOf_ok]
      rw [Real.exp_sub, exp_half_lse2, Real.exp_add, Real.exp_add, div_mul_cancel₀ _ (Real.exp_pos _).ne']
    · intro s a hs ha
      obtain ⟨r, b, hb, _⟩ := hP.predict_ok s a h hs ha
      exact ⟨r, b, hb⟩
    · intro cs n a hn ha
      obtain ⟨r, b, hb, _⟩ := hn.predict_ok hP.predict_ok ha h
      exact ⟨r, b, hb⟩

theorem updateLawful {I : σ → Prop} {A : List α} {W : ℝ → Prop} (hP : P.UpdateLawful I A W) {d : ℕ}
    {ctx : List α → List κ} (hc : ∀ h, (ctx h).length = d) :
    (CTW.predictor P fresh ctx).UpdateLawful (WF fresh I d) A W where
  total := by
    intro n a h w hn ha hw
    have hl : (ctx h).reverse.length = d := by simp [hc]
    subst hl
    exact hn.update_ok hP ha h hw
  normalised := by
    intro n h w hn hw f hf
    have hl : (ctx h).reverse.length = d := by simp [hc]
    subst hl
    rw [← mass (f := fun cs n a => n.update P fresh a h w cs) (g := fun s a => P.update s a h w)
      ?_ ?_ (fun s hs => hP.sum_probOf hs hw h) ?_ ?_ hn]
    · congr 1
      apply List.map_congr_left
      intro a ha
      obtain ⟨n', hn'⟩ := hf a ha
      change Real.exp (f a) = probOf ((CTW.predictor P fresh ctx).update n a h w)
      rw [hn', probOf_ok]
    · intro n a r b hb
      simp only [update, hb, ok_bind, pure_eq_ok, probOf_ok]
      rw [← Real.exp_add, ← Real.exp_add]
      congr 1
      ring
    · intro c cs n a r b rc ch hb hch
      simp only [update, hb, hch, ok_bind, pure_eq_ok, probOf_ok]
      rw [Real.exp_sub, exp_half_lse2, Real.exp_add, Real.exp_add, div_mul_cancel₀ _ (Real.exp_pos _).ne']
    · intro s a hs ha
      obtain ⟨r, b, hb, _⟩ := hP.total s a h w hs ha hw
      exact ⟨r, b, hb⟩
    · intro cs n a hn ha
      obtain ⟨r, b, hb, _⟩ := hn.update_ok hP ha h hw
      exact ⟨r, b, hb⟩

end CTWNode

section Regret

variable {κ β : Type} [Fintype κ] [DecidableEq κ]

theorem pruning_prob_nonneg {base : List β → ℝ} (hb : ∀ l, 0 ≤ base l) {d : ℕ} (t : Pruning κ d)
    (S : List (List κ × β)) : 0 ≤ t.prob base S := by
  induction t generalizing S with
  | leaf => exact hb _
  | split f ih => exact Finset.prod_nonneg (fun c _ => ih c _)

/-- The mixture dominates every pruning up to its description length. -/
theorem ctwProb_ge_pruning {base : List β → ℝ} (h1 : base [] = 1) (hb : ∀ l, 0 ≤ base l) {d : ℕ}
    (t : Pruning κ d) (S : List (List κ × β)) :
    (1/2 : ℝ) ^ t.cost * t.prob base S ≤ ctwProb base d S := by
  induction t generalizing S with
  | @leaf d =>
    cases d with
    | zero => simp [Pruning.cost, Pruning.prob, ctwProb]
    | succ d =>
      simp only [Pruning.cost, Pruning.prob, ctwProb, pow_one]
      have : 0 ≤ ∏ c ∈ heads S, ctwProb base d (subCtx c S) :=
        Finset.prod_nonneg (fun c _ => ctwProb_nonneg hb d _)
      linarith
  | @split d f ih =>
    simp only [Pruning.cost, Pruning.prob, ctwProb]
    rw [prod_heads_subset h1 d S (Finset.subset_univ _), pow_add, pow_one, mul_assoc,
      ← Finset.prod_pow_eq_pow_sum, ← Finset.prod_mul_distrib]
    have : ∏ c : κ, (1/2 : ℝ) ^ (f c).cost * (f c).prob base (subCtx c S) ≤
        ∏ c : κ, ctwProb base d (subCtx c S) :=
      Finset.prod_le_prod (fun c _ => mul_nonneg (by positivity) (pruning_prob_nonneg hb _ _))
        (fun c _ => ih c _)
    have := hb (S.map Prod.snd)
    linarith

end Regret

end Verif
