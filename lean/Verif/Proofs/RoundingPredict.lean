import Verif.Proofs.RoundingTower

/-! Rounding errors of `log_predict`. -/

namespace Verif

namespace Arith

variable {R : Arith} {ε : ℝ} {σ' σ α : Type} {β ρ G : ℝ} {Sim : Rel σ' σ} {f' : σ'} {f : σ} {P' : Predictor σ' α} {P : Predictor σ α}
  {A : Obs α → Prop} {T H h0 height : ℕ}

/-- What is asked of a base model: the predictions of a rounded and an exact one are near each other up to the errors that the states remember, and
leave the states as near as they were. -/
def PredSim (P' : Predictor σ' α) (P : Predictor σ α) (A : Obs α → Prop) (T : ℕ) (β ρ : ℝ) (Sim : Rel σ' σ) : Prop :=
  ∀ m s' s o, m < T → Sim.sim m s' s → A o → ∃ r' t' r t, P'.logPredict s' o.sym o.hist = .ok (r', t') ∧
    P.logPredict s o.sym o.hist = .ok (r, t) ∧ Sim.sim m t' t ∧ Sim.gap t' t = Sim.gap s' s ∧
    |(r' - r) + Sim.gap s' s| ≤ m * Sim.γ + β ∧ |r| ≤ ρ

theorem PredSim.mono (h : PredSim P' P A T β ρ Sim) {β' : ℝ} (hβ : β ≤ β') : PredSim P' P A T β' ρ Sim := by
  intro m s' s o hm hs ho
  obtain ⟨r', t', r, t, h1, h2, h3, h4, h5, h6⟩ := h m s' s o hm hs ho
  exact ⟨r', t', r, t, h1, h2, h3, h4, by linarith, h6⟩

/-- Models whose predictions are what `update` would return. -/
theorem BaseSim.predSim (h : BaseSim P' P A T β ρ Sim)
    (hP' : ∀ s a h w r t, P'.update s a h w = .ok (r, t) → P'.logPredict s a h = .ok (r, s))
    (hP : ∀ s a h w r t, P.update s a h w = .ok (r, t) → P.logPredict s a h = .ok (r, s)) : PredSim P' P A T β ρ Sim := by
  intro m s' s o hm hs ho
  obtain ⟨r', t', r, t, h1, h2, h3, h4, h5⟩ := h.step m s' s o hm hs ho
  refine ⟨r', s', r, s, hP' _ _ _ _ _ _ h1, hP _ _ _ _ _ _ h2, hs, rfl, ?_, h5⟩
  have g := abs_le.1 (h.gap _ _ _ h3)
  push_cast at g
  rw [abs_le] at h4 ⊢
  constructor <;> linarith [g.1, g.2, h4.1, h4.2]

/-- The prediction of the base model of a node. -/
theorem base_pred (hR : R.Accurate ε) {m : ℕ} {x' x r' r e γ : ℝ} (hx : |x| ≤ m * ρ) (hx' : |(x' - x) - e| ≤ m * (β - γ + ε * G))
    (hr : |r| ≤ ρ) (hr' : |(r' - r) + e| ≤ m * γ + β) (hG : (m + 1) * (ρ + (β + ε * G)) ≤ G) (hεG : 0 ≤ ε * G) :
    |x + r| ≤ (m + 1 : ℕ) * ρ ∧ |R.add x' r' - (x + r)| ≤ (m + 1 : ℕ) * (β + ε * G) := by
  have e0 := hR.nonneg
  push_cast
  have h1 : |x + r| ≤ (m + 1) * ρ := by
    have := abs_add_le x r
    linarith
  have h2 : |(x' + r') - (x + r)| ≤ m * (β + ε * G) + β := by
    calc |(x' + r') - (x + r)| = |((x' - x) - e) + ((r' - r) + e)| := by ring_nf
      _ ≤ _ := abs_add_le _ _
      _ ≤ _ := by linarith
  have h3 : |x' + r'| ≤ G := by
    have := abs_le_of_near h1 h2
    linarith
  refine ⟨h1, ?_⟩
  have h4 := hR.add x' r'
  have h5 := mul_le_mul_of_nonneg_left h3 e0
  calc |R.add x' r' - (x + r)| = |(R.add x' r' - (x' + r')) + ((x' + r') - (x + r))| := by ring_nf
    _ ≤ _ := abs_add_le _ _
    _ ≤ _ := by linarith

section CTW

variable {κ : Type} [DecidableEq κ] [Fintype κ]

theorem NodeSim.predict (hR : R.Accurate ε) {D : ℕ}
    (hB : PredSim P' P A T β ρ Sim) (hβ : 0 ≤ β) (hρ : 0 ≤ ρ) (hG0 : 0 ≤ G) (hG : T * (ρ + stepErr ε β G D) + 2 ≤ G)
    {o : Obs α} (ho : A o) (cs : List κ) {d m : ℕ} (hm : m < T) (hd : d ≤ D) (hcs : cs.length = d) {n' : CTWNode σ' κ} {n : CTWNode σ κ}
    (h : NodeSim Sim f' f ε β ρ G d m n' n) :
    ∃ y' q' y q, R.ctwLogPredict P' f' o.sym o.hist cs n' = .ok (R.sub y' n'.lp, q') ∧ n.logPredict P f o.sym o.hist cs = .ok (y - n.lp, q) ∧
      NodeSim Sim f' f ε β ρ G d m q' q ∧ q'.lp = n'.lp ∧ q.lp = n.lp ∧ |y| ≤ (m + 1 : ℕ) * ρ ∧
      |y' - y| ≤ (m + 1 : ℕ) * stepErr ε β G d ∧ |y - n.lp| ≤ ρ := by
  have e0 := hR.nonneg
  have hεG : 0 ≤ ε * G := mul_nonneg e0 hG0
  have hstep : ∀ d ≤ D, β + ε * G ≤ stepErr ε β G d ∧ stepErr ε β G d ≤ stepErr ε β G D := by
    intro d hd
    have h1 : (d : ℝ) ≤ D := by exact_mod_cast hd
    have hd0 : (0 : ℝ) ≤ d := Nat.cast_nonneg d
    have h2 := mul_le_mul_of_nonneg_right h1 hεG
    have h3 := mul_nonneg hd0 hεG
    constructor
    · simp only [stepErr]; linarith
    · simp only [stepErr]; linarith
  have hbound : ∀ (k : ℕ) (x : ℝ), k ≤ T → 0 ≤ x → x ≤ ρ + stepErr ε β G D → k * x + 2 ≤ G := by
    intro k x hk h0 hx
    have h1 : (k : ℝ) ≤ T := by exact_mod_cast hk
    have hk0 : (0 : ℝ) ≤ k := Nat.cast_nonneg k
    have : (k : ℝ) * x ≤ T * (ρ + stepErr ε β G D) := mul_le_mul h1 hx h0 (by linarith)
    linarith
  induction cs generalizing d m n' n with
  | nil =>
    subst hcs
    obtain ⟨h1, h2, h3, h3', h4, h5⟩ := h
    obtain ⟨r', t', r, t, hu', hu, hs, hg, hr', hr⟩ := hB m _ _ o hm h1 ho
    have hb := hbound (m + 1) (ρ + (β + ε * G)) hm (by linarith) (by linarith [(hstep 0 (by omega)).1, (hstep 0 (by omega)).2])
    push_cast at hb
    obtain ⟨g1, g2⟩ := base_pred hR h2 h3 hr hr' (by linarith) hεG
    refine ⟨R.add n'.baseLP r', .mk t' n'.baseLP n'.childrenLP n'.lp n'.children,
      n.baseLP + r, .mk t n.baseLP n.childrenLP n.lp n.children, ?_, ?_, ?_, rfl, rfl, g1, ?_, ?_⟩
    · rw [ctwLogPredict, hu']; rfl
    · rw [CTWNode.logPredict, hu]; rfl
    · exact ⟨hs, h2, by simp only [CTWNode.baseLP, CTWNode.base] at h3 ⊢; rw [hg]; exact h3, h3', h4, h5⟩
    · simpa [stepErr] using g2
    · rw [h4, add_sub_cancel_left]; exact hr
  | cons c cs ih =>
    subst hcs
    obtain ⟨h1, h2, h3, h3', h4, h5, k, hk, hc, hcl, hce⟩ := h
    obtain ⟨r', t', r, t, hu', hu, hs, hg, hr', hr⟩ := hB m _ _ o hm h1 ho
    rw [List.length_cons] at hd
    obtain ⟨s1, s2⟩ := hstep cs.length (by omega)
    obtain ⟨s3, s4⟩ := hstep (cs.length + 1) hd
    have s5 : stepErr ε β G (cs.length + 1) = stepErr ε β G cs.length + 11 * (ε * G) := by
      simp only [stepErr]
      push_cast
      ring
    have hb := hbound (m + 1) (ρ + (β + ε * G)) hm (by linarith) (by linarith)
    push_cast at hb
    obtain ⟨g1, g2⟩ := base_pred hR h2 h3 hr hr' (by linarith) hεG
    have hkc : k c ≤ m := hk ▸ Finset.single_le_sum (f := k) (fun _ _ => Nat.zero_le _) (Finset.mem_univ c)
    obtain ⟨y', q', y, q, hcu', hcu, hcn, hq', hq, hy, hy', hyl⟩ := ih (by omega) (by omega) rfl (hc c)
    have hch' : ∀ x, ((Function.update n'.children c (some q') x).getD (.new f')) = if x = c then q' else (n'.children x).getD (.new f') := by
      intro x
      by_cases hx : x = c
      · subst hx; simp
      · simp [hx]
    have hch : ∀ x, ((Function.update n.children c (some q) x).getD (.new f)) = if x = c then q else (n.children x).getD (.new f) := by
      intro x
      by_cases hx : x = c
      · subst hx; simp
      · simp [hx]
    have hnew : ∀ x, NodeSim Sim f' f ε β ρ G cs.length (k x)
        ((Function.update n'.children c (some q') x).getD (.new f')) ((Function.update n.children c (some q) x).getD (.new f)) := by
      intro x
      rw [hch', hch]
      by_cases hx : x = c
      · subst hx
        simpa using hcn
      · simpa [hx] using hc x
    have hlp' : ∀ x, ((Function.update n'.children c (some q') x).getD (.new f')).lp = ((n'.children x).getD (.new f')).lp := by
      intro x
      rw [hch']
      by_cases hx : x = c
      · subst hx; simpa using hq'
      · simp [hx]
    have hlp : ∀ x, ((Function.update n.children c (some q) x).getD (.new f)).lp = ((n.children x).getD (.new f)).lp := by
      intro x
      rw [hch]
      by_cases hx : x = c
      · subst hx; simpa using hq
      · simp [hx]
    -- the children with the prediction in the place of the one that was asked
    have hk' : ∑ x, Function.update k c (k c + 1) x = m + 1 := by rw [sum_bump, hk]
    have hk'' : (∑ x, ((Function.update k c (k c + 1) x : ℕ) : ℝ)) = m + 1 := by exact_mod_cast hk'
    set F' : κ → ℝ := fun x => if x = c then y' else ((n'.children x).getD (.new f')).lp with hF'
    set F : κ → ℝ := fun x => if x = c then y else ((n.children x).getD (.new f)).lp with hF
    have hsum : ∑ x, F x = ∑ x, ((n.children x).getD (.new f)).lp + (y - ((n.children c).getD (.new f)).lp) := by
      have := sum_change (F := F) (H := fun x => ((n.children x).getD (.new f)).lp) c (by intro x hx; simp [hF, hx])
      simpa [hF] using this
    have hsum' : ∑ x, F' x = ∑ x, ((n'.children x).getD (.new f')).lp + (y' - ((n'.children c).getD (.new f')).lp) := by
      have := sum_change (F := F') (H := fun x => ((n'.children x).getD (.new f')).lp) c (by intro x hx; simp [hF', hx])
      simpa [hF'] using this
    have hFb : ∀ x, |F x| ≤ (Function.update k c (k c + 1) x : ℕ) * ρ := by
      intro x
      by_cases hx : x = c
      · subst hx
        simpa [hF] using hy
      · simpa [hF, hx] using (hc x).lp.1
    have hFF : ∀ x, |F' x - F x| ≤ (Function.update k c (k c + 1) x : ℕ) * stepErr ε β G cs.length := by
      intro x
      by_cases hx : x = c
      · subst hx
        simpa [hF, hF'] using hy'
      · simpa [hF, hF', hx] using (hc x).lp.2
    set S' := ∑ x, F' x with hS'
    set S := ∑ x, F x with hS
    have hSb : |S| ≤ (m + 1) * ρ := by
      refine le_trans (Finset.abs_sum_le_sum_abs _ _) ?_
      refine le_trans (Finset.sum_le_sum fun x _ => hFb x) ?_
      rw [← Finset.sum_mul, hk'']
    have hSS : |S' - S| ≤ (m + 1) * stepErr ε β G cs.length := by
      rw [hS', hS, ← Finset.sum_sub_distrib]
      refine le_trans (Finset.abs_sum_le_sum_abs _ _) ?_
      refine le_trans (Finset.sum_le_sum fun x _ => hFF x) ?_
      rw [← Finset.sum_mul, hk'']
    -- the value which the child returns
    have hq1 : |y'| ≤ G := by
      have h8 := abs_le_of_near hy hy'
      have := hbound (k c + 1) (ρ + stepErr ε β G cs.length) (by omega) (by linarith) (by linarith)
      linarith
    have hq2 : |((n'.children c).getD (.new f')).lp| ≤ G := by
      have h7 := (hc c).lp
      have h8 := abs_le_of_near h7.1 h7.2
      have := hbound (k c) (ρ + stepErr ε β G cs.length) (by omega) (by linarith) (by linarith)
      linarith
    set rc' := R.sub y' ((n'.children c).getD (.new f')).lp with hrc'
    have hrc2 : |rc' - (y' - ((n'.children c).getD (.new f')).lp)| ≤ 2 * (ε * G) := by
      rw [hrc']
      refine le_trans (hR.sub _ _) ?_
      have := abs_sub y' ((n'.children c).getD (.new f')).lp
      have := mul_le_mul_of_nonneg_left (by linarith : |y' - ((n'.children c).getD (.new f')).lp| ≤ 2 * G) e0
      linarith
    have hpre : |(n'.childrenLP + rc') - S'| ≤ m * (3 * (ε * G)) + 2 * (ε * G) := by
      rw [hsum']
      calc |(n'.childrenLP + rc') - (∑ x, ((n'.children x).getD (.new f')).lp + (y' - ((n'.children c).getD (.new f')).lp))| =
            |(n'.childrenLP - ∑ x, ((n'.children x).getD (.new f')).lp) + (rc' - (y' - ((n'.children c).getD (.new f')).lp))| := by ring_nf
        _ ≤ _ := abs_add_le _ _
        _ ≤ _ := by linarith
    have hS'b := abs_le_of_near hSb hSS
    have hb2 := hbound (m + 1) (ρ + stepErr ε β G (cs.length + 1)) hm (by linarith) (by linarith)
    push_cast at hb2
    rw [s5] at hb2
    have hm0 : (0 : ℝ) ≤ m := Nat.cast_nonneg m
    have hmG := mul_nonneg hm0 hεG
    have hpreG : |n'.childrenLP + rc'| ≤ G := by
      have := abs_le_of_near hS'b hpre
      linarith
    have hcl' : |R.add n'.childrenLP rc' - S'| ≤ (m + 1) * (3 * (ε * G)) := by
      have h9 := hR.add n'.childrenLP rc'
      have h10 := mul_le_mul_of_nonneg_left hpreG e0
      calc |R.add n'.childrenLP rc' - S'| = |(R.add n'.childrenLP rc' - (n'.childrenLP + rc')) + ((n'.childrenLP + rc') - S')| := by ring_nf
        _ ≤ _ := abs_add_le _ _
        _ ≤ _ := by linarith
    set rc := y - ((n.children c).getD (.new f)).lp with hrc
    have hclp : n.childrenLP + rc = S := by rw [hcl, hrc, hsum]
    have hcc : |R.add n'.childrenLP rc' - (n.childrenLP + rc)| ≤ (m + 1) * (stepErr ε β G cs.length + 3 * (ε * G)) := by
      rw [hclp]
      calc |R.add n'.childrenLP rc' - S| = |(R.add n'.childrenLP rc' - S') + (S' - S)| := by ring_nf
        _ ≤ _ := abs_add_le _ _
        _ ≤ _ := by linarith
    push_cast at g1 g2
    have hbb : |R.add n'.baseLP r' - (n.baseLP + r)| ≤ (m + 1) * (stepErr ε β G cs.length + 3 * (ε * G)) :=
      le_trans g2 (mul_le_mul_of_nonneg_left (by linarith) (by linarith))
    have hbG := abs_le_of_near g1 hbb
    have hcG := abs_le_of_near (hclp ▸ hSb) hcc
    obtain ⟨l, hl, hln⟩ := half_near hR hbb hcc (G := G) (by linarith) (by linarith)
    refine ⟨R.add (R.log (1 / 2)) l, .mk t' n'.baseLP n'.childrenLP n'.lp (Function.update n'.children c (some q')),
      log05 + Verif.logsumexp2 (n.baseLP + r) (n.childrenLP + rc), .mk t n.baseLP n.childrenLP n.lp
        (Function.update n.children c (some q)), ?_, ?_, ?_, rfl, rfl, ?_, ?_, ?_⟩
    · rw [ctwLogPredict, hu']
      simp only [ok_bind, hcu']
      rw [hl]
      rfl
    · rw [CTWNode.logPredict, hu]
      simp only [ok_bind, hcu]
      rfl
    · refine ⟨hs, h2, ?_, h3', h4, h5, k, hk, hnew, ?_, ?_⟩
      · simp only [CTWNode.baseLP, CTWNode.base] at h3 ⊢
        rw [hg]
        exact h3
      · show n.childrenLP = ∑ x, ((Function.update n.children c (some q) x).getD (.new f)).lp
        rw [Finset.sum_congr rfl fun x _ => hlp x]
        exact hcl
      · show |n'.childrenLP - ∑ x, ((Function.update n'.children c (some q') x).getD (.new f')).lp| ≤ _
        rw [Finset.sum_congr rfl fun x _ => hlp' x]
        exact hce
    · push_cast
      exact half_bound g1 (hclp ▸ hSb)
    · refine le_trans hln ?_
      rw [List.length_cons, s5]
      push_cast
      linarith
    · rw [h4, add_sub_add_left_eq_sub]
      exact logsumexp2_lipschitz (by rw [add_sub_cancel_left]; exact hr) (by rw [add_sub_cancel_left]; exact hyl)

/-- `CTW` over a model whose predictions have small errors is one. -/
theorem PredSim.ctw (hR : R.Accurate ε) (hB : PredSim P' P A T β ρ Sim) (hβ : 0 ≤ β) (hρ : 0 ≤ ρ) (hG0 : 0 ≤ G) {D : ℕ}
    (hG : T * (ρ + stepErr ε β G D) + 2 ≤ G) (ctx : List α → List κ) (hc : ∀ h, (ctx h).length = D) :
    PredSim (R.ctwPredictor P' f' ctx) (CTW.predictor P f ctx) A T (stepErr ε β G D + 2 * (ε * G)) ρ (ctwRel Sim f' f ε β ρ G D) := by
  have e0 := hR.nonneg
  have hS : 0 ≤ stepErr ε β G D := by
    have h6 : 0 ≤ ε * G := mul_nonneg e0 hG0
    have h7 := mul_nonneg (Nat.cast_nonneg D : (0 : ℝ) ≤ D) h6
    simp only [stepErr]
    linarith
  have hbnd : ∀ (k : ℕ) (x : ℝ), k ≤ T → |x| ≤ k * ρ + k * stepErr ε β G D → |x| ≤ G := by
    intro k x hk hx
    have hk' : (k : ℝ) ≤ T := by exact_mod_cast hk
    have := mul_le_mul_of_nonneg_right hk' (by linarith : 0 ≤ ρ + stepErr ε β G D)
    linarith
  intro m n' n o hm hn ho
  replace hn : NodeSim Sim f' f ε β ρ G D m n' n := hn
  obtain ⟨y', q', y, q, h1, h2, h3, h4, h5, h6, h7, h8⟩ := hn.predict hR hB hβ hρ hG0 hG ho (ctx o.hist).reverse hm le_rfl
    (by rw [List.length_reverse]; exact hc o.hist)
  refine ⟨_, q', _, q, h1, h2, h3, ?_, ?_, h8⟩
  · show q'.lp - q.lp = n'.lp - n.lp
    rw [h4, h5]
  have b1 := hbnd (m + 1) y' (by omega) (abs_le_of_near h6 h7)
  have b2 := hbnd m n'.lp (by omega) (abs_le_of_near hn.lp.1 hn.lp.2)
  have b3 := sub_gap hR (x := y) (y := n.lp) rfl b1 b2
  show |R.sub y' n'.lp - (y - n.lp) + (n'.lp - n.lp)| ≤ m * stepErr ε β G D + (stepErr ε β G D + 2 * (ε * G))
  push_cast at h7
  rw [abs_le] at *
  constructor <;> linarith [b3.1, b3.2, h7.1, h7.2]

end CTW

section PTW

/-- A node whose base models were asked for a prediction. -/
def SameData {τ : Type} (d e : PTWData τ) : Prop :=
  d.height = e.height ∧ d.count = e.count ∧ d.baseLP = e.baseLP ∧ d.leftLP = e.leftLP ∧ d.lp = e.lp

theorem DataSim.predict {h c : ℕ} {d' : PTWData σ'} {d : PTWData σ} (hd : DataSim Sim ε β ρ G h c d' d) {t' : σ'} {t : σ} (ht : Sim.sim c t' t)
    (hg : Sim.gap t' t = Sim.gap d'.base d.base) : DataSim Sim ε β ρ G h c { d' with base := t' } { d with base := t } :=
  ⟨hd.height', hd.height, hd.count', hd.count, ht, hd.baseLP, by simpa only [hg] using hd.baseGap, hd.baseErr, hd.lp, hd.lpErr⟩

/-- The prediction of a complete node. -/
theorem complete_pred (hR : R.Accurate ε) (hβ : 0 ≤ β) (hρ : 0 ≤ ρ) (hεG : 0 ≤ ε * G)
    (hG : T * (ρ + ptwErr ε β G H) + 2 ≤ G) {h c : ℕ} (hc : c < T) (hH : h + 1 ≤ H) {d' : PTWData σ'} {d : PTWData σ}
    (hd : DataSim Sim ε β ρ G h c d' d) {z' z : ℝ} (hz : |z| ≤ (c + 1 : ℕ) * ρ) (hz' : |z' - z| ≤ (c + 1 : ℕ) * (β + ε * G)) :
    ∃ l, R.logsumexp2 z' d'.lp = .ok l ∧ |log05 + Verif.logsumexp2 z d.lp| ≤ (c + 1 : ℕ) * ρ ∧
      |R.add (R.log (1 / 2)) l - (log05 + Verif.logsumexp2 z d.lp)| ≤ (c + 1 : ℕ) * ptwErr ε β G (h + 1) := by
  have hc1 : (1 : ℝ) ≤ (c + 1 : ℕ) := by
    push_cast
    have : (0 : ℝ) ≤ c := Nat.cast_nonneg c
    linarith
  have hcc : (c : ℝ) ≤ (c + 1 : ℕ) := by push_cast; linarith
  have hB0 := base_le_ptwErr (β := β) hεG h
  have hE0 : 0 ≤ ptwErr ε β G h := by linarith
  have hEH1 : ptwErr ε β G (h + 1) ≤ ptwErr ε β G H := ptwErr_le hεG hH
  have hlp : |d.lp| ≤ (c + 1 : ℕ) * ρ := le_trans hd.lp (mul_le_mul_of_nonneg_right hcc hρ)
  have hlp' : |d'.lp - d.lp| ≤ (c + 1 : ℕ) * ptwErr ε β G h := le_trans hd.lpErr (mul_le_mul_of_nonneg_right hcc hE0)
  have hzz : |z' - z| ≤ (c + 1 : ℕ) * ptwErr ε β G h := le_trans hz' (mul_le_mul_of_nonneg_left hB0 (by linarith))
  have hroom := ptw_room (k := c + 1) (x := ρ + ptwErr ε β G (h + 1)) hβ hρ hεG hG hc (by linarith)
  rw [ptwErr_succ] at hroom ⊢
  have hεc : ε * G ≤ (c + 1 : ℕ) * (ε * G) := le_mul_of_one_le_left hεG hc1
  have q1 := abs_le_of_near hz hzz
  have q2 := abs_le_of_near hlp hlp'
  obtain ⟨l, hl, hln⟩ := half_near hR hzz hlp' (G := G) (by linarith) (by linarith)
  exact ⟨l, hl, half_bound hz hlp, by linarith⟩

/-- The prediction of a node. -/
theorem TreeSim.predict (hR : R.Accurate ε) (hB : PredSim P' P A T β ρ Sim) (hβ : 0 ≤ β) (hρ : 0 ≤ ρ) (hεG : 0 ≤ ε * G)
    (hG : T * (ρ + ptwErr ε β G H) + 2 ≤ G) {o : Obs α} (ho : A o) (hTH : T ≤ 2 ^ H) {h c : ℕ} {n' : PTWNode σ'} {n : PTWNode σ}
    (hs : TreeSim Sim ε β ρ G h0 h c n' n) (hc : c < T) (hh : h ≤ H) :
    ∃ y' z' q' y z q, R.ptwNodeLogPredict P' o.sym o.hist n' = .ok ((y', z', if 2 ^ h ≤ c then h + 1 else h), q') ∧
      n.logPredict P o.sym o.hist = .ok ((y, z, if 2 ^ h ≤ c then h + 1 else h), q) ∧ (if 2 ^ h ≤ c then h + 1 else h) ≤ H ∧
      TreeSim Sim ε β ρ G h0 h c q' q ∧ SameData q'.data n'.data ∧ SameData q.data n.data ∧ |z| ≤ (c + 1 : ℕ) * ρ ∧
      |z' - z| ≤ (c + 1 : ℕ) * (β + ε * G) ∧ |y| ≤ (c + 1 : ℕ) * ρ ∧
      |y' - y| ≤ (c + 1 : ℕ) * ptwErr ε β G (if 2 ^ h ≤ c then h + 1 else h) ∧ |z - n.data.baseLP| ≤ ρ ∧
      |y - (if 2 ^ h ≤ c then log05 + Verif.logsumexp2 n.data.baseLP n.data.lp else n.data.lp)| ≤ ρ := by
  have hup : ∀ h c : ℕ, c < T → 2 ^ h ≤ c → h + 1 ≤ H := by
    intro h c h1 h2
    have : 2 ^ h < 2 ^ H := by omega
    exact (Nat.pow_lt_pow_iff_right (by norm_num)).1 this
  have hbase : ∀ {h c : ℕ} {d' : PTWData σ'} {d : PTWData σ}, c < T → DataSim Sim ε β ρ G h c d' d → ∃ r' t' r t,
      P'.logPredict d'.base o.sym o.hist = .ok (r', t') ∧ P.logPredict d.base o.sym o.hist = .ok (r, t) ∧
      DataSim Sim ε β ρ G h c { d' with base := t' } { d with base := t } ∧ |d.baseLP + r| ≤ (c + 1 : ℕ) * ρ ∧
      |R.add d'.baseLP r' - (d.baseLP + r)| ≤ (c + 1 : ℕ) * (β + ε * G) ∧ |d.baseLP + r - d.baseLP| ≤ ρ := by
    intro h c d' d hc hd
    obtain ⟨r', t', r, t, h1, h2, h3, h4, h5, h6⟩ := hB c _ _ o hc hd.base ho
    have hroom := ptw_room (k := c + 1) (x := ρ + (β + ε * G)) hβ hρ hεG hG hc (by linarith [base_le_ptwErr (β := β) hεG H])
    push_cast at hroom
    obtain ⟨g1, g2⟩ := base_pred hR hd.baseLP hd.baseGap h6 h5 (by linarith) hεG
    exact ⟨r', t', r, t, h1, h2, hd.predict h3 h4, g1, g2, by rw [add_sub_cancel_left]; exact h6⟩
  induction hs with
  | @leaf c d' d hd hc2 hlp =>
    have ec' := complete_iff d'
    have ec := complete_iff d
    rw [hd.height', hd.count'] at ec'
    rw [hd.height, hd.count] at ec
    obtain ⟨r', t', r, t, h1, h2, h3, h4, h5, h6⟩ := hbase hc hd
    have hs' : TreeSim Sim ε β ρ G h0 h0 c (.leaf { d' with base := t' }) (.leaf { d with base := t }) := .leaf h3 hc2 hlp
    by_cases hcmp : 2 ^ h0 ≤ c
    · obtain ⟨l, k1, k2, k3⟩ := complete_pred hR hβ hρ hεG hG hc (hup _ _ hc hcmp) hd h4 h5
      simp only [if_pos hcmp]
      refine ⟨_, R.add d'.baseLP r', .leaf { d' with base := t' }, log05 + Verif.logsumexp2 (d.baseLP + r) d.lp, d.baseLP + r,
        .leaf { d with base := t }, ?_, ?_, hup _ _ hc hcmp, hs', ⟨rfl, rfl, rfl, rfl, rfl⟩, ⟨rfl, rfl, rfl, rfl, rfl⟩, h4, h5, k2, k3, h6, ?_⟩
      · rw [ptwNodeLogPredict, h1]
        simp only [ok_bind, if_pos (ec'.2 hcmp), k1, hd.height']
        rfl
      · rw [PTWNode.logPredict, h2]
        simp only [ok_bind, if_pos (ec.2 hcmp), hd.height]
        rfl
      · exact half_lipschitz h6 (by simpa [PTWNode.data] using hρ)
    · simp only [if_neg hcmp]
      refine ⟨_, R.add d'.baseLP r', .leaf { d' with base := t' }, d.baseLP + r, d.baseLP + r,
        .leaf { d with base := t }, ?_, ?_, hh, hs', ⟨rfl, rfl, rfl, rfl, rfl⟩, ⟨rfl, rfl, rfl, rfl, rfl⟩, h4, h5, h4,
        le_trans h5 (mul_le_mul_of_nonneg_left (base_le_ptwErr hεG h0) (Nat.cast_nonneg _)), h6, ?_⟩
      · rw [ptwNodeLogPredict, h1]
        simp only [ok_bind, if_neg (fun h => hcmp (ec'.1 h)), hd.height']
        rfl
      · rw [PTWNode.logPredict, h2]
        simp only [ok_bind, if_neg (fun h => hcmp (ec.1 h)), hd.height]
        rfl
      · show |d.baseLP + r - d.lp| ≤ ρ
        rw [hlp]
        exact h6
  | @inner h k j d' d r' r hd hl hl' hrs h1 h2 hhr h0h hlp ih =>
    have ec' := complete_iff d'
    have ec := complete_iff d
    rw [hd.height', hd.count'] at ec'
    rw [hd.height, hd.count] at ec
    obtain ⟨b', t', b, t, g1, g2, g3, g4, g5, g6⟩ := hbase hc hd
    by_cases hcmp : 2 ^ (h + 1) ≤ 2 ^ h + k
    · obtain ⟨l, k1, k2, k3⟩ := complete_pred hR hβ hρ hεG hG hc (hup _ _ hc hcmp) hd g4 g5
      simp only [if_pos hcmp]
      refine ⟨_, R.add d'.baseLP b', .inner { d' with base := t' } r', log05 + Verif.logsumexp2 (d.baseLP + b) d.lp, d.baseLP + b,
        .inner { d with base := t } r, ?_, ?_, hup _ _ hc hcmp, .inner g3 hl hl' hrs h1 h2 hhr h0h hlp, ⟨rfl, rfl, rfl, rfl, rfl⟩,
        ⟨rfl, rfl, rfl, rfl, rfl⟩, g4, g5, k2, k3, g6, ?_⟩
      · rw [ptwNodeLogPredict, g1]
        simp only [ok_bind, if_pos (ec'.2 hcmp), k1, hd.height']
        rfl
      · rw [PTWNode.logPredict, g2]
        simp only [ok_bind, if_pos (ec.2 hcmp), hd.height]
        rfl
      · exact half_lipschitz g6 (by simpa [PTWNode.data] using hρ)
    · have hk : k < 2 ^ h := by rw [pow_succ] at hcmp; omega
      obtain ⟨y', z', q', y, z, q, m1, m2, m3, m4, m5, m6, m7, m8, m9, m10, m11, m12⟩ := ih (by omega) (by omega)
      have hle : (if 2 ^ j ≤ k then j + 1 else j) ≤ h := by
        split
        · next hx =>
          have : 2 ^ j < 2 ^ h := by omega
          exact (Nat.pow_lt_pow_iff_right (by norm_num)).1 this
        · exact hhr
      have hcor : |PTWData.correct z (h - (if 2 ^ j ≤ k then j + 1 else j)) y - PTWData.correct r.data.baseLP (h - j) r.data.lp| ≤ ρ := by
        by_cases hkr : 2 ^ j ≤ k
        · simp only [if_pos hkr] at hle m12 ⊢
          rw [show h - j = (h - (j + 1)) + 1 by omega, PTWData.correct]
          exact correct_lipschitz m11 _ _ _ m12
        · simp only [if_neg hkr] at m12 ⊢
          exact correct_lipschitz m11 _ _ _ m12
      generalize (if 2 ^ j ≤ k then j + 1 else j) = g at *
      simp only [if_neg hcmp]
      -- the numbers
      have hk1 : (1 : ℝ) ≤ (k + 1 : ℕ) := by
        push_cast
        have : (0 : ℝ) ≤ k := Nat.cast_nonneg k
        linarith
      have hEm := ptwErr_mono (β := β) hεG hle
      have hEH : ptwErr ε β G h ≤ ptwErr ε β G H := ptwErr_le hεG (by omega)
      have hEH1 : ptwErr ε β G (h + 1) ≤ ptwErr ε β G H := ptwErr_le hεG hh
      have hB0 := base_le_ptwErr (β := β) hεG g
      have hB1 := base_le_ptwErr (β := β) hεG h
      have hdiff : (0 : ℝ) ≤ (h - g : ℕ) * (8 * (ε * G)) := by positivity
      have hkE : (k + 1 : ℕ) * ptwErr ε β G g + (h - g : ℕ) * (8 * (ε * G)) ≤ (k + 1 : ℕ) * ptwErr ε β G h := by
        have := mul_le_mul_of_nonneg_left hEm (by linarith : (0 : ℝ) ≤ (k + 1 : ℕ))
        have := mul_le_mul_of_nonneg_right hk1 hdiff
        linarith
      have hroomk := ptw_room (k := k + 1) (x := ρ + ptwErr ε β G h) hβ hρ hεG hG (by omega) (by linarith)
      obtain ⟨x, hx, hxn, hxM⟩ := ptwCorrect_near hR hεG m7 (h - g) y' y ((k + 1 : ℕ) * ptwErr ε β G g)
        (le_trans m8 (mul_le_mul_of_nonneg_left hB0 (by linarith))) m10 m9 (by linarith)
      have hc' : ((2 ^ h : ℕ) : ℝ) + (k + 1 : ℕ) = (2 ^ h + k + 1 : ℕ) := by push_cast; ring
      set Y := PTWData.correct z (h - g) y with hY
      have hsum : |d.leftLP + Y| ≤ (2 ^ h + k + 1 : ℕ) * ρ := by
        refine le_trans (abs_add_le _ _) ?_
        rw [← hc', add_mul]
        linarith
      have hsum' : |(d'.leftLP + x) - (d.leftLP + Y)| ≤ (2 ^ h + k + 1 : ℕ) * ptwErr ε β G h := by
        calc |(d'.leftLP + x) - (d.leftLP + Y)| = |(d'.leftLP - d.leftLP) + (x - Y)| := by ring_nf
          _ ≤ _ := abs_add_le _ _
          _ ≤ _ := by rw [← hc', add_mul]; linarith
      have hroomc := ptw_room (k := 2 ^ h + k + 1) (x := ρ + ptwErr ε β G (h + 1)) hβ hρ hεG hG hc (by linarith)
      rw [ptwErr_succ] at hroomc ⊢
      have hc1 : (1 : ℝ) ≤ (2 ^ h + k + 1 : ℕ) := by
        rw [← hc']
        have : (0 : ℝ) ≤ (2 ^ h : ℕ) := Nat.cast_nonneg _
        linarith
      generalize hC : ((2 ^ h + k + 1 : ℕ) : ℝ) = C at *
      have hεc : ε * G ≤ C * (ε * G) := le_mul_of_one_le_left hεG hc1
      have hpre := abs_le_of_near hsum hsum'
      have hadd : |R.add d'.leftLP x - (d.leftLP + Y)| ≤ C * ptwErr ε β G h + ε * G := by
        have w1 := hR.add d'.leftLP x
        have w2 := mul_le_mul_of_nonneg_left (by linarith : |d'.leftLP + x| ≤ G) hR.nonneg
        calc |R.add d'.leftLP x - (d.leftLP + Y)| = |(R.add d'.leftLP x - (d'.leftLP + x)) + ((d'.leftLP + x) - (d.leftLP + Y))| := by ring_nf
          _ ≤ _ := abs_add_le _ _
          _ ≤ _ := by linarith
      have hbb : |R.add d'.baseLP b' - (d.baseLP + b)| ≤ C * ptwErr ε β G h + ε * G := by
        have := mul_le_mul_of_nonneg_left hB1 (by linarith : (0 : ℝ) ≤ C)
        linarith
      have hbG := abs_le_of_near g4 hbb
      have hcG := abs_le_of_near hsum hadd
      obtain ⟨l, hl1, hln⟩ := half_near hR hbb hadd (G := G) (by linarith) (by linarith)
      have hrd := m4.data
      refine ⟨R.add (R.log (1 / 2)) l, R.add d'.baseLP b', .inner { d' with base := t' } q',
        log05 + Verif.logsumexp2 (d.baseLP + b) (d.leftLP + Y), d.baseLP + b, .inner { d with base := t } q, ?_, ?_, hh,
        .inner g3 hl hl' m4 h1 h2 hhr h0h ?_, ⟨rfl, rfl, rfl, rfl, rfl⟩, ⟨rfl, rfl, rfl, rfl, rfl⟩, g4, g5, half_bound g4 hsum,
        by linarith, g6, ?_⟩
      · rw [ptwNodeLogPredict, g1]
        simp only [ok_bind, if_neg (fun h => hcmp (ec'.1 h)), m1, hd.height', show h + 1 - g - 1 = h - g by omega, hx, hl1]
        rfl
      · rw [PTWNode.logPredict, g2]
        simp only [ok_bind, if_neg (fun h => hcmp (ec.1 h)), m2, hd.height, show h + 1 - g - 1 = h - g by omega]
        rfl
      · rw [m6.2.2.1, m6.2.2.2.2]
        exact hlp
      · show |_ - d.lp| ≤ ρ
        rw [hlp]
        refine half_lipschitz g6 ?_
        rw [add_sub_add_left_eq_sub]
        exact hcor

/-- `PTWFixedLength` over a model whose predictions have small errors is one, up to its length. -/
theorem PredSim.fixed (hR : R.Accurate ε) (hB : PredSim P' P A T β ρ Sim) (hβ : 0 ≤ β) (hρ : 0 ≤ ρ) (hεG : 0 ≤ ε * G)
    (hG : T * (ρ + ptwErr ε β G height) + 2 ≤ G) (hTH : T ≤ 2 ^ height) :
    PredSim (R.ptwFixedPredictor P' f' h0 height) (PTWFixedLength.predictor P f h0 height) A T (ptwErr ε β G height + 2 * (ε * G)) ρ
      (fixedRel Sim ε β ρ G h0 height) := by
  rintro m s' s o hm ⟨⟨⟨h, hh, ht⟩, hl, hl'⟩, hs1⟩ ho
  obtain ⟨y', z', q', y, z, q, m1, m2, m3, m4, m5, m6, m7, m8, m9, m10, m11, m12⟩ := ht.predict hR hB hβ hρ hεG hG ho hTH hm hh
  have hstep : |PTWData.correct z (height - (if 2 ^ h ≤ m then h + 1 else h)) y - s.logProb| ≤ ρ := by
    rw [hs1, ht.data.height]
    by_cases hc : 2 ^ h ≤ m
    · have : h < height := (Nat.pow_lt_pow_iff_right (by norm_num : 1 < 2)).1 (by omega)
      simp only [if_pos hc] at m12 ⊢
      rw [show height - h = (height - (h + 1)) + 1 by omega, PTWData.correct]
      exact correct_lipschitz m11 _ _ _ m12
    · simp only [if_neg hc] at m12 ⊢
      exact correct_lipschitz m11 _ _ _ m12
  generalize (if 2 ^ h ≤ m then h + 1 else h) = g at *
  have hm1 : (1 : ℝ) ≤ (m + 1 : ℕ) := by
    push_cast
    have : (0 : ℝ) ≤ m := Nat.cast_nonneg m
    linarith
  have hroom := ptw_room (k := m + 1) (x := ρ + ptwErr ε β G height) hβ hρ hεG hG hm le_rfl
  have hroom0 := ptw_room (k := m) (x := ρ + ptwErr ε β G height) hβ hρ hεG hG hm.le le_rfl
  have hdiff : (0 : ℝ) ≤ (height - g : ℕ) * (8 * (ε * G)) := by positivity
  have hmE : (m + 1 : ℕ) * ptwErr ε β G g + (height - g : ℕ) * (8 * (ε * G)) ≤ (m + 1 : ℕ) * ptwErr ε β G height := by
    have := mul_le_mul_of_nonneg_left (ptwErr_mono (β := β) hεG m3) (by linarith : (0 : ℝ) ≤ (m + 1 : ℕ))
    have := mul_le_mul_of_nonneg_right hm1 hdiff
    linarith
  obtain ⟨x, hx, hxn, hxM⟩ := ptwCorrect_near hR hεG m7 (height - g) y' y ((m + 1 : ℕ) * ptwErr ε β G g)
    (le_trans m8 (mul_le_mul_of_nonneg_left (base_le_ptwErr hεG g) (by linarith))) m10 m9 (by linarith)
  set Y := PTWData.correct z (height - g) y with hY
  have hxE : |x - Y| ≤ (m + 1 : ℕ) * ptwErr ε β G height := by linarith
  refine ⟨R.sub x s'.logProb, ⟨q', s'.logProb, s'.adj⟩, Y - s.logProb, ⟨q, s.logProb, s.adj⟩, ?_, ?_, ⟨⟨⟨h, hh, m4⟩, hl, hl'⟩, ?_⟩, rfl, ?_, hstep⟩
  · show R.ptwFixedLogPredict P' height s' o.sym o.hist = _
    rw [ptwFixedLogPredict, m1]
    simp only [ok_bind, hx]
    rfl
  · show PTWFixedLength.logPredict P height s o.sym o.hist = _
    rw [PTWFixedLength.logPredict, m2]
    rfl
  · show s.logProb = PTWData.correct q.data.baseLP (height - q.data.height) q.data.lp
    rw [m6.1, m6.2.2.1, m6.2.2.2.2]
    exact hs1
  · have b1 := abs_le_of_near hxM hxE
    have b2 := abs_le_of_near hl hl'
    have b3 := sub_gap hR (x := Y) (y := s.logProb) rfl (by linarith : |x| ≤ G) (by linarith : |s'.logProb| ≤ G)
    show |R.sub x s'.logProb - (Y - s.logProb) + (s'.logProb - s.logProb)| ≤ m * ptwErr ε β G height + (ptwErr ε β G height + 2 * (ε * G))
    push_cast at hxE
    clear_value Y
    rw [abs_le] at b3 hxE ⊢
    constructor <;> linarith [b3.1, b3.2, hxE.1, hxE.2]

/-- `PTW` over a model whose predictions have small errors is one. -/
theorem PredSim.ptw (hR : R.Accurate ε) (hB : PredSim P' P A T β ρ Sim) (hβ : 0 ≤ β) (hρ : 0 ≤ ρ) (hεG : 0 ≤ ε * G)
    (hG : T * (8 * (ρ + ptwErr ε β G H + 5 * (ε * G))) + 2 ≤ G) (hTH : T ≤ 2 ^ H) :
    PredSim (R.ptwPredictor P' f' h0) (PTW.predictor P f h0) A T (5 * ptwErr ε β G H + 23 * (ε * G)) ρ (rootRel Sim ε β ρ G h0 H) := by
  rintro m s' s o hm ⟨⟨⟨h, hh, ht, ha, ha'⟩, hl, hl'⟩, hs1⟩ ho
  have e0 := hR.nonneg
  have hE0 : 0 ≤ ptwErr ε β G H := by linarith [base_le_ptwErr (β := β) hεG H]
  set E := ptwErr ε β G H with hE
  have hG1 : T * (ρ + ptwErr ε β G H) + 2 ≤ G := by
    have : (T : ℝ) * (ρ + E) ≤ T * (8 * (ρ + E + 5 * (ε * G))) := mul_le_mul_of_nonneg_left (by linarith) (Nat.cast_nonneg T)
    linarith
  have hT : ∀ {k : ℕ} {x : ℝ}, k ≤ T → 0 ≤ x → k * x ≤ T * x := fun hk hx => mul_le_mul_of_nonneg_right (by exact_mod_cast hk) hx
  have hT1 : (1 : ℝ) ≤ T := by exact_mod_cast (by omega : 1 ≤ T)
  have hεT : ε * G ≤ T * (ε * G) := le_mul_of_one_le_left hεG hT1
  obtain ⟨y', z', q', y, z, q, m1, m2, m3, m4, m5, m6, m7, m8, m9, m10, m11, m12⟩ := ht.predict hR hB hβ hρ hεG hG1 ho hTH hm hh
  have hd := ht.data
  have ec' := complete_iff s'.tree.data
  have ec := complete_iff s.tree.data
  rw [hd.height', hd.count'] at ec'
  rw [hd.height, hd.count] at ec
  have hstep : |y + s.adjusted - s.logProb| ≤ ρ := by
    rw [hs1, PTW.adjusted]
    by_cases hc : 2 ^ h ≤ m
    · rw [if_pos hc] at m12
      rw [if_pos (ec.2 hc)]
      calc |y + (s.adj + (s.tree.data.lp - (log05 + Verif.logsumexp2 s.tree.data.baseLP s.tree.data.lp))) - (s.tree.data.lp + s.adj)| =
            |y - (log05 + Verif.logsumexp2 s.tree.data.baseLP s.tree.data.lp)| := by ring_nf
        _ ≤ ρ := m12
    · rw [if_neg hc] at m12
      rw [if_neg (fun h => hc (ec.1 h))]
      calc |y + s.adj - (s.tree.data.lp + s.adj)| = |y - s.tree.data.lp| := by ring_nf
        _ ≤ ρ := m12
  have hEh : ptwErr ε β G h ≤ E := ptwErr_le hεG hh
  have hsize : (2 : ℝ) ^ h - 2 ^ h0 ≤ 2 * m := by
    have : ((2 ^ h : ℕ) : ℝ) ≤ ((2 ^ h0 + 2 * m : ℕ) : ℝ) := by exact_mod_cast ht.size
    push_cast at this
    linarith
  have hm0 : (0 : ℝ) ≤ m := Nat.cast_nonneg m
  have r1 := hT hm.le (by linarith : 0 ≤ ρ)
  have r2 := hT hm.le hE0
  have r3 := hT hm.le hεG
  have hTρ : 0 ≤ T * ρ := by positivity
  have hTE : 0 ≤ T * E := by positivity
  have hTe : 0 ≤ T * (ε * G) := by positivity
  -- the adjustment
  have hadj : ∃ b', R.ptwAdjustedPredict s' = .ok b' ∧ |s.adjusted| ≤ m * (4 * ρ) ∧ |b' - s.adjusted| ≤ m * (4 * E + 20 * (ε * G)) := by
    by_cases hc : 2 ^ h ≤ m
    · have hmh : m = 2 ^ h := le_antisymm ht.count_le hc
      have hmh' : (m : ℝ) = 2 ^ h := by rw [hmh]; push_cast; rfl
      have hm1 : (1 : ℝ) ≤ m := by
        rw [hmh']
        exact one_le_pow₀ (by norm_num)
      have hεm : ε * G ≤ m * (ε * G) := le_mul_of_one_le_left hεG hm1
      have hmE : m * ptwErr ε β G h ≤ m * E := mul_le_mul_of_nonneg_left hEh (Nat.cast_nonneg m)
      have hbase : |s'.tree.data.baseLP - s.tree.data.baseLP| ≤ m * E :=
        le_trans hd.baseErr (mul_le_mul_of_nonneg_left (by linarith [base_le_ptwErr (β := β) hεG H]) (Nat.cast_nonneg m))
      have hlpe : |s'.tree.data.lp - s.tree.data.lp| ≤ m * E := le_trans hd.lpErr hmE
      have q1 := abs_le_of_near hd.baseLP hbase
      have q2 := abs_le_of_near hd.lp hlpe
      obtain ⟨l, hl1, hln⟩ := half_near hR hbase hlpe (G := G) (by linarith) (by linarith)
      have hhalf := half_bound hd.baseLP hd.lp
      set L' := R.add (R.log (1 / 2)) l
      set L := log05 + Verif.logsumexp2 s.tree.data.baseLP s.tree.data.lp
      have hL' := abs_le_of_near hhalf hln
      have w3 : (2 ^ h - 2 ^ h0) * (2 * ρ) ≤ m * (2 * ρ) := by
        rw [hmh']
        exact mul_le_mul_of_nonneg_right (by linarith [pow_pos (by norm_num : (0 : ℝ) < 2) h0]) (by linarith)
      have w4 : (2 ^ h - 2 ^ h0) * (2 * E + 10 * (ε * G)) ≤ m * (2 * E + 10 * (ε * G)) := by
        rw [hmh']
        exact mul_le_mul_of_nonneg_right (by linarith [pow_pos (by norm_num : (0 : ℝ) < 2) h0]) (by linarith)
      have a1 : |s.adj| ≤ m * (2 * ρ) := le_trans ha w3
      have a2 : |s'.adj - s.adj| ≤ m * (2 * E + 10 * (ε * G)) := le_trans ha' w4
      have s1 := abs_le_of_near a1 a2
      have d1 : |s'.adj + s'.tree.data.lp| ≤ G := by
        have := abs_add_le s'.adj s'.tree.data.lp
        linarith
      have d2 : |R.add s'.adj s'.tree.data.lp - (s.adj + s.tree.data.lp)| ≤ m * (3 * E + 10 * (ε * G)) + ε * G := by
        have g1 := hR.add s'.adj s'.tree.data.lp
        have g2 := mul_le_mul_of_nonneg_left d1 e0
        rw [abs_le] at g1 a2 hlpe ⊢
        constructor <;> linarith [g1.1, g1.2, a2.1, a2.2, hlpe.1, hlpe.2]
      have d3 : |s.adj + s.tree.data.lp| ≤ m * (3 * ρ) := by
        have := abs_add_le s.adj s.tree.data.lp
        linarith [hd.lp]
      have d4 := abs_le_of_near d3 d2
      have d5 : |R.add s'.adj s'.tree.data.lp - L'| ≤ G := by
        have := abs_sub (R.add s'.adj s'.tree.data.lp) L'
        linarith
      refine ⟨R.sub (R.add s'.adj s'.tree.data.lp) L', ?_, ?_, ?_⟩
      · rw [ptwAdjustedPredict, if_pos (ec'.2 hc), hl1]
        rfl
      · rw [PTW.adjusted, if_pos (ec.2 hc)]
        have k1 := abs_sub (s.adj + s.tree.data.lp) L
        calc |s.adj + (s.tree.data.lp - L)| = |s.adj + s.tree.data.lp - L| := by ring_nf
          _ ≤ _ := by linarith
      · rw [PTW.adjusted, if_pos (ec.2 hc)]
        have g1 := hR.sub (R.add s'.adj s'.tree.data.lp) L'
        have g2 := mul_le_mul_of_nonneg_left d5 e0
        show |R.sub (R.add s'.adj s'.tree.data.lp) L' - (s.adj + (s.tree.data.lp - L))| ≤ _
        rw [abs_le] at g1 d2 hln ⊢
        constructor <;> linarith [g1.1, g1.2, d2.1, d2.2, hln.1, hln.2]
    · refine ⟨s'.adj, ?_, ?_, ?_⟩
      · rw [ptwAdjustedPredict, if_neg (fun h => hc (ec'.1 h))]
      · rw [PTW.adjusted, if_neg (fun h => hc (ec.1 h))]
        have := mul_le_mul_of_nonneg_right hsize (by linarith : 0 ≤ 2 * ρ)
        linarith
      · rw [PTW.adjusted, if_neg (fun h => hc (ec.1 h))]
        have := mul_le_mul_of_nonneg_right hsize (by linarith : 0 ≤ 2 * E + 10 * (ε * G))
        linarith
  obtain ⟨b', j1, j2, j3⟩ := hadj
  have hyE : |y' - y| ≤ (m + 1 : ℕ) * E := le_trans m10 (mul_le_mul_of_nonneg_left (ptwErr_le hεG m3) (Nat.cast_nonneg _))
  have r4 := hT hm (by linarith : 0 ≤ ρ)
  have r5 := hT hm hE0
  have r6 := hT hm hεG
  push_cast at hyE m9 r4 r5 r6
  have hsum : |y + s.adjusted| ≤ (m + 1) * (5 * ρ) := by
    have := abs_add_le y s.adjusted
    linarith
  have hsum' : |(y' + b') - (y + s.adjusted)| ≤ (m + 1) * (5 * E) + m * (20 * (ε * G)) := by
    rw [abs_le] at hyE j3 ⊢
    constructor <;> linarith [hyE.1, hyE.2, j3.1, j3.2]
  have hsG : |y' + b'| ≤ G := by
    have := abs_le_of_near hsum hsum'
    linarith
  have hlast : |R.add y' b' - (y + s.adjusted)| ≤ (m + 1) * (5 * E + 21 * (ε * G)) := by
    have g1 := abs_le.1 (hR.add y' b')
    have g2 := mul_le_mul_of_nonneg_left hsG e0
    have hme : 0 ≤ m * (ε * G) := mul_nonneg hm0 hεG
    rw [abs_le] at hsum' ⊢
    constructor <;> linarith [g1.1, g1.2, hsum'.1, hsum'.2]
  refine ⟨R.sub (R.add y' b') s'.logProb, ⟨q', s'.logProb, s'.adj⟩, y + s.adjusted - s.logProb, ⟨q, s.logProb, s.adj⟩, ?_, ?_,
    ⟨⟨⟨h, hh, m4, ha, ha'⟩, hl, hl'⟩, ?_⟩, rfl, ?_, hstep⟩
  · show R.ptwLogPredict P' s' o.sym o.hist = _
    rw [ptwLogPredict, j1, ok_bind, m1]
    rfl
  · show PTW.logPredict P s o.sym o.hist = _
    rw [PTW.logPredict, m2]
    rfl
  · show s.logProb = q.data.lp + s.adj
    rw [m6.2.2.2.2]
    exact hs1
  · have b1 := abs_le_of_near hsum hlast
    have b2 := abs_le_of_near hl hl'
    have b3 := sub_gap hR (x := y + s.adjusted) (y := s.logProb) rfl (by linarith : |R.add y' b'| ≤ G) (by linarith : |s'.logProb| ≤ G)
    show |R.sub (R.add y' b') s'.logProb - (y + s.adjusted - s.logProb) + (s'.logProb - s.logProb)| ≤
      m * (5 * E + 21 * (ε * G)) + (5 * E + 23 * (ε * G))
    rw [abs_le] at b3 hlast ⊢
    constructor <;> linarith [b3.1, b3.2, hlast.1, hlast.2]

end PTW

end Arith

end Verif
