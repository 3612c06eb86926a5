import Verif.Proofs.Rounding
import Verif.Proofs.CTW

/-! Rounding errors of `KTBinary` and `CTW`. -/

namespace Verif

namespace Arith

variable {R : Arith} {ε : ℝ}

/-! ### KT -/

/-- A rounded and an exact `KTBinary` after the same `m` updates of weight 1. -/
structure KtSim (ε : ℝ) (m : ℕ) (s' s : KTBinary) : Prop where
  c0 : Near (2 * ε * m) s'.c0 s.c0
  c1 : Near (2 * ε * m) s'.c1 s.c1
  h0 : 1 / 2 ≤ s.c0
  h1 : 1 / 2 ≤ s.c1
  sum : s.c0 + s.c1 = 1 + m

theorem KtSim.init : KtSim ε 0 (KTBinary.init none) (KTBinary.init none) := by
  refine ⟨?_, ?_, le_rfl, le_rfl, ?_⟩
  · simpa using Near.refl (by norm_num [KTBinary.init] : (0 : ℝ) < (KTBinary.init none).c0)
  · simpa using Near.refl (by norm_num [KTBinary.init] : (0 : ℝ) < (KTBinary.init none).c1)
  · norm_num [KTBinary.init]

theorem KtSim.get {m : ℕ} {s' s : KTBinary} (h : KtSim ε m s' s) (b : Bool) :
    Near (2 * ε * m) (s'.get b) (s.get b) ∧ 1 / 2 ≤ s.get b ∧ s.get b ≤ 1 + m := by
  have := h.sum
  have := h.h0
  have := h.h1
  cases b
  · exact ⟨h.c0, h.h0, by simp only [KTBinary.get, Bool.false_eq_true, if_false]; linarith⟩
  · exact ⟨h.c1, h.h1, by simp only [KTBinary.get, if_true]; linarith⟩

theorem KtSim.predict (hR : R.Accurate ε) {m : ℕ} {s' s : KTBinary} (h : KtSim ε m s' s) (b : Bool) :
    ∃ r' r, R.ktLogPredict s' b = .ok r' ∧ s.logPredict b = .ok r ∧ |r' - r| ≤ ε * |r| + 5 * ε * (m + 1) ∧
      |r| ≤ Real.log (2 * (m + 1)) := by
  have e0 := hR.nonneg
  have e1 := hR.small
  obtain ⟨hb, hb1, hb2⟩ := h.get b
  have hsum := (h.c0.add h.c1).round hR (hR.add s'.c0 s'.c1)
  have hq := (hb.div hsum).round hR (hR.div (s'.get b) (R.add s'.c0 s'.c1) hsum.pos.ne')
  have hq' : Near (4 * ε * (m + 1)) (R.div (s'.get b) (R.add s'.c0 s'.c1)) (s.get b / (s.c0 + s.c1)) := hq.mono (by linarith)
  have hsp : 0 < s.c0 + s.c1 := hsum.1
  refine ⟨R.log (R.div (s'.get b) (R.add s'.c0 s'.c1)), Real.log (s.get b / (s.c0 + s.c1)), ?_, ?_, ?_, ?_⟩
  · rw [ktLogPredict, Arith.pyDiv, if_neg hsum.pos.ne', ok_bind, Arith.pyLog, if_pos hq.pos]
  · rw [KTBinary.logPredict, pyDiv_of_ne hsp.ne', ok_bind, pyLog_of_pos hq.1]
  · have h1 := hR.log _ hq.pos
    have h2 := hq'.log
    generalize Real.log (R.div (s'.get b) (R.add s'.c0 s'.c1)) = x at *
    generalize Real.log (s.get b / (s.c0 + s.c1)) = y at *
    have h3 : |x| ≤ |y| + 4 * ε * (m + 1) := by
      calc |x| = |(x - y) + y| := by ring_nf
        _ ≤ _ := abs_add_le _ _
        _ ≤ _ := by linarith
    have hm : (0 : ℝ) ≤ m := Nat.cast_nonneg m
    have h4 : ε * (4 * ε * (m + 1)) ≤ ε * (m + 1) := by
      have : 4 * ε * (m + 1) ≤ 1 * ((m : ℝ) + 1) := by nlinarith
      nlinarith
    calc |R.log (R.div (s'.get b) (R.add s'.c0 s'.c1)) - y| = |(R.log (R.div (s'.get b) (R.add s'.c0 s'.c1)) - x) + (x - y)| := by ring_nf
      _ ≤ _ := abs_add_le _ _
      _ ≤ ε * (|y| + 4 * ε * (m + 1)) + 4 * ε * (m + 1) := by
        have := mul_le_mul_of_nonneg_left h3 e0
        linarith
      _ ≤ ε * |y| + 5 * ε * (m + 1) := by linarith
  · rw [h.sum]
    have hm : (0 : ℝ) ≤ m := Nat.cast_nonneg m
    have hle : s.get b / (1 + m) ≤ 1 := (div_le_one (by linarith)).mpr hb2
    have hpos : 0 < s.get b / (1 + m) := div_pos (by linarith) (by linarith)
    rw [abs_of_nonpos (Real.log_nonpos hpos.le hle), ← Real.log_inv, inv_div]
    apply Real.log_le_log (div_pos (by linarith) (by linarith))
    rw [div_le_iff₀ (by linarith)]
    nlinarith

theorem KtSim.bump (hR : R.Accurate ε) {m : ℕ} {s' s : KTBinary} (h : KtSim ε m s' s) (b : Bool) :
    KtSim ε (m + 1) (R.ktBump s' b 1) (s.bump b 1) := by
  have e0 := hR.nonneg
  have hm : (0 : ℝ) ≤ m := Nat.cast_nonneg m
  have h1 : Near (2 * ε * m) 1 1 := (Near.refl one_pos).mono (by positivity)
  have he : 2 * ε * m + 2 * ε = 2 * ε * ((m + 1 : ℕ) : ℝ) := by push_cast; ring
  have hs := h.sum
  have g0 := h.h0
  have g1 := h.h1
  cases b
  · refine ⟨?_, ?_, ?_, ?_, ?_⟩
    · have := (h.c0.add h1).round hR (hR.add s'.c0 1)
      rw [he] at this
      simpa [ktBump, KTBinary.bump] using this
    · simpa [ktBump, KTBinary.bump] using h.c1.mono (by push_cast; nlinarith)
    · simp only [KTBinary.bump, Bool.false_eq_true, if_false]; linarith
    · simpa [KTBinary.bump] using h.h1
    · simp only [KTBinary.bump, Bool.false_eq_true, if_false]; push_cast; linarith
  · refine ⟨?_, ?_, ?_, ?_, ?_⟩
    · simpa [ktBump, KTBinary.bump] using h.c0.mono (by push_cast; nlinarith)
    · have := (h.c1.add h1).round hR (hR.add s'.c1 1)
      rw [he] at this
      simpa [ktBump, KTBinary.bump] using this
    · simpa [KTBinary.bump] using h.h0
    · simp only [KTBinary.bump, if_true]; linarith
    · simp only [KTBinary.bump, if_true]; push_cast; linarith

/-! ### CTW -/

/-- A relation between the states of a rounded and an exact model after the same number of updates.  `gap` is an error that the states remember: it
is in the sum of the values returned so far, and does not add up.  It grows by at most `γ` in each update. -/
structure Rel (σ' σ : Type) where
  sim : ℕ → σ' → σ → Prop
  gap : σ' → σ → ℝ
  γ : ℝ

/-- What is asked of a base model: a rounded and an exact one stay near each other for `T` updates. -/
structure BaseSim {σ' σ α : Type} (P' : Predictor σ' α) (P : Predictor σ α) (A : Obs α → Prop) (T : ℕ) (β ρ : ℝ) (Sim : Rel σ' σ) : Prop where
  step : ∀ m s' s o, m < T → Sim.sim m s' s → A o → ∃ r' t' r t, P'.update s' o.sym o.hist o.weight = .ok (r', t') ∧
    P.update s o.sym o.hist o.weight = .ok (r, t) ∧ Sim.sim (m + 1) t' t ∧ |(r' - r) - (Sim.gap t' t - Sim.gap s' s)| ≤ β - Sim.γ ∧ |r| ≤ ρ
  gap : ∀ m s' s, Sim.sim m s' s → |Sim.gap s' s| ≤ m * Sim.γ

/-- The same, with another relation between the states after the update. -/
structure StepSim {σ' σ α : Type} (P' : Predictor σ' α) (P : Predictor σ α) (A : Obs α → Prop) (T : ℕ) (β ρ : ℝ) (Sim : Rel σ' σ)
    (q : ℕ → σ' → σ → Prop) : Prop where
  step : ∀ m s' s o, m < T → Sim.sim m s' s → A o → ∃ r' t' r t, P'.update s' o.sym o.hist o.weight = .ok (r', t') ∧
    P.update s o.sym o.hist o.weight = .ok (r, t) ∧ q (m + 1) t' t ∧ |(r' - r) - (Sim.gap t' t - Sim.gap s' s)| ≤ β - Sim.γ ∧ |r| ≤ ρ
  gap : ∀ m s' s, q m s' s → |Sim.gap s' s| ≤ m * Sim.γ

/-- The relation after an update. -/
def Rel.next {σ' σ : Type} (Sim : Rel σ' σ) (q : ℕ → σ' → σ → Prop) : Rel σ' σ := ⟨q, Sim.gap, Sim.γ⟩

theorem BaseSim.stepSim {σ' σ α : Type} {P' : Predictor σ' α} {P : Predictor σ α} {A : Obs α → Prop} {T : ℕ} {β ρ : ℝ} {Sim : Rel σ' σ}
    (h : BaseSim P' P A T β ρ Sim) : StepSim P' P A T β ρ Sim Sim.sim := ⟨h.step, h.gap⟩

/-- The states of `KTBinary` keep no error of the sum. -/
def ktRel (ε : ℝ) : Rel KTBinary KTBinary := ⟨KtSim ε, fun _ _ => 0, 0⟩

theorem Rel.near {σ' σ α : Type} {Sim : Rel σ' σ} {P' : Predictor σ' α} {P : Predictor σ α} {A : Obs α → Prop} {T : ℕ} {β ρ ε G : ℝ}
    (hB : BaseSim P' P A T β ρ Sim) {m : ℕ} {s' : σ'} {s : σ} (h : Sim.sim m s' s) {x' x : ℝ}
    (hx : |(x' - x) - Sim.gap s' s| ≤ m * (β - Sim.γ + ε * G)) : |x' - x| ≤ m * (β + ε * G) := by
  have h1 := hB.gap m s' s h
  rw [abs_le] at *
  constructor <;> linarith

section Tree

variable {σ' σ κ α : Type} [DecidableEq κ] [Fintype κ]

/-- The error of one update at a node of height `d`. -/
noncomputable def stepErr (ε β G : ℝ) (d : ℕ) : ℝ := β + ε * G + 11 * d * (ε * G)

/-- A rounded and an exact node of height `d` after the same `m` updates. -/
def NodeSim (Sim : Rel σ' σ) (f' : σ') (f : σ) (ε β ρ G : ℝ) : ℕ → ℕ → CTWNode σ' κ → CTWNode σ κ → Prop
  | 0, m, n', n => Sim.sim m n'.base n.base ∧ |n.baseLP| ≤ m * ρ ∧
      |(n'.baseLP - n.baseLP) - Sim.gap n'.base n.base| ≤ m * (β - Sim.γ + ε * G) ∧ |n'.baseLP - n.baseLP| ≤ m * (β + ε * G) ∧
      n.lp = n.baseLP ∧ n'.lp = n'.baseLP
  | d + 1, m, n', n => Sim.sim m n'.base n.base ∧ |n.baseLP| ≤ m * ρ ∧
      |(n'.baseLP - n.baseLP) - Sim.gap n'.base n.base| ≤ m * (β - Sim.γ + ε * G) ∧ |n'.baseLP - n.baseLP| ≤ m * (β + ε * G) ∧
      n.lp = log05 + Verif.logsumexp2 n.baseLP n.childrenLP ∧ |n'.lp - n.lp| ≤ m * stepErr ε β G (d + 1) ∧
      ∃ k : κ → ℕ, ∑ c, k c = m ∧
        (∀ c, NodeSim Sim f' f ε β ρ G d (k c) ((n'.children c).getD (.new f')) ((n.children c).getD (.new f))) ∧
        n.childrenLP = ∑ c, ((n.children c).getD (.new f)).lp ∧
        |n'.childrenLP - ∑ c, ((n'.children c).getD (.new f')).lp| ≤ m * (3 * (ε * G))

variable {Sim : Rel σ' σ} {f' : σ'} {f : σ} {β ρ G : ℝ}

theorem NodeSim.new (h : Sim.sim 0 f' f) (h0 : Sim.gap f' f = 0) (d : ℕ) :
    NodeSim Sim f' f ε β ρ G d 0 (.new f' : CTWNode σ' κ) (.new f) := by
  induction d with
  | zero => exact ⟨h, by simp [CTWNode.new, CTWNode.baseLP], by simp [CTWNode.new, CTWNode.baseLP, CTWNode.base, h0],
      by simp [CTWNode.new, CTWNode.baseLP], rfl, rfl⟩
  | succ d ih =>
    refine ⟨h, by simp [CTWNode.new, CTWNode.baseLP], by simp [CTWNode.new, CTWNode.baseLP, CTWNode.base, h0],
      by simp [CTWNode.new, CTWNode.baseLP], ?_, by simp [CTWNode.new, CTWNode.lp], fun _ => 0,
      by simp, fun c => ih, ?_, ?_⟩
    · change (0 : ℝ) = log05 + Verif.logsumexp2 0 0
      rw [logsumexp2_self]
    · simp [CTWNode.new, CTWNode.childrenLP, CTWNode.lp, CTWNode.children]
    · simp [CTWNode.new, CTWNode.childrenLP, CTWNode.lp, CTWNode.children]

theorem NodeSim.lp {d m : ℕ} {n' : CTWNode σ' κ} {n : CTWNode σ κ} (h : NodeSim Sim f' f ε β ρ G d m n' n) :
    |n.lp| ≤ m * ρ ∧ |n'.lp - n.lp| ≤ m * stepErr ε β G d := by
  induction d generalizing m n' n with
  | zero =>
    obtain ⟨-, h1, -, h2, h3, h4⟩ := h
    rw [h3, h4]
    refine ⟨h1, ?_⟩
    simpa [stepErr] using h2
  | succ d ih =>
    obtain ⟨-, h1, -, -, h3, h4, k, hk, hc, hs, -⟩ := h
    refine ⟨?_, h4⟩
    rw [h3]
    refine half_bound h1 ?_
    rw [hs]
    refine le_trans (Finset.abs_sum_le_sum_abs _ _) ?_
    refine le_trans (Finset.sum_le_sum fun c _ => (ih (hc c)).1) ?_
    rw [← Finset.sum_mul, ← hk]
    push_cast
    exact le_rfl

omit [DecidableEq κ] in
theorem sum_change [DecidableEq κ] {F H : κ → ℝ} (c : κ) (h : ∀ x, x ≠ c → F x = H x) : ∑ x, F x = ∑ x, H x + (F c - H c) := by
  have : ∑ x, (F x - H x) = F c - H c := by
    apply Finset.sum_eq_single c
    · intro x _ hx
      rw [h x hx, sub_self]
    · intro hx
      exact absurd (Finset.mem_univ c) hx
  rw [Finset.sum_sub_distrib] at this
  linarith

theorem sum_bump (k : κ → ℕ) (c : κ) : ∑ x, Function.update k c (k c + 1) x = ∑ x, k x + 1 := by
  have h := sum_change (F := fun x => ((Function.update k c (k c + 1) x : ℕ) : ℝ)) (H := fun x => (k x : ℝ)) c (by
    intro x hx
    simp [hx])
  simp only [Function.update_self] at h
  push_cast at h
  have : ((∑ x, Function.update k c (k c + 1) x : ℕ) : ℝ) = ((∑ x, k x + 1 : ℕ) : ℝ) := by
    push_cast
    linarith
  exact_mod_cast this

theorem abs_le_of_near {x y a b : ℝ} (h1 : |x| ≤ a) (h2 : |y - x| ≤ b) : |y| ≤ a + b := by
  calc |y| = |x + (y - x)| := by ring_nf
    _ ≤ _ := abs_add_le _ _
    _ ≤ a + b := by linarith

theorem base_step (hR : R.Accurate ε) {m : ℕ} {x' x r' r e e' γ : ℝ} (hx : |x| ≤ m * ρ) (hx' : |(x' - x) - e| ≤ m * (β - γ + ε * G))
    (hr : |r| ≤ ρ) (hr' : |(r' - r) - (e' - e)| ≤ β - γ) (he : |e'| ≤ (m + 1 : ℕ) * γ) (hG : (m + 1) * (ρ + (β + ε * G)) ≤ G)
    (hεG : 0 ≤ ε * G) :
    |x + r| ≤ (m + 1 : ℕ) * ρ ∧ |(R.add x' r' - (x + r)) - e'| ≤ (m + 1 : ℕ) * (β - γ + ε * G) ∧
      |R.add x' r' - (x + r)| ≤ (m + 1 : ℕ) * (β + ε * G) := by
  have e0 := hR.nonneg
  push_cast at he ⊢
  have h1 : |x + r| ≤ (m + 1) * ρ := by
    have := abs_add_le x r
    linarith
  have h2 : |((x' + r') - (x + r)) - e'| ≤ m * (β - γ + ε * G) + (β - γ) := by
    calc |((x' + r') - (x + r)) - e'| = |((x' - x) - e) + ((r' - r) - (e' - e))| := by ring_nf
      _ ≤ _ := abs_add_le _ _
      _ ≤ _ := by linarith
  have h2' : |(x' + r') - (x + r)| ≤ (m + 1) * γ + (m * (β - γ + ε * G) + (β - γ)) := abs_le_of_near he h2
  have h3 : |x' + r'| ≤ G := by
    have := abs_le_of_near h1 h2'
    linarith
  have h4 := hR.add x' r'
  have h5 : |(R.add x' r' - (x + r)) - e'| ≤ (m + 1) * (β - γ + ε * G) := by
    calc |(R.add x' r' - (x + r)) - e'| = |(R.add x' r' - (x' + r')) + (((x' + r') - (x + r)) - e')| := by ring_nf
      _ ≤ _ := abs_add_le _ _
      _ ≤ ε * G + (m * (β - γ + ε * G) + (β - γ)) := by
        have := mul_le_mul_of_nonneg_left h3 e0
        linarith
      _ = _ := by ring
  refine ⟨h1, h5, ?_⟩
  have := abs_le_of_near he h5
  linarith

theorem NodeSim.update (hR : R.Accurate ε) {P' : Predictor σ' α} {P : Predictor σ α} {A : Obs α → Prop} {T D : ℕ}
    (hB : BaseSim P' P A T β ρ Sim) (hβ : 0 ≤ β) (hρ : 0 ≤ ρ) (hG0 : 0 ≤ G) (hG : T * (ρ + stepErr ε β G D) + 2 ≤ G)
    {o : Obs α} (ho : A o) (cs : List κ) {d m : ℕ} (hm : m < T) (hd : d ≤ D) (hcs : cs.length = d) {n' : CTWNode σ' κ} {n : CTWNode σ κ}
    (h : NodeSim Sim f' f ε β ρ G d m n' n) :
    ∃ r' q' r q, R.ctwUpdate P' f' o.sym o.hist o.weight cs n' = .ok (r', q') ∧ n.update P f o.sym o.hist o.weight cs = .ok (r, q) ∧
      NodeSim Sim f' f ε β ρ G d (m + 1) q' q ∧ r' = R.sub q'.lp n'.lp ∧ r = q.lp - n.lp ∧ |r| ≤ ρ := by
  have e0 := hR.nonneg
  have e1 := hR.small
  have hεG : 0 ≤ ε * G := mul_nonneg e0 hG0
  have hstep : ∀ d ≤ D, β + ε * G ≤ stepErr ε β G d ∧ stepErr ε β G d ≤ stepErr ε β G D := by
    intro d hd
    have h1 : (d : ℝ) ≤ D := by exact_mod_cast hd
    have hd0 : (0 : ℝ) ≤ d := Nat.cast_nonneg d
    have h2 := mul_le_mul_of_nonneg_right h1 hεG
    have h3 := mul_nonneg hd0 hεG
    constructor
    · simp only [stepErr]; linarith
    · simp only [stepErr]; linarith
  have hbound : ∀ (k : ℕ) (x : ℝ), k ≤ T → 0 ≤ x → x ≤ ρ + stepErr ε β G D → k * x + 2 ≤ G := by
    intro k x hk h0 hx
    have h1 : (k : ℝ) ≤ T := by exact_mod_cast hk
    have hk0 : (0 : ℝ) ≤ k := Nat.cast_nonneg k
    have : (k : ℝ) * x ≤ T * (ρ + stepErr ε β G D) := mul_le_mul h1 hx h0 (by linarith)
    linarith
  induction cs generalizing d m n' n with
  | nil =>
    subst hcs
    obtain ⟨h1, h2, h3, -, h4, h5⟩ := h
    obtain ⟨r', t', r, t, hu', hu, hs, hr', hr⟩ := hB.step m _ _ o hm h1 ho
    have hb := hbound (m + 1) (ρ + (β + ε * G)) hm (by linarith) (by linarith [(hstep 0 (by omega)).1, (hstep 0 (by omega)).2])
    push_cast at hb
    obtain ⟨g1, g0, g2⟩ := base_step hR h2 h3 hr hr' (hB.gap _ _ _ hs) (by linarith) hεG
    refine ⟨R.sub (R.add n'.baseLP r') n'.lp, .mk t' (R.add n'.baseLP r') n'.childrenLP (R.add n'.baseLP r') n'.children,
      n.baseLP + r - n.lp, .mk t (n.baseLP + r) n.childrenLP (n.baseLP + r) n.children, ?_, ?_, ?_, rfl, rfl, ?_⟩
    · rw [ctwUpdate, hu']; rfl
    · rw [CTWNode.update, hu]; rfl
    · exact ⟨hs, g1, g0, g2, rfl, rfl⟩
    · rw [h4, add_sub_cancel_left]; exact hr
  | cons c cs ih =>
    subst hcs
    obtain ⟨h1, h2, h3, -, h4, h5, k, hk, hc, hcl, hce⟩ := h
    obtain ⟨r', t', r, t, hu', hu, hs, hr', hr⟩ := hB.step m _ _ o hm h1 ho
    rw [List.length_cons] at hd
    obtain ⟨s1, s2⟩ := hstep cs.length (by omega)
    obtain ⟨s3, s4⟩ := hstep (cs.length + 1) hd
    have s5 : stepErr ε β G (cs.length + 1) = stepErr ε β G cs.length + 11 * (ε * G) := by
      simp only [stepErr]
      push_cast
      ring
    have hb := hbound (m + 1) (ρ + (β + ε * G)) hm (by linarith) (by linarith)
    push_cast at hb
    obtain ⟨g1, g0, g2⟩ := base_step hR h2 h3 hr hr' (hB.gap _ _ _ hs) (by linarith) hεG
    have hkc : k c ≤ m := hk ▸ Finset.single_le_sum (f := k) (fun _ _ => Nat.zero_le _) (Finset.mem_univ c)
    obtain ⟨rc', q', rc, q, hcu', hcu, hcn, hrc', hrc, hrcb⟩ := ih (by omega) (by omega) rfl (hc c)
    -- the children after the update
    have hch' : ∀ x, ((Function.update n'.children c (some q') x).getD (.new f')) = if x = c then q' else (n'.children x).getD (.new f') := by
      intro x
      by_cases hx : x = c
      · subst hx; simp
      · simp [hx]
    have hch : ∀ x, ((Function.update n.children c (some q) x).getD (.new f)) = if x = c then q else (n.children x).getD (.new f) := by
      intro x
      by_cases hx : x = c
      · subst hx; simp
      · simp [hx]
    have hk' : ∑ x, Function.update k c (k c + 1) x = m + 1 := by rw [sum_bump, hk]
    have hnew : ∀ x, NodeSim Sim f' f ε β ρ G cs.length (Function.update k c (k c + 1) x)
        ((Function.update n'.children c (some q') x).getD (.new f')) ((Function.update n.children c (some q) x).getD (.new f)) := by
      intro x
      rw [hch', hch]
      by_cases hx : x = c
      · subst hx
        simpa using hcn
      · simpa [hx] using hc x
    have hsum : ∑ x, ((Function.update n.children c (some q) x).getD (.new f)).lp =
        ∑ x, ((n.children x).getD (.new f)).lp + (q.lp - ((n.children c).getD (.new f)).lp) := by
      have := sum_change (F := fun x => ((Function.update n.children c (some q) x).getD (.new f)).lp)
        (H := fun x => ((n.children x).getD (.new f)).lp) c (by intro x hx; simp [hx])
      simpa using this
    have hsum' : ∑ x, ((Function.update n'.children c (some q') x).getD (.new f')).lp =
        ∑ x, ((n'.children x).getD (.new f')).lp + (q'.lp - ((n'.children c).getD (.new f')).lp) := by
      have := sum_change (F := fun x => ((Function.update n'.children c (some q') x).getD (.new f')).lp)
        (H := fun x => ((n'.children x).getD (.new f')).lp) c (by intro x hx; simp [hx])
      simpa using this
    set S' := ∑ x, ((Function.update n'.children c (some q') x).getD (.new f')).lp with hS'
    set S := ∑ x, ((Function.update n.children c (some q) x).getD (.new f)).lp with hS
    have hSb : |S| ≤ (m + 1) * ρ := by
      refine le_trans (Finset.abs_sum_le_sum_abs _ _) ?_
      refine le_trans (Finset.sum_le_sum fun x _ => (hnew x).lp.1) ?_
      rw [← Finset.sum_mul]
      have : (∑ x, ((Function.update k c (k c + 1) x : ℕ) : ℝ)) = m + 1 := by exact_mod_cast hk'
      rw [this]
    have hSS : |S' - S| ≤ (m + 1) * stepErr ε β G cs.length := by
      rw [hS', hS, ← Finset.sum_sub_distrib]
      refine le_trans (Finset.abs_sum_le_sum_abs _ _) ?_
      refine le_trans (Finset.sum_le_sum fun x _ => (hnew x).lp.2) ?_
      rw [← Finset.sum_mul]
      have : (∑ x, ((Function.update k c (k c + 1) x : ℕ) : ℝ)) = m + 1 := by exact_mod_cast hk'
      rw [this]
    -- the value which the child returns
    have hq1 : |q'.lp| ≤ G := by
      have h7 := hcn.lp
      have h8 := abs_le_of_near h7.1 h7.2
      have := hbound (k c + 1) (ρ + stepErr ε β G cs.length) (by omega) (by linarith) (by linarith)
      linarith
    have hq2 : |((n'.children c).getD (.new f')).lp| ≤ G := by
      have h7 := (hc c).lp
      have h8 := abs_le_of_near h7.1 h7.2
      have := hbound (k c) (ρ + stepErr ε β G cs.length) (by omega) (by linarith) (by linarith)
      linarith
    have hrc2 : |rc' - (q'.lp - ((n'.children c).getD (.new f')).lp)| ≤ 2 * (ε * G) := by
      rw [hrc']
      refine le_trans (hR.sub _ _) ?_
      have := abs_sub q'.lp ((n'.children c).getD (.new f')).lp
      have := mul_le_mul_of_nonneg_left (by linarith : |q'.lp - ((n'.children c).getD (.new f')).lp| ≤ 2 * G) e0
      linarith
    have hpre : |(n'.childrenLP + rc') - S'| ≤ m * (3 * (ε * G)) + 2 * (ε * G) := by
      rw [hsum']
      calc |(n'.childrenLP + rc') - (∑ x, ((n'.children x).getD (.new f')).lp + (q'.lp - ((n'.children c).getD (.new f')).lp))| =
            |(n'.childrenLP - ∑ x, ((n'.children x).getD (.new f')).lp) + (rc' - (q'.lp - ((n'.children c).getD (.new f')).lp))| := by ring_nf
        _ ≤ _ := abs_add_le _ _
        _ ≤ _ := by linarith
    have hS'b := abs_le_of_near hSb hSS
    have hb2 := hbound (m + 1) (ρ + stepErr ε β G (cs.length + 1)) hm (by linarith) (by linarith)
    push_cast at hb2
    rw [s5] at hb2
    have hm0 : (0 : ℝ) ≤ m := Nat.cast_nonneg m
    have hmG := mul_nonneg hm0 hεG
    have hpreG : |n'.childrenLP + rc'| ≤ G := by
      have := abs_le_of_near hS'b hpre
      linarith
    have hcl' : |R.add n'.childrenLP rc' - S'| ≤ (m + 1) * (3 * (ε * G)) := by
      have h9 := hR.add n'.childrenLP rc'
      have h10 := mul_le_mul_of_nonneg_left hpreG e0
      calc |R.add n'.childrenLP rc' - S'| = |(R.add n'.childrenLP rc' - (n'.childrenLP + rc')) + ((n'.childrenLP + rc') - S')| := by ring_nf
        _ ≤ _ := abs_add_le _ _
        _ ≤ _ := by linarith
    have hclp : n.childrenLP + rc = S := by rw [hcl, hrc, hsum]
    have hcc : |R.add n'.childrenLP rc' - (n.childrenLP + rc)| ≤ (m + 1) * (stepErr ε β G cs.length + 3 * (ε * G)) := by
      rw [hclp]
      calc |R.add n'.childrenLP rc' - S| = |(R.add n'.childrenLP rc' - S') + (S' - S)| := by ring_nf
        _ ≤ _ := abs_add_le _ _
        _ ≤ _ := by linarith
    push_cast at g1 g2
    have hbb : |R.add n'.baseLP r' - (n.baseLP + r)| ≤ (m + 1) * (stepErr ε β G cs.length + 3 * (ε * G)) :=
      le_trans g2 (mul_le_mul_of_nonneg_left (by linarith) (by linarith))
    have hbG := abs_le_of_near g1 hbb
    have hcG := abs_le_of_near (hclp ▸ hSb) hcc
    obtain ⟨l, hl, hln⟩ := half_near hR hbb hcc (G := G) (by linarith) (by linarith)
    refine ⟨_, .mk t' (R.add n'.baseLP r') (R.add n'.childrenLP rc') (R.add (R.log (1 / 2)) l) (Function.update n'.children c (some q')),
      _, .mk t (n.baseLP + r) (n.childrenLP + rc) (log05 + Verif.logsumexp2 (n.baseLP + r) (n.childrenLP + rc))
        (Function.update n.children c (some q)), ?_, ?_, ?_, rfl, rfl, ?_⟩
    · rw [ctwUpdate, hu']
      simp only [ok_bind, hcu', hl]
      rfl
    · rw [CTWNode.update, hu]
      simp only [ok_bind, hcu]
      rfl
    · refine ⟨hs, by push_cast; exact g1, g0, by push_cast; exact g2, rfl, ?_, Function.update k c (k c + 1), hk', hnew, hclp, by push_cast; exact hcl'⟩
      simp only [CTWNode.lp_mk]
      refine le_trans hln ?_
      rw [s5]
      push_cast
      linarith
    · rw [h4, CTWNode.lp_mk, add_sub_add_left_eq_sub]
      exact logsumexp2_lipschitz (by rw [add_sub_cancel_left]; exact hr) (by rw [add_sub_cancel_left]; exact hrcb)

end Tree

end Arith

end Verif
