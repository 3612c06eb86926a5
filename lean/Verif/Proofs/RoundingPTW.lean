import Verif.Model.RoundingPTW
import Verif.Proofs.RoundingCTW

/-! Rounding errors of `PTW`. -/

namespace Verif

namespace Arith

variable {σ' σ α : Type} {R : Arith} {ε β ρ G : ℝ} {Sim : Rel σ' σ} {f' : σ'} {f : σ}

/-- The error per update of a node of height `h`. -/
noncomputable def ptwErr (ε β G : ℝ) (h : ℕ) : ℝ := β + ε * G + (h + 1) * (9 * (ε * G))

theorem ptwErr_succ (h : ℕ) : ptwErr ε β G (h + 1) = ptwErr ε β G h + 9 * (ε * G) := by
  simp only [ptwErr]
  push_cast
  ring

theorem ptwErr_mono (hG : 0 ≤ ε * G) {h k : ℕ} (hk : h ≤ k) : ptwErr ε β G h + (k - h : ℕ) * (8 * (ε * G)) ≤ ptwErr ε β G k := by
  simp only [ptwErr]
  rw [Nat.cast_sub hk]
  have : (0 : ℝ) ≤ (k : ℝ) - h := by
    have : (h : ℝ) ≤ k := by exact_mod_cast hk
    linarith
  have := mul_nonneg this hG
  linarith

theorem ptwErr_le (hG : 0 ≤ ε * G) {h k : ℕ} (hk : h ≤ k) : ptwErr ε β G h ≤ ptwErr ε β G k := by
  refine le_trans ?_ (ptwErr_mono hG hk)
  have : (0 : ℝ) ≤ (k - h : ℕ) * (8 * (ε * G)) := by positivity
  linarith

theorem base_le_ptwErr (hG : 0 ≤ ε * G) (h : ℕ) : β + ε * G ≤ ptwErr ε β G h := by
  simp only [ptwErr]
  have : (0 : ℝ) ≤ (h + 1) * (9 * (ε * G)) := by positivity
  linarith

/-- The height correction. -/
theorem ptwCorrect_near (hR : R.Accurate ε) (hεG : 0 ≤ ε * G) {b' b M : ℝ} (hbM : |b| ≤ M) :
    ∀ (n : ℕ) (x' x e : ℝ), |b' - b| ≤ e → |x' - x| ≤ e → |x| ≤ M → M + e + n * (8 * (ε * G)) + 2 ≤ G →
      ∃ y, R.ptwCorrect b' n x' = .ok y ∧ |y - PTWData.correct b n x| ≤ e + n * (8 * (ε * G)) ∧ |PTWData.correct b n x| ≤ M := by
  intro n
  induction n with
  | zero =>
    intro x' x e _ hx hM _
    exact ⟨x', rfl, by simpa [PTWData.correct] using hx, hM⟩
  | succ n ih =>
    intro x' x e hb hx hM hG
    push_cast at hG
    have hn : (0 : ℝ) ≤ n * (8 * (ε * G)) := by positivity
    have h1 := abs_le_of_near hbM hb
    have h2 := abs_le_of_near hM hx
    obtain ⟨l, hl, hln⟩ := half_near hR hb hx (G := G) (by linarith) (by linarith)
    obtain ⟨y, hy, hyn, hyM⟩ := ih (R.add (R.log (1 / 2)) l) (log05 + Verif.logsumexp2 b x) (e + 8 * (ε * G)) (by linarith) hln
      (half_bound hbM hM) (by linarith)
    refine ⟨y, ?_, ?_, hyM⟩
    · rw [ptwCorrect, hl]
      exact hy
    · push_cast
      rw [PTWData.correct]
      linarith

/-- One half of two weights moves by no more than the two. -/
theorem half_lipschitz {a b a' b' t : ℝ} (ha : |a - a'| ≤ t) (hb : |b - b'| ≤ t) :
    |(log05 + Verif.logsumexp2 a b) - (log05 + Verif.logsumexp2 a' b')| ≤ t := by
  rw [add_sub_add_left_eq_sub]
  exact logsumexp2_lipschitz ha hb

theorem correct_lipschitz {b b' t : ℝ} (hb : |b - b'| ≤ t) :
    ∀ (n : ℕ) (x x' : ℝ), |x - x'| ≤ t → |PTWData.correct b n x - PTWData.correct b' n x'| ≤ t := by
  intro n
  induction n with
  | zero => exact fun x x' hx => hx
  | succ n ih =>
    intro x x' hx
    rw [PTWData.correct, PTWData.correct]
    exact ih _ _ (half_lipschitz hb hx)

theorem correct_self (b : ℝ) : ∀ n : ℕ, PTWData.correct b n b = b := by
  intro n
  induction n with
  | zero => rfl
  | succ n ih =>
    rw [PTWData.correct, logsumexp2_self]
    have : log05 + (b + Real.log 2) = b := by rw [log05, one_div, Real.log_inv]; ring
    first | exact ih | (rw [this]; exact ih)

/-- The fields of a rounded and an exact node of height `h` after the same `c` updates. -/
structure DataSim (Sim : Rel σ' σ) (ε β ρ G : ℝ) (h c : ℕ) (d' : PTWData σ') (d : PTWData σ) : Prop where
  height' : d'.height = h
  height : d.height = h
  count' : d'.count = c
  count : d.count = c
  base : Sim.sim c d'.base d.base
  baseLP : |d.baseLP| ≤ c * ρ
  baseGap : |(d'.baseLP - d.baseLP) - Sim.gap d'.base d.base| ≤ c * (β - Sim.γ + ε * G)
  baseErr : |d'.baseLP - d.baseLP| ≤ c * (β + ε * G)
  lp : |d.lp| ≤ c * ρ
  lpErr : |d'.lp - d.lp| ≤ c * ptwErr ε β G h

/-- A rounded and an exact node of height `h` after the same `c` updates; `h0` is the least height. -/
inductive TreeSim (Sim : Rel σ' σ) (ε β ρ G : ℝ) (h0 : ℕ) : ℕ → ℕ → PTWNode σ' → PTWNode σ → Prop
  | leaf {c : ℕ} {d' : PTWData σ'} {d : PTWData σ} (hd : DataSim Sim ε β ρ G h0 c d' d) (hc : c ≤ 2 ^ h0)
      (hlp : d.lp = d.baseLP) :
    TreeSim Sim ε β ρ G h0 h0 c (.leaf d') (.leaf d)
  | inner {h k j : ℕ} {d' : PTWData σ'} {d : PTWData σ} {r' : PTWNode σ'} {r : PTWNode σ}
      (hd : DataSim Sim ε β ρ G (h + 1) (2 ^ h + k) d' d) (hl : |d.leftLP| ≤ (2 ^ h : ℕ) * ρ)
      (hl' : |d'.leftLP - d.leftLP| ≤ (2 ^ h : ℕ) * ptwErr ε β G h) (hr : TreeSim Sim ε β ρ G h0 j k r' r) (h1 : 1 ≤ k) (h2 : k ≤ 2 ^ h)
      (hh : j ≤ h) (h0h : h0 ≤ h)
      (hlp : d.lp = log05 + Verif.logsumexp2 d.baseLP (d.leftLP + PTWData.correct r.data.baseLP (h - j) r.data.lp)) : TreeSim Sim ε β ρ G h0 (h + 1) (2 ^ h + k) (.inner d' r') (.inner d r)

theorem TreeSim.data {h0 h c : ℕ} {n' : PTWNode σ'} {n : PTWNode σ} (hs : TreeSim Sim ε β ρ G h0 h c n' n) :
    DataSim Sim ε β ρ G h c n'.data n.data := by
  cases hs with
  | leaf hd _ => exact hd
  | inner hd => exact hd

theorem TreeSim.count_le {h0 h c : ℕ} {n' : PTWNode σ'} {n : PTWNode σ} (hs : TreeSim Sim ε β ρ G h0 h c n' n) : c ≤ 2 ^ h := by
  cases hs with
  | leaf _ hc _ => exact hc
  | inner _ _ _ _ _ h2 => rw [pow_succ]; omega

theorem TreeSim.min_le {h0 h c : ℕ} {n' : PTWNode σ'} {n : PTWNode σ} (hs : TreeSim Sim ε β ρ G h0 h c n' n) : h0 ≤ h := by
  cases hs with
  | leaf => exact le_rfl
  | inner _ _ _ _ _ _ _ h3 => omega

/-- The tree is not much higher than needed. -/
theorem TreeSim.size {h0 h c : ℕ} {n' : PTWNode σ'} {n : PTWNode σ} (hs : TreeSim Sim ε β ρ G h0 h c n' n) : 2 ^ h ≤ 2 ^ h0 + 2 * c := by
  cases hs with
  | leaf => omega
  | inner =>
    have := Nat.one_le_two_pow (n := h0)
    rw [pow_succ]
    omega

theorem complete_iff {τ : Type} (d : PTWData τ) : d.complete = true ↔ 2 ^ d.height ≤ d.count := by
  rw [PTWData.complete, decide_eq_true_iff, Nat.shiftRight_eq_div_pow, Nat.div_pos_iff]
  constructor
  · exact fun h => h.2
  · exact fun h => ⟨by positivity, h⟩

section Step

variable {P' : Predictor σ' α} {P : Predictor σ α} {A : Obs α → Prop} {T H h0 : ℕ} {o : Obs α} {Nx : ℕ → σ' → σ → Prop}

/-- The numbers at a node are bounded. -/
theorem ptw_room (hβ : 0 ≤ β) (hρ : 0 ≤ ρ) (hεG : 0 ≤ ε * G) (hG : T * (ρ + ptwErr ε β G H) + 2 ≤ G) {k : ℕ} {x : ℝ} (hk : k ≤ T)
    (hx : x ≤ ρ + ptwErr ε β G H) : k * x + 2 ≤ G := by
  have h1 : (k : ℝ) ≤ T := by exact_mod_cast hk
  have hk0 : (0 : ℝ) ≤ k := Nat.cast_nonneg k
  have h2 := base_le_ptwErr (β := β) hεG H
  have : (k : ℝ) * x ≤ k * (ρ + ptwErr ε β G H) := mul_le_mul_of_nonneg_left hx hk0
  have := mul_le_mul_of_nonneg_right h1 (by linarith : 0 ≤ ρ + ptwErr ε β G H)
  linarith

/-- The update of the base model of a node. -/
theorem baseStep_sim (hR : R.Accurate ε) (hB : StepSim P' P A T β ρ Sim Nx) (hβ : 0 ≤ β) (hρ : 0 ≤ ρ) (hεG : 0 ≤ ε * G)
    (hG : T * (ρ + ptwErr ε β G H) + 2 ≤ G) (ho : A o) {c : ℕ} (hc : c < T) {d' : PTWData σ'} {d : PTWData σ} (hs : Sim.sim c d'.base d.base)
    (hb : |d.baseLP| ≤ c * ρ) (hb' : |(d'.baseLP - d.baseLP) - Sim.gap d'.base d.base| ≤ c * (β - Sim.γ + ε * G)) :
    ∃ b' x' b x, R.ptwBaseStep P' d' o.sym o.hist o.weight = .ok { d' with base := b', baseLP := x' } ∧
      d.baseStep P o.sym o.hist o.weight = .ok { d with base := b, baseLP := x } ∧ Nx (c + 1) b' b ∧ |x| ≤ (c + 1 : ℕ) * ρ ∧
      |(x' - x) - Sim.gap b' b| ≤ (c + 1 : ℕ) * (β - Sim.γ + ε * G) ∧ |x' - x| ≤ (c + 1 : ℕ) * (β + ε * G) ∧ |x - d.baseLP| ≤ ρ := by
  obtain ⟨r', t', r, t, hu', hu, hs', hr', hr⟩ := hB.step c _ _ o hc hs ho
  have hroom := ptw_room (k := c + 1) (x := ρ + (β + ε * G)) hβ hρ hεG hG hc (by linarith [base_le_ptwErr (β := β) hεG H])
  push_cast at hroom
  obtain ⟨g1, g2, g3⟩ := base_step hR hb hb' hr hr' (hB.gap _ _ _ hs') (by linarith) hεG
  refine ⟨t', _, t, _, ?_, ?_, hs', g1, g2, g3, by rw [add_sub_cancel_left]; exact hr⟩
  · rw [ptwBaseStep, hu']
    rfl
  · rw [PTWData.baseStep, hu]
    rfl

theorem leafUpdate_sim (hR : R.Accurate ε) (hB : StepSim P' P A T β ρ Sim Nx) (hβ : 0 ≤ β) (hρ : 0 ≤ ρ) (hεG : 0 ≤ ε * G)
    (hG : T * (ρ + ptwErr ε β G H) + 2 ≤ G) (ho : A o) {c : ℕ} (hc : c < T) (hc2 : c < 2 ^ h0) {d' : PTWData σ'} {d : PTWData σ}
    (hd : DataSim Sim ε β ρ G h0 c d' d) :
    ∃ q' q, R.ptwLeafUpdate P' d' o.sym o.hist o.weight = .ok q' ∧ PTWNode.leafUpdate P d o.sym o.hist o.weight = .ok q ∧
      TreeSim (Sim.next Nx) ε β ρ G h0 h0 (c + 1) q' q ∧ |q.data.baseLP - d.baseLP| ≤ ρ ∧ q.data.lp = q.data.baseLP := by
  obtain ⟨b', x', b, x, h1, h2, h3, h4, h4', h5, h6⟩ := baseStep_sim hR hB hβ hρ hεG hG ho hc hd.base hd.baseLP hd.baseGap
  refine ⟨_, _, by rw [ptwLeafUpdate, h1]; rfl, by rw [PTWNode.leafUpdate, h2]; rfl, ?_, ?_, ?_⟩
  rotate_left
  · exact h6
  · rfl
  refine .leaf ⟨hd.height', hd.height, congrArg (· + 1) hd.count', congrArg (· + 1) hd.count, h3, h4, h4', h5, h4, le_trans h5 ?_⟩ hc2 rfl
  exact mul_le_mul_of_nonneg_left (base_le_ptwErr hεG h0) (Nat.cast_nonneg _)

theorem combine_sim (hR : R.Accurate ε) (hβ : 0 ≤ β) (hρ : 0 ≤ ρ) (hεG : 0 ≤ ε * G)
    (hG : T * (ρ + ptwErr ε β G H) + 2 ≤ G) {h k c hr : ℕ} {d' : PTWData σ'} {d : PTWData σ} {r' : PTWNode σ'} {r : PTWNode σ}
    (hc : c + 1 = 2 ^ h + k) (hcT : c < T) (hH : h + 1 ≤ H) (e1 : d'.height = h + 1) (e2 : d.height = h + 1) (e3 : d'.count = c) (e4 : d.count = c)
    (hs : Sim.sim (c + 1) d'.base d.base) (hb : |d.baseLP| ≤ (c + 1 : ℕ) * ρ)
    (hg : |(d'.baseLP - d.baseLP) - Sim.gap d'.base d.base| ≤ (c + 1 : ℕ) * (β - Sim.γ + ε * G)) (hb' : |d'.baseLP - d.baseLP| ≤ (c + 1 : ℕ) * (β + ε * G))
    (hl : |d.leftLP| ≤ (2 ^ h : ℕ) * ρ) (hl' : |d'.leftLP - d.leftLP| ≤ (2 ^ h : ℕ) * ptwErr ε β G h)
    (hrs : TreeSim Sim ε β ρ G h0 hr k r' r) (h1 : 1 ≤ k) (h2 : k ≤ 2 ^ h) (hh : hr ≤ h) (h0h : h0 ≤ h) :
    ∃ q', R.ptwCombine d' r' = .ok q' ∧ TreeSim Sim ε β ρ G h0 (h + 1) (c + 1) q' (PTWNode.combine d r) := by
  have hrd := hrs.data
  have hk1 : (1 : ℝ) ≤ k := by exact_mod_cast h1
  have hEm := ptwErr_mono (β := β) hεG hh
  have hEH : ptwErr ε β G h ≤ ptwErr ε β G H := ptwErr_le hεG (by omega)
  have hEH1 : ptwErr ε β G (h + 1) ≤ ptwErr ε β G H := ptwErr_le hεG hH
  have hB0 := base_le_ptwErr (β := β) hεG hr
  have hB1 := base_le_ptwErr (β := β) hεG h
  have hdiff : (0 : ℝ) ≤ (h - hr : ℕ) * (8 * (ε * G)) := by positivity
  -- the error of the corrected right child
  have hkE : k * ptwErr ε β G hr + (h - hr : ℕ) * (8 * (ε * G)) ≤ k * ptwErr ε β G h := by
    have := mul_le_mul_of_nonneg_left hEm (by linarith : (0 : ℝ) ≤ k)
    have := mul_le_mul_of_nonneg_right hk1 hdiff
    linarith
  have hroomk := ptw_room (k := k) (x := ρ + ptwErr ε β G h) hβ hρ hεG hG (by omega) (by linarith)
  obtain ⟨y, hy, hyn, hyM⟩ := ptwCorrect_near hR hεG hrd.baseLP (h - hr) r'.data.lp r.data.lp (k * ptwErr ε β G hr)
    (le_trans hrd.baseErr (mul_le_mul_of_nonneg_left hB0 (by linarith))) hrd.lpErr hrd.lp (by linarith)
  have hc' : ((2 ^ h : ℕ) : ℝ) + k = (c + 1 : ℕ) := by rw [hc]; push_cast; ring
  -- left and right
  have hsum : |d.leftLP + PTWData.correct r.data.baseLP (h - hr) r.data.lp| ≤ (c + 1 : ℕ) * ρ := by
    refine le_trans (abs_add_le _ _) ?_
    rw [← hc', add_mul]
    linarith
  have hsum' : |(d'.leftLP + y) - (d.leftLP + PTWData.correct r.data.baseLP (h - hr) r.data.lp)| ≤ (c + 1 : ℕ) * ptwErr ε β G h := by
    calc |(d'.leftLP + y) - (d.leftLP + PTWData.correct r.data.baseLP (h - hr) r.data.lp)| =
          |(d'.leftLP - d.leftLP) + (y - PTWData.correct r.data.baseLP (h - hr) r.data.lp)| := by ring_nf
      _ ≤ _ := abs_add_le _ _
      _ ≤ _ := by rw [← hc', add_mul]; linarith
  have hroomc := ptw_room (k := c + 1) (x := ρ + ptwErr ε β G (h + 1)) hβ hρ hεG hG hcT (by linarith)
  rw [ptwErr_succ] at hroomc
  have hc1 : (1 : ℝ) ≤ (c + 1 : ℕ) := by
    push_cast
    have : (0 : ℝ) ≤ c := Nat.cast_nonneg c
    linarith
  have hεc : ε * G ≤ (c + 1 : ℕ) * (ε * G) := le_mul_of_one_le_left hεG hc1
  have hpre := abs_le_of_near hsum hsum'
  have hadd : |R.add d'.leftLP y - (d.leftLP + PTWData.correct r.data.baseLP (h - hr) r.data.lp)| ≤
      (c + 1 : ℕ) * ptwErr ε β G h + ε * G := by
    have g1 := hR.add d'.leftLP y
    have g2 := mul_le_mul_of_nonneg_left (by linarith : |d'.leftLP + y| ≤ G) hR.nonneg
    calc |R.add d'.leftLP y - (d.leftLP + PTWData.correct r.data.baseLP (h - hr) r.data.lp)| =
          |(R.add d'.leftLP y - (d'.leftLP + y)) + ((d'.leftLP + y) - (d.leftLP + PTWData.correct r.data.baseLP (h - hr) r.data.lp))| := by ring_nf
      _ ≤ _ := abs_add_le _ _
      _ ≤ _ := by linarith
  have hbb : |d'.baseLP - d.baseLP| ≤ (c + 1 : ℕ) * ptwErr ε β G h + ε * G := by
    have := mul_le_mul_of_nonneg_left hB1 (by linarith : (0 : ℝ) ≤ (c + 1 : ℕ))
    linarith
  have hbG := abs_le_of_near hb hbb
  have hcG := abs_le_of_near hsum hadd
  obtain ⟨l, hl1, hln⟩ := half_near hR hbb hadd (G := G) (by linarith) (by linarith)
  have eh' : d'.height - r'.data.height - 1 = h - hr := by rw [e1, hrd.height']; omega
  have eh : d.height - r.data.height - 1 = h - hr := by rw [e2, hrd.height]; omega
  refine ⟨.inner { d' with lp := R.add (R.log (1 / 2)) l, count := d'.count + 1 } r', ?_, ?_⟩
  · rw [ptwCombine, eh', hy]
    simp only [ok_bind, hl1]
    rfl
  · rw [hc, PTWNode.combine]
    rw [hc] at hs hb hb' hg hsum hln hεc
    refine .inner ⟨e1, e2, ?_, ?_, hs, hb, hg, hb', ?_, ?_⟩ hl hl' hrs h1 h2 hh h0h (by rw [← eh])
    · show d'.count + 1 = _
      omega
    · show d.count + 1 = _
      omega
    · show |log05 + Verif.logsumexp2 d.baseLP (d.leftLP + PTWData.correct r.data.baseLP (d.height - r.data.height - 1) r.data.lp)| ≤ _
      rw [eh]
      exact half_bound hb hsum
    · show |R.add (R.log (1 / 2)) l - (log05 + Verif.logsumexp2 d.baseLP
        (d.leftLP + PTWData.correct r.data.baseLP (d.height - r.data.height - 1) r.data.lp))| ≤ _
      rw [eh]
      refine le_trans hln ?_
      rw [ptwErr_succ]
      linarith

theorem DataSim.new (h : Sim.sim 0 f' f) (hg : Sim.gap f' f = 0) (h0 : ℕ) : DataSim Sim ε β ρ G h0 0 (PTWData.new f' h0) (PTWData.new f h0) :=
  ⟨rfl, rfl, rfl, rfl, h, by simp [PTWData.new], by simp [PTWData.new, hg], by simp [PTWData.new], by simp [PTWData.new], by simp [PTWData.new]⟩

theorem promoted_sim (hR : R.Accurate ε) (hB : StepSim P' P A T β ρ Sim Nx) (hβ : 0 ≤ β) (hρ : 0 ≤ ρ) (hεG : 0 ≤ ε * G)
    (hG : T * (ρ + ptwErr ε β G H) + 2 ≤ G) (hf : Sim.sim 0 f' f) (hfg : Sim.gap f' f = 0) (ho : A o) {h : ℕ} (hc : 2 ^ h < T) (hH : h + 1 ≤ H) (h0h : h0 ≤ h)
    {d' : PTWData σ'} {d : PTWData σ} (hd : DataSim Sim ε β ρ G h (2 ^ h) d' d) :
    ∃ q' q, R.ptwPromoted P' (.ok f') h0 d' o.sym o.hist o.weight = .ok q' ∧ PTWNode.promoted P (.ok f) h0 d o.sym o.hist o.weight = .ok q ∧
      TreeSim (Sim.next Nx) ε β ρ G h0 (h + 1) (2 ^ h + 1) q' q ∧ |q.data.baseLP - d.baseLP| ≤ ρ ∧
      |q.data.lp - (log05 + Verif.logsumexp2 d.baseLP d.lp)| ≤ ρ := by
  obtain ⟨b', x', b, x, h1, h2, h3, h4, h4', h5, h6⟩ := baseStep_sim hR hB hβ hρ hεG hG ho hc
    (d' := { d' with leftLP := d'.lp, height := d'.height + 1 }) (d := { d with leftLP := d.lp, height := d.height + 1 })
    hd.base hd.baseLP hd.baseGap
  obtain ⟨r', r, g1, g2, g3, g4, g5⟩ := leafUpdate_sim hR hB hβ hρ hεG hG ho (Nat.zero_lt_of_lt hc) (by positivity : 0 < 2 ^ h0) (DataSim.new hf hfg h0)
  obtain ⟨q', k1, k2⟩ := combine_sim (Sim := Sim.next Nx) hR hβ hρ hεG hG (h := h) (k := 1) (c := 2 ^ h)
    (d' := { d' with leftLP := d'.lp, height := d'.height + 1, base := b', baseLP := x' })
    (d := { d with leftLP := d.lp, height := d.height + 1, base := b, baseLP := x })
    rfl hc hH (congrArg (· + 1) hd.height') (congrArg (· + 1) hd.height) hd.count' hd.count h3 h4 h4' h5 hd.lp hd.lpErr g3 le_rfl
    (Nat.one_le_two_pow) h0h h0h
  refine ⟨q', _, ?_, ?_, k2, h6, half_lipschitz h6 ?_⟩
  · rw [ptwPromoted]
    simp only [ok_bind, h1, g1]
    exact k1
  · rw [PTWNode.promoted]
    simp only [ok_bind, h2, g2]
    rfl
  · rw [g5, correct_self, add_sub_cancel_left]
    simpa [PTWData.new] using g4

/-- The update of a node. -/
theorem TreeSim.update (hR : R.Accurate ε) (hB : StepSim P' P A T β ρ Sim Nx) (hβ : 0 ≤ β) (hρ : 0 ≤ ρ) (hεG : 0 ≤ ε * G)
    (hG : T * (ρ + ptwErr ε β G H) + 2 ≤ G) (hf : Sim.sim 0 f' f) (hfg : Sim.gap f' f = 0) (ho : A o) (hTH : T ≤ 2 ^ H) {h c : ℕ} {n' : PTWNode σ'} {n : PTWNode σ}
    (hs : TreeSim Sim ε β ρ G h0 h c n' n) (hc : c < T) (hh : h ≤ H) :
    ∃ q' q, R.ptwNodeUpdate P' (.ok f') h0 o.sym o.hist o.weight n' = .ok q' ∧ n.update P (.ok f) h0 o.sym o.hist o.weight = .ok q ∧
      TreeSim (Sim.next Nx) ε β ρ G h0 (if 2 ^ h ≤ c then h + 1 else h) (c + 1) q' q ∧ (if 2 ^ h ≤ c then h + 1 else h) ≤ H ∧
      |q.data.baseLP - n.data.baseLP| ≤ ρ ∧
      |q.data.lp - (if 2 ^ h ≤ c then log05 + Verif.logsumexp2 n.data.baseLP n.data.lp else n.data.lp)| ≤ ρ := by
  have hup : ∀ h c : ℕ, c < T → 2 ^ h ≤ c → h + 1 ≤ H := by
    intro h c h1 h2
    have : 2 ^ h < 2 ^ H := by omega
    exact (Nat.pow_lt_pow_iff_right (by norm_num)).1 this
  induction hs with
  | @leaf c d' d hd hc2 hlp =>
    have ec' := complete_iff d'
    have ec := complete_iff d
    rw [hd.height', hd.count'] at ec'
    rw [hd.height, hd.count] at ec
    by_cases hcmp : 2 ^ h0 ≤ c
    · have : c = 2 ^ h0 := by omega
      subst this
      obtain ⟨q', q, k1, k2, k3, k5, k6⟩ := promoted_sim hR hB hβ hρ hεG hG hf hfg ho hc (hup _ _ hc le_rfl) le_rfl hd
      rw [if_pos hcmp, if_pos hcmp]
      refine ⟨q', q, ?_, ?_, k3, hup _ _ hc le_rfl, k5, k6⟩
      · rw [ptwNodeUpdate, if_pos (ec'.2 hcmp)]; exact k1
      · rw [PTWNode.update, if_pos (ec.2 hcmp)]; exact k2
    · obtain ⟨q', q, k1, k2, k3, k5, k6⟩ := leafUpdate_sim hR hB hβ hρ hεG hG ho hc (by omega) hd
      rw [if_neg hcmp, if_neg hcmp]
      refine ⟨q', q, ?_, ?_, k3, hh, k5, by rw [k6]; show |_ - d.lp| ≤ ρ; rw [hlp]; exact k5⟩
      · rw [ptwNodeUpdate, if_neg (fun h => hcmp (ec'.1 h))]; exact k1
      · rw [PTWNode.update, if_neg (fun h => hcmp (ec.1 h))]; exact k2
  | @inner h k hr d' d r' r hd hl hl' hrs h1 h2 hhr h0h hlp ih =>
    have ec' := complete_iff d'
    have ec := complete_iff d
    rw [hd.height', hd.count'] at ec'
    rw [hd.height, hd.count] at ec
    by_cases hcmp : 2 ^ (h + 1) ≤ 2 ^ h + k
    · have e : 2 ^ h + k = 2 ^ (h + 1) := by rw [pow_succ] at hcmp ⊢; omega
      have hd2 := hd
      rw [e] at hd2 hc
      obtain ⟨q', q, k1, k2, k3, k5, k6⟩ := promoted_sim hR hB hβ hρ hεG hG hf hfg ho hc (hup _ _ hc le_rfl) (by omega : h0 ≤ h + 1) hd2
      rw [if_pos hcmp, if_pos hcmp, e]
      refine ⟨q', q, ?_, ?_, k3, hup _ _ hc le_rfl, k5, k6⟩
      · rw [ptwNodeUpdate, if_pos (ec'.2 hcmp)]; exact k1
      · rw [PTWNode.update, if_pos (ec.2 hcmp)]; exact k2
    · obtain ⟨b', x', b, x, g1, g2, g3, g4, g4', g5, g6⟩ := baseStep_sim hR hB hβ hρ hεG hG ho hc hd.base hd.baseLP hd.baseGap
      obtain ⟨q', q, k1, k2, k3, k4, k5, k6⟩ := ih (by omega) (by omega)
      rw [pow_succ] at hcmp
      have hk : k < 2 ^ h := by omega
      have hle : (if 2 ^ hr ≤ k then hr + 1 else hr) ≤ h := by
        split
        · next hx =>
          have : 2 ^ hr < 2 ^ h := by omega
          exact (Nat.pow_lt_pow_iff_right (by norm_num)).1 this
        · exact hhr
      obtain ⟨p', m1, m2⟩ := combine_sim (Sim := Sim.next Nx) hR hβ hρ hεG hG (h := h) (k := k + 1) (c := 2 ^ h + k)
        (d' := { d' with base := b', baseLP := x' }) (d := { d with base := b, baseLP := x })
        (by omega) hc hh hd.height' hd.height hd.count' hd.count g3 g4 g4' g5 hl hl' k3 (by omega) (by omega) hle h0h
      have hcmp' : ¬ 2 ^ (h + 1) ≤ 2 ^ h + k := by rw [pow_succ]; omega
      rw [if_neg hcmp', if_neg hcmp']
      refine ⟨p', _, ?_, ?_, m2, hh, g6, ?_⟩
      · rw [ptwNodeUpdate, if_neg (fun h => hcmp' (ec'.1 h)), g1]
        simp only [ok_bind, k1]
        exact m1
      · rw [PTWNode.update, if_neg (fun h => hcmp' (ec.1 h)), g2]
        simp only [ok_bind, k2]
        rfl
      · show |_ - d.lp| ≤ ρ
        rw [hlp]
        refine half_lipschitz g6 ?_
        rw [add_sub_add_left_eq_sub]
        show |PTWData.correct q.data.baseLP (d.height - q.data.height - 1) q.data.lp - _| ≤ ρ
        rw [hd.height, k3.data.height]
        by_cases hkr : 2 ^ hr ≤ k
        · rw [if_pos hkr] at hle k6 ⊢
          rw [show h + 1 - (hr + 1) - 1 = h - hr - 1 by omega, show h - hr = (h - hr - 1) + 1 by omega, PTWData.correct]
          exact correct_lipschitz k5 _ _ _ k6
        · rw [if_neg hkr] at k6 ⊢
          rw [show h + 1 - hr - 1 = h - hr by omega]
          exact correct_lipschitz k5 _ _ _ k6

end Step

end Arith

end Verif
