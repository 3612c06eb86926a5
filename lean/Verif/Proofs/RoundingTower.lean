import Verif.Model.RoundingTower
import Verif.Props.RoundingPTW

/-! Rounding errors of models over models. -/

namespace Verif

namespace Arith

variable {R : Arith} {ε : ℝ} {σ' σ α : Type} {β ρ G : ℝ} {Sim : Rel σ' σ} {f' : σ'} {f : σ} {P' : Predictor σ' α} {P : Predictor σ α}
  {A : Obs α → Prop} {T H h0 height : ℕ}

theorem BaseSim.mono (h : BaseSim P' P A T β ρ Sim) {β' : ℝ} (hβ : β ≤ β') : BaseSim P' P A T β' ρ Sim := by
  refine ⟨fun m s' s o hm hs ho => ?_, h.gap⟩
  obtain ⟨r', t', r, t, h1, h2, h3, h4, h5⟩ := h.step m s' s o hm hs ho
  exact ⟨r', t', r, t, h1, h2, h3, by linarith, h5⟩

/-- The sum of the values returned by a run. -/
theorem BaseSim.run (h : BaseSim P' P A T β ρ Sim) (xs : List (Obs α)) (hA : ∀ o ∈ xs, A o) (m : ℕ) (hm : m + xs.length ≤ T) (s' : σ') (s : σ)
    (hs : Sim.sim m s' s) :
    ∃ r' q' r q, P'.run s' xs = .ok (r', q') ∧ P.run s xs = .ok (r, q) ∧ Sim.sim (m + xs.length) q' q ∧
      |(r' - r) - (Sim.gap q' q - Sim.gap s' s)| ≤ xs.length * (β - Sim.γ) ∧ |r| ≤ xs.length * ρ := by
  induction xs generalizing m s' s with
  | nil => exact ⟨0, s', 0, s, rfl, rfl, hs, by simp, by simp⟩
  | cons o xs ih =>
    rw [List.length_cons] at hm
    obtain ⟨r', t', r, t, h1, h2, h3, h4, h5⟩ := h.step m s' s o (by omega) hs (hA o (by simp))
    obtain ⟨u', v', u, v, k1, k2, k3, k4, k5⟩ := ih (fun x hx => hA x (by simp [hx])) (m + 1) (by omega) t' t h3
    refine ⟨r' + u', v', r + u, v, ?_, ?_, ?_, ?_, ?_⟩
    · simp only [Predictor.run, h1, ok_bind, k1, pure_eq_ok]
    · simp only [Predictor.run, h2, ok_bind, k2, pure_eq_ok]
    · rw [List.length_cons, show m + (xs.length + 1) = m + 1 + xs.length by omega]; exact k3
    · rw [List.length_cons]
      push_cast
      rw [abs_le] at *
      constructor <;> linarith [h4.1, h4.2, k4.1, k4.2]
    · rw [List.length_cons]
      push_cast
      have := abs_add_le r u
      linarith

/-- A difference of two remembered sums. -/
theorem sub_gap (hR : R.Accurate ε) {x' y' x y r' : ℝ} (hr : r' = R.sub x' y') (hx : |x'| ≤ G) (hy : |y'| ≤ G) :
    |(r' - (x - y)) - ((x' - x) - (y' - y))| ≤ 2 * (ε * G) := by
  rw [hr]
  calc |R.sub x' y' - (x - y) - ((x' - x) - (y' - y))| = |R.sub x' y' - (x' - y')| := by ring_nf
    _ ≤ _ := hR.sub _ _
    _ ≤ ε * (2 * G) := by
      have := abs_sub x' y'
      exact mul_le_mul_of_nonneg_left (by linarith) hR.nonneg
    _ = _ := by ring

section CTW

variable {κ : Type} [DecidableEq κ] [Fintype κ]

/-- The relation between rounded and exact `CTW`s: the sum of the values returned is the probability kept at the root. -/
noncomputable def ctwRel (Sim : Rel σ' σ) (f' : σ') (f : σ) (ε β ρ G : ℝ) (D : ℕ) : Rel (CTWNode σ' κ) (CTWNode σ κ) :=
  ⟨NodeSim Sim f' f ε β ρ G D, fun n' n => n'.lp - n.lp, stepErr ε β G D⟩

/-- `CTW` over a model with small errors is one. -/
theorem BaseSim.ctw (hR : R.Accurate ε) (hB : BaseSim P' P A T β ρ Sim) (hβ : 0 ≤ β) (hρ : 0 ≤ ρ) (hG0 : 0 ≤ G) {D : ℕ}
    (hG : T * (ρ + stepErr ε β G D) + 2 ≤ G) (ctx : List α → List κ) (hc : ∀ h, (ctx h).length = D) :
    BaseSim (R.ctwPredictor P' f' ctx) (CTW.predictor P f ctx) A T (stepErr ε β G D + 2 * (ε * G)) ρ (ctwRel Sim f' f ε β ρ G D) := by
  have e0 := hR.nonneg
  have hS : 0 ≤ stepErr ε β G D := by
    have h6 : 0 ≤ ε * G := mul_nonneg e0 hG0
    have h7 := mul_nonneg (Nat.cast_nonneg D : (0 : ℝ) ≤ D) h6
    simp only [stepErr]
    linarith
  have hbnd : ∀ (k : ℕ) (x : ℝ), k ≤ T → |x| ≤ k * ρ + k * stepErr ε β G D → |x| ≤ G := by
    intro k x hk hx
    have hk' : (k : ℝ) ≤ T := by exact_mod_cast hk
    have := mul_le_mul_of_nonneg_right hk' (by linarith : 0 ≤ ρ + stepErr ε β G D)
    linarith
  refine ⟨fun m n' n o hm hn ho => ?_, fun m n' n hn => (show NodeSim Sim f' f ε β ρ G D m n' n from hn).lp.2⟩
  replace hn : NodeSim Sim f' f ε β ρ G D m n' n := hn
  obtain ⟨r', q', r, q, h1, h2, h3, h4, h5, h6⟩ := hn.update hR hB hβ hρ hG0 hG ho (ctx o.hist).reverse hm le_rfl
    (by rw [List.length_reverse]; exact hc o.hist)
  refine ⟨r', q', r, q, h1, h2, h3, ?_, h6⟩
  have b1 := hbnd (m + 1) q'.lp (by omega) (abs_le_of_near h3.lp.1 h3.lp.2)
  have b2 := hbnd m n'.lp (by omega) (abs_le_of_near hn.lp.1 hn.lp.2)
  rw [h5]
  refine le_trans (sub_gap hR h4 b1 b2) ?_
  simp only [ctwRel]
  linarith

end CTW

/-- The relation between rounded and exact `PTWFixedLength`s. -/
noncomputable def fixedRel (Sim : Rel σ' σ) (ε β ρ G : ℝ) (h0 height : ℕ) : Rel (PTW σ') (PTW σ) :=
  ⟨fun m s' s => FixedSim Sim ε β ρ G h0 height m s' s ∧
    s.logProb = PTWData.correct s.tree.data.baseLP (height - s.tree.data.height) s.tree.data.lp,
    fun s' s => s'.logProb - s.logProb, ptwErr ε β G height⟩

/-- `PTWFixedLength` over a model with small errors is one, up to its length. -/
theorem BaseSim.fixed (hR : R.Accurate ε) (hB : BaseSim P' P A T β ρ Sim) (hβ : 0 ≤ β) (hρ : 0 ≤ ρ) (hεG : 0 ≤ ε * G)
    (hG : T * (ρ + ptwErr ε β G height) + 2 ≤ G) (hf : Sim.sim 0 f' f) (hfg : Sim.gap f' f = 0) (hTH : T ≤ 2 ^ height) :
    BaseSim (R.ptwFixedPredictor P' f' h0 height) (PTWFixedLength.predictor P f h0 height) A T (ptwErr ε β G height + 2 * (ε * G)) ρ
      (fixedRel Sim ε β ρ G h0 height) := by
  refine ⟨fun m s' s o hm hs ho => ?_, fun m s' s hs => (show FixedSim Sim ε β ρ G h0 height m s' s from hs.1).2.2⟩
  obtain ⟨hs1, hs2⟩ := hs
  obtain ⟨r', t', r, t, h1, h2, h3, h4, h5, h6, h7, h8⟩ := FixedSim.step (h0 := h0) (height := height) hR hB hβ hρ hεG hG hf hfg hTH le_rfl
    m s' s o hm hs1 ho
  refine ⟨r', t', r, t, h1, h2, ⟨h3, h7⟩, ?_, h8 hTH hs2⟩
  simp only [fixedRel]
  rw [h4]
  calc |r' - (t.logProb - s.logProb) - (t'.logProb - t.logProb - (s'.logProb - s.logProb))| = |r' - (t'.logProb - s'.logProb)| := by ring_nf
    _ ≤ _ := by linarith

/-- The relation between rounded and exact `PTW`s. -/
noncomputable def rootRel (Sim : Rel σ' σ) (ε β ρ G : ℝ) (h0 H : ℕ) : Rel (PTW σ') (PTW σ) :=
  ⟨fun m s' s => RootSim Sim ε β ρ G h0 H m s' s ∧ s.logProb = s.tree.data.lp + s.adj,
    fun s' s => s'.logProb - s.logProb, 5 * ptwErr ε β G H + 21 * (ε * G)⟩

/-- `PTW` over a model with small errors is one. -/
theorem BaseSim.ptw (hR : R.Accurate ε) (hB : BaseSim P' P A T β ρ Sim) (hβ : 0 ≤ β) (hρ : 0 ≤ ρ) (hεG : 0 ≤ ε * G)
    (hG : T * (8 * (ρ + ptwErr ε β G H + 5 * (ε * G))) + 2 ≤ G) (hf : Sim.sim 0 f' f) (hfg : Sim.gap f' f = 0) (hTH : T ≤ 2 ^ H) :
    BaseSim (R.ptwPredictor P' f' h0) (PTW.predictor P f h0) A T (5 * ptwErr ε β G H + 23 * (ε * G)) ρ (rootRel Sim ε β ρ G h0 H) := by
  refine ⟨fun m s' s o hm hs ho => ?_, fun m s' s hs => (show RootSim Sim ε β ρ G h0 H m s' s from hs.1).2.2⟩
  obtain ⟨hs1, hs2⟩ := hs
  obtain ⟨r', t', r, t, h1, h2, h3, h4, h5, h6, h7, h8⟩ := RootSim.step (h0 := h0) hR hB hβ hρ hεG hG hf hfg hTH m s' s o hm hs1 ho
  refine ⟨r', t', r, t, h1, h2, ⟨h3, h7⟩, ?_, h8 hs2⟩
  simp only [rootRel]
  rw [h4]
  calc |r' - (t.logProb - s.logProb) - (t'.logProb - t.logProb - (s'.logProb - s.logProb))| = |r' - (t'.logProb - s'.logProb)| := by ring_nf
    _ ≤ _ := by linarith

end Arith

end Verif
