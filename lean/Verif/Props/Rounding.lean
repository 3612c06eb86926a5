import Verif.Proofs.RoundingCTW
import Verif.Proofs.CTWLawful
import Verif.Proofs.CTWPure

/-!
# C99 and C100: rounding errors
-/

namespace Verif

open Arith

variable {R : Arith} {ε : ℝ}

/-! ### C99 -/

/-- **C99 (faithfulness).** With exact arithmetic the functions with rounding are those of the other files, and exact arithmetic is accurate. -/
theorem C99_exact {σ κ α : Type} [DecidableEq κ] (P : Predictor σ α) (fresh : σ) (ctx : List α → List κ) :
    Arith.exact.Accurate 0 ∧ Arith.exact.ktPredictor = KTBinary.predictor ∧
    Arith.exact.ctwPredictor P fresh ctx = CTW.predictor P fresh ctx ∧
    (∀ v1 v2, Arith.exact.logsumexp2 v1 v2 = .ok (logsumexp2 v1 v2)) := by
  have hl : ∀ v1 v2, Arith.exact.logsumexp2 v1 v2 = .ok (logsumexp2 v1 v2) := by
    intro v1 v2
    unfold Arith.logsumexp2 logsumexp2
    have : ∀ x : ℝ, 0 < 1 + Real.exp x := fun x => by positivity
    split_ifs
    · simp [Arith.exact, Arith.pyLog, this, ok_bind, pure_eq_ok]
    · simp [Arith.exact, Arith.pyLog, this, ok_bind, pure_eq_ok]
  refine ⟨⟨le_rfl, by norm_num, by simp [Arith.exact], by simp [Arith.exact], by simp [Arith.exact], by simp [Arith.exact], by simp [Arith.exact],
    fun x _ => ⟨(Real.exp_pos x).le, by simp [Arith.exact]⟩⟩, rfl, ?_, hl⟩
  have hu : ∀ a h w (cs : List κ) n, Arith.exact.ctwUpdate P fresh a h w cs n = CTWNode.update P fresh a h w cs n := by
    intro a h w cs
    induction cs with
    | nil => intro n; rfl
    | cons c cs ih =>
      intro n
      simp only [ctwUpdate, CTWNode.update, ih, hl]
      rfl
  have hp : ∀ a h (cs : List κ) n, Arith.exact.ctwLogPredict P fresh a h cs n = CTWNode.logPredict P fresh a h cs n := by
    intro a h cs
    induction cs with
    | nil => intro n; rfl
    | cons c cs ih =>
      intro n
      simp only [ctwLogPredict, CTWNode.logPredict, ih, hl]
      rfl
  simp only [ctwPredictor, CTW.predictor, hu, hp]

/-- **C99 (`logsumexp2`).** The rounded function never raises, and its relative and absolute errors are small, however far apart its arguments
are. -/
theorem C99_logsumexp2 (hR : R.Accurate ε) (v1 v2 : ℝ) :
    ∃ l, R.logsumexp2 v1 v2 = .ok l ∧
      |l - Real.log (Real.exp v1 + Real.exp v2)| ≤ ε * |Real.log (Real.exp v1 + Real.exp v2)| + 8 * ε := by
  rw [← logsumexp2_eq]
  exact logsumexp2_near hR v1 v2

/-- **C99 (prediction and update).** In every arithmetic, however wrong, `log_predict` of `KTBinary` returns what `update` would, digit for digit,
and that passes to `CTW`: the same operations are made in the same order. -/
theorem C99_predict_is_update (R : Arith) {σ κ α : Type} [DecidableEq κ] (P : Predictor σ α) (fresh : σ) (ctx : List α → List κ) :
    (∀ s b h w, Prod.fst <$> R.ktPredictor.update s b h w = Prod.fst <$> R.ktPredictor.logPredict s b h) ∧
    ((∀ s a h w, Prod.fst <$> P.update s a h w = Prod.fst <$> P.logPredict s a h) →
      ∀ n a h w, Prod.fst <$> (R.ctwPredictor P fresh ctx).update n a h w = Prod.fst <$> (R.ctwPredictor P fresh ctx).logPredict n a h) := by
  constructor
  · intro s b h w
    simp only [ktPredictor, ktUpdate]
    cases R.ktLogPredict s b <;> rfl
  · intro hP n a h w
    simp only [ctwPredictor]
    generalize (ctx h).reverse = cs
    induction cs generalizing n with
    | nil =>
      have h1 := hP n.base a h w
      simp only [ctwUpdate, ctwLogPredict]
      cases hu : P.update n.base a h w <;> cases hp : P.logPredict n.base a h <;> rw [hu, hp] at h1
      · cases h1; rfl
      · cases h1
      · cases h1
      · rename_i x y
        obtain ⟨x1, x2⟩ := x
        obtain ⟨y1, y2⟩ := y
        cases h1
        rfl
    | cons c cs ih =>
      have h1 := hP n.base a h w
      have h2 := ih ((n.children c).getD (.new fresh))
      simp only [ctwUpdate, ctwLogPredict]
      cases hu : P.update n.base a h w <;> cases hp : P.logPredict n.base a h <;> rw [hu, hp] at h1
      · cases h1; rfl
      · cases h1
      · cases h1
      · rename_i x y
        obtain ⟨x1, x2⟩ := x
        obtain ⟨y1, y2⟩ := y
        cases h1
        simp only [ok_bind]
        cases hu' : R.ctwUpdate P fresh a h w cs ((n.children c).getD (.new fresh)) <;>
          cases hp' : R.ctwLogPredict P fresh a h cs ((n.children c).getD (.new fresh)) <;> rw [hu', hp'] at h2
        · cases h2; rfl
        · cases h2
        · cases h2
        · rename_i u v
          obtain ⟨u1, u2⟩ := u
          obtain ⟨v1, v2⟩ := v
          cases h2
          simp only [ok_bind]
          cases R.logsumexp2 (R.add n.baseLP x1) (R.add n.childrenLP u1) <;> rfl

namespace Arith

/-- The base model `KTBinary` for `T` updates of weight 1. -/
theorem ktBase (hR : R.Accurate ε) (T : ℕ) :
    BaseSim R.ktPredictor KTBinary.predictor (fun o => o.weight = 1) T (ε * (Real.log (2 * T) + 5 * T)) (Real.log (2 * T)) (ktRel ε) := by
  refine ⟨fun m s' s o hm h ho => ?_, fun m s' s _ => by simp [ktRel]⟩
  have e0 := hR.nonneg
  replace h : KtSim ε m s' s := h
  obtain ⟨r', r, h1, h2, h3, h4⟩ := h.predict hR o.sym
  have hm' : (m : ℝ) + 1 ≤ T := by exact_mod_cast hm
  have hm0 : (0 : ℝ) ≤ m := Nat.cast_nonneg m
  have hlog : Real.log (2 * (m + 1)) ≤ Real.log (2 * T) := Real.log_le_log (by linarith) (by linarith)
  have ho' : o.weight = 1 := ho
  refine ⟨r', R.ktBump s' o.sym 1, r, s.bump o.sym 1, ?_, ?_, h.bump hR o.sym, ?_, le_trans h4 hlog⟩
  · simp only [ktPredictor, ktUpdate, h1, ho', ok_bind, pure_eq_ok]
  · simp only [KTBinary.predictor, KTBinary.update, h2, ho', ok_bind, pure_eq_ok]
  · simp only [ktRel, sub_zero]
    refine le_trans h3 ?_
    have h5 : ε * |r| ≤ ε * Real.log (2 * T) := mul_le_mul_of_nonneg_left (le_trans h4 hlog) e0
    have h6 : ε * (m + 1) ≤ ε * T := mul_le_mul_of_nonneg_left hm' e0
    linarith

theorem log_ge {T : ℕ} (hT : 1 ≤ T) : 69 / 100 ≤ Real.log (2 * T) := by
  have h1 : (1 : ℝ) ≤ T := by exact_mod_cast hT
  have := Real.log_two_gt_d9
  have := Real.log_le_log (by norm_num) (by linarith : (2 : ℝ) ≤ 2 * T)
  linarith

theorem seq_sim (hR : R.Accurate ε) {σ' σ α : Type} {P' : Predictor σ' α} {P : Predictor σ α} {T : ℕ} {β ρ G : ℝ}
    {Sim : Rel σ' σ} (hB : BaseSim P' P (fun o => o.weight = 1) T β ρ Sim) (hβ : 0 ≤ β) (hρ : 0 ≤ ρ) (hG0 : 0 ≤ G)
    (hG : T * (ρ + (β + ε * G)) ≤ G) (seq hist : List α) (m : ℕ) (hm : m + seq.length ≤ T) (s' : σ') (s : σ) (hs : Sim.sim m s' s)
    (x' x : ℝ) (hx : |x| ≤ m * ρ) (hx' : |(x' - x) - Sim.gap s' s| ≤ m * (β - Sim.γ + ε * G)) :
    ∃ r' t' r t hh, R.seqLoop P' 1 s' seq hist x' = .ok (r', t', hh) ∧ P.updateSeqLoop 1 s seq hist x = .ok (r, t, hh) ∧
      |r' - r| ≤ (m + seq.length : ℕ) * (β + ε * G) := by
  have e0 := hR.nonneg
  have hεG : 0 ≤ ε * G := mul_nonneg e0 hG0
  induction seq generalizing hist m s' s x' x with
  | nil => exact ⟨x', s', x, s, hist, rfl, rfl, by simpa using Rel.near hB hs hx'⟩
  | cons a seq ih =>
    rw [List.length_cons] at hm
    obtain ⟨r', t', r, t, h1, h2, h3, h4, h5⟩ := hB.step m s' s ⟨a, hist, 1⟩ (by omega) hs rfl
    have hmT : ((m + 1 : ℕ) : ℝ) ≤ T := by exact_mod_cast (by omega)
    have hb : ((m : ℝ) + 1) * (ρ + (β + ε * G)) ≤ G := by
      refine le_trans ?_ hG
      have := mul_le_mul_of_nonneg_right hmT (by linarith : 0 ≤ ρ + (β + ε * G))
      push_cast at this
      exact this
    obtain ⟨g1, g2, -⟩ := base_step hR hx hx' h5 h4 (hB.gap _ _ _ h3) hb hεG
    obtain ⟨u', v', u, v, hh, k1, k2, k3⟩ := ih (hist ++ [a]) (m + 1) (by omega) t' t h3 _ _ g1 g2
    refine ⟨u', v', u, v, hh, ?_, ?_, ?_⟩
    · simp only [seqLoop, h1, ok_bind]; exact k1
    · simp only [Predictor.updateSeqLoop, h2, ok_bind]; exact k2
    · rw [List.length_cons, show m + (seq.length + 1) = m + 1 + seq.length by omega]; exact k3

end Arith

/-- **C99 (KT).** The sum that the loop of `update_seq` computes in rounded arithmetic for a new `KTBinary` is near the exact one: the error grows at
most like the square of the length. -/
theorem C99_kt_sequence (hR : R.Accurate ε) (seq hist : List Bool) (hT : 1 ≤ seq.length) (hε : 32 * ε * seq.length ≤ 1) :
    ∃ r' t' r t hh, R.seqLoop R.ktPredictor 1 (KTBinary.init none) seq hist 0 = .ok (r', t', hh) ∧
      KTBinary.predictor.updateSeqLoop 1 (KTBinary.init none) seq hist 0 = .ok (r, t, hh) ∧
      |r' - r| ≤ ε * seq.length ^ 2 * (3 * Real.log (2 * seq.length) + 5) := by
  have e0 := hR.nonneg
  generalize hTT : seq.length = T at *
  have h1 : (1 : ℝ) ≤ T := by exact_mod_cast hT
  have hρ := log_ge hT
  set ρ := Real.log (2 * T) with hρd
  have hTe : ε * T ≤ 1 / 32 := by linarith
  have hTρ : 0 ≤ T * ρ := by nlinarith
  have hεT : ε ≤ ε * T := by nlinarith
  have hG : (T : ℝ) * (ρ + (ε * (ρ + 5 * T) + ε * (2 * T * ρ))) ≤ 2 * T * ρ := by
    have : ρ + (ε * (ρ + 5 * T) + ε * (2 * T * ρ)) ≤ 2 * ρ := by
      have h2 : ε * ρ ≤ 1 / 32 * ρ := mul_le_mul_of_nonneg_right (by linarith) (by linarith)
      have h3 : ε * T * ρ ≤ 1 / 32 * ρ := mul_le_mul_of_nonneg_right hTe (by linarith)
      nlinarith
    calc (T : ℝ) * (ρ + (ε * (ρ + 5 * T) + ε * (2 * T * ρ))) ≤ T * (2 * ρ) := mul_le_mul_of_nonneg_left this (by linarith)
      _ = 2 * T * ρ := by ring
  obtain ⟨r', t', r, t, hh, g1, g2, g3⟩ := seq_sim hR (ktBase hR T) (mul_nonneg e0 (by linarith)) (by linarith) (by linarith : 0 ≤ 2 * T * ρ) hG
    seq hist 0 (by omega) _ _ (KtSim.init : KtSim ε 0 _ _) 0 0 (by simp) (by simp [ktRel])
  refine ⟨r', t', r, t, hh, g1, g2, le_trans g3 ?_⟩
  rw [zero_add, hTT, ← hρd]
  have h4 : 0 ≤ ε * T := by positivity
  have h5 : ε * T * ρ ≤ ε * T * ρ * T := by
    have : 0 ≤ ε * T * ρ := mul_nonneg h4 (by linarith)
    nlinarith
  calc (T : ℝ) * (ε * (ρ + 5 * T) + ε * (2 * T * ρ)) = ε * T * ρ + 5 * ε * T ^ 2 + 2 * ε * T ^ 2 * ρ := by ring
    _ ≤ ε * T * ρ * T + 5 * ε * T ^ 2 + 2 * ε * T ^ 2 * ρ := by linarith
    _ = _ := by ring

/-! ### C100 -/

namespace Arith

theorem run_sim (hR : R.Accurate ε) {σ' σ κ α : Type} [DecidableEq κ] [Fintype κ] {P' : Predictor σ' α} {P : Predictor σ α} {A : Obs α → Prop}
    {T D : ℕ} {β ρ G : ℝ} {Sim : Rel σ' σ} {f' : σ'} {f : σ} {ctx : List α → List κ} (hB : BaseSim P' P A T β ρ Sim) (hβ : 0 ≤ β)
    (hρ : 0 ≤ ρ) (hG0 : 0 ≤ G) (hG : T * (ρ + stepErr ε β G D) + 2 ≤ G) (xs : List (Obs α)) (hA : ∀ o ∈ xs, A o)
    (hc : ∀ o ∈ xs, (ctx o.hist).length = D) (m : ℕ) (hm : m + xs.length ≤ T) (n' : CTWNode σ' κ) (n : CTWNode σ κ)
    (hn : NodeSim Sim f' f ε β ρ G D m n' n) :
    ∃ r' q' r q, (R.ctwPredictor P' f' ctx).run n' xs = .ok (r', q') ∧ (CTW.predictor P f ctx).run n xs = .ok (r, q) ∧
      NodeSim Sim f' f ε β ρ G D (m + xs.length) q' q ∧ r = q.lp - n.lp ∧ |r' - (q'.lp - n'.lp)| ≤ xs.length * (2 * (ε * G)) := by
  have e0 := hR.nonneg
  induction xs generalizing m n' n with
  | nil => exact ⟨0, n', 0, n, rfl, rfl, hn, by simp, by simp⟩
  | cons o xs ih =>
    rw [List.length_cons] at hm
    obtain ⟨r', q', r, q, h1, h2, h3, h4, h5, -⟩ := hn.update hR hB hβ hρ hG0 hG (hA o (by simp)) (ctx o.hist).reverse (by omega) le_rfl
      (by rw [List.length_reverse]; exact hc o (by simp))
    obtain ⟨u', v', u, v, k1, k2, k3, k4, k5⟩ := ih (fun x hx => hA x (by simp [hx])) (fun x hx => hc x (by simp [hx])) (m + 1) (by omega) q' q h3
    refine ⟨r' + u', v', r + u, v, ?_, ?_, ?_, ?_, ?_⟩
    · have h1' : (R.ctwPredictor P' f' ctx).update n' o.sym o.hist o.weight = .ok (r', q') := h1
      simp only [Predictor.run, h1', ok_bind, k1, pure_eq_ok]
    · have h2' : (CTW.predictor P f ctx).update n o.sym o.hist o.weight = .ok (r, q) := h2
      simp only [Predictor.run, h2', ok_bind, k2, pure_eq_ok]
    · rw [List.length_cons, show m + (xs.length + 1) = m + 1 + xs.length by omega]; exact k3
    · rw [h5, k4]; ring
    · have hbnd : ∀ (k : ℕ) (x : ℝ), k ≤ T → |x| ≤ k * ρ + k * stepErr ε β G D → |x| ≤ G := by
        intro k x hk hx
        have hk' : (k : ℝ) ≤ T := by exact_mod_cast hk
        have : 0 ≤ stepErr ε β G D := by
          have h6 : 0 ≤ ε * G := mul_nonneg e0 hG0
          have h7 : (0 : ℝ) ≤ D := Nat.cast_nonneg D
          simp only [stepErr]
          have := mul_nonneg h7 h6
          linarith
        have := mul_le_mul_of_nonneg_right hk' (by linarith : 0 ≤ ρ + stepErr ε β G D)
        linarith
      have b1 := hbnd (m + 1) q'.lp (by omega) (abs_le_of_near h3.lp.1 h3.lp.2)
      have b2 := hbnd m n'.lp (by omega) (abs_le_of_near hn.lp.1 hn.lp.2)
      have b3 : |r' - (q'.lp - n'.lp)| ≤ 2 * (ε * G) := by
        rw [h4]
        refine le_trans (hR.sub _ _) ?_
        have := abs_sub q'.lp n'.lp
        have := mul_le_mul_of_nonneg_left (by linarith : |q'.lp - n'.lp| ≤ 2 * G) e0
        linarith
      rw [List.length_cons]
      push_cast
      calc |r' + u' - (v'.lp - n'.lp)| = |(r' - (q'.lp - n'.lp)) + (u' - (v'.lp - q'.lp))| := by ring_nf
        _ ≤ _ := abs_add_le _ _
        _ ≤ _ := by linarith

/-- The choice of the bound on all numbers for `CTW` over `KTBinary`. -/
theorem ctw_room (hε0 : 0 ≤ ε) {T D : ℕ} (hT : 1 ≤ T) (hε : 100 * ε * T * (D + 1) ≤ 1) :
    T * (Real.log (2 * T) + stepErr ε (ε * (Real.log (2 * T) + 5 * T)) (2 * T * Real.log (2 * T) + 4) D) + 2 ≤ 2 * T * Real.log (2 * T) + 4 ∧
    T * (stepErr ε (ε * (Real.log (2 * T) + 5 * T)) (2 * T * Real.log (2 * T) + 4) D + 2 * (ε * (2 * T * Real.log (2 * T) + 4))) ≤
      22 * (D + 1) * ε * T ^ 2 * (Real.log (2 * T) + 2) := by
  have h1 : (1 : ℝ) ≤ T := by exact_mod_cast hT
  have hD : (0 : ℝ) ≤ D := Nat.cast_nonneg D
  have hρ := log_ge hT
  generalize Real.log (2 * T) = ρ at *
  have hTe : ε * T ≤ 1 / 100 := by
    have : 0 ≤ ε * T * D := by positivity
    linarith
  have hTD : ε * T * D ≤ 1 / 100 - ε * T := by linarith
  have e1 : 0 ≤ ε * T := by positivity
  have e2 : ε * T ≤ ε * T * T := by nlinarith
  have e3 : 0 ≤ ε * T * D := by positivity
  have hTρ : 69 / 100 ≤ T * ρ := by nlinarith
  constructor
  · simp only [stepErr]
    have k1 : ε * T * ρ ≤ 1 / 100 * (T * ρ) := by
      have : ε * T * ρ ≤ 1 / 100 * ρ := mul_le_mul_of_nonneg_right hTe (by linarith)
      nlinarith
    have k2 : ε * T * T ≤ 1 / 100 * T := mul_le_mul_of_nonneg_right hTe (by linarith)
    have k3 : ε * T * (2 * T * ρ + 4) ≤ 1 / 100 * (2 * T * ρ + 4) := mul_le_mul_of_nonneg_right hTe (by linarith)
    have k4 : ε * T * D * (2 * T * ρ + 4) ≤ 1 / 100 * (2 * T * ρ + 4) := mul_le_mul_of_nonneg_right (by linarith) (by linarith)
    have k5 : (T : ℝ) ≤ 100 / 69 * (T * ρ) := by nlinarith
    calc (T : ℝ) * (ρ + (ε * (ρ + 5 * T) + ε * (2 * T * ρ + 4) + 11 * D * (ε * (2 * T * ρ + 4)))) + 2 =
          T * ρ + ε * T * ρ + 5 * (ε * T * T) + ε * T * (2 * T * ρ + 4) + 11 * (ε * T * D * (2 * T * ρ + 4)) + 2 := by ring
      _ ≤ 2 * T * ρ + 4 := by linarith
  · simp only [stepErr]
    have k1 : ε * T * ρ ≤ ε * T * T * ρ := mul_le_mul_of_nonneg_right e2 (by linarith)
    have k2 : ε * T * D ≤ ε * T * T * D := mul_le_mul_of_nonneg_right e2 hD
    have k3 : 0 ≤ ε * T * T := by positivity
    have k4 : 0 ≤ ε * T * T * ρ := mul_nonneg k3 (by linarith)
    calc (T : ℝ) * (ε * (ρ + 5 * T) + ε * (2 * T * ρ + 4) + 11 * D * (ε * (2 * T * ρ + 4)) + 2 * (ε * (2 * T * ρ + 4))) =
          ε * T * ρ + 5 * (ε * T * T) + 6 * (ε * T * T * ρ) + 12 * (ε * T) + 22 * (ε * T * T * ρ * D) + 44 * (ε * T * D) := by ring
      _ ≤ 22 * (ε * T * T * ρ) + 44 * (ε * T * T) + 22 * (ε * T * T * ρ * D) + 44 * (ε * T * T * D) := by linarith
      _ = _ := by ring

end Arith

/-- **C100 (CTW).** In rounded arithmetic no update of a `CTW` over `KTBinary` raises, and the sum of the values it returns is near that of exact arithmetic: the error is at
most proportional to the depth and, up to a logarithm, to the square of the number of updates. -/
theorem C100_ctw_sum (hR : R.Accurate ε) {κ : Type} [DecidableEq κ] [Fintype κ] (ctx : List Bool → List κ) (D : ℕ) (xs : List (Obs Bool))
    (hw : ∀ o ∈ xs, o.weight = 1) (hc : ∀ o ∈ xs, (ctx o.hist).length = D) (hT : 1 ≤ xs.length) (hε : 100 * ε * xs.length * (D + 1) ≤ 1) :
    ∃ r' q' r q, (R.ctwPredictor R.ktPredictor (KTBinary.init none) ctx).run (CTW.init (KTBinary.init none)) xs = .ok (r', q') ∧
      (CTW.predictor KTBinary.predictor (KTBinary.init none) ctx).run (CTW.init (KTBinary.init none)) xs = .ok (r, q) ∧
      |r' - r| ≤ 22 * (D + 1) * ε * xs.length ^ 2 * (Real.log (2 * xs.length) + 2) := by
  have e0 := hR.nonneg
  obtain ⟨hG, hE⟩ := ctw_room e0 hT hε
  have h1 : (1 : ℝ) ≤ xs.length := by exact_mod_cast hT
  have hρ := log_ge hT
  have hG0 : 0 ≤ 2 * (xs.length : ℝ) * Real.log (2 * xs.length) + 4 := by
    have := mul_nonneg (by linarith : (0 : ℝ) ≤ 2 * xs.length) (by linarith : 0 ≤ Real.log (2 * xs.length))
    linarith
  obtain ⟨r', q', r, q, k1, k2, k3, k4, k5⟩ := run_sim hR (κ := κ) (ctx := ctx) (ktBase hR xs.length) (mul_nonneg e0 (by linarith)) (by linarith) hG0 hG
    xs hw hc 0 (by omega) (CTW.init (KTBinary.init none)) (CTW.init (KTBinary.init none)) (NodeSim.new (KtSim.init : KtSim ε 0 _ _) rfl D)
  refine ⟨r', q', r, q, k1, k2, le_trans ?_ hE⟩
  rw [zero_add] at k3
  have h6 := k3.lp.2
  have z1 : (CTW.init (KTBinary.init none) : CTWNode KTBinary κ).lp = 0 := rfl
  rw [z1, sub_zero] at k4 k5
  rw [k4]
  calc |r' - q.lp| = |(r' - q'.lp) + (q'.lp - q.lp)| := by ring_nf
    _ ≤ _ := abs_add_le _ _
    _ ≤ _ := by linarith

/-- **C100 (predictions).** In rounded arithmetic, after fewer than `T` updates, the probabilities which `CTW` over `KTBinary` gives to 0 and 1 sum to nearly 1, and each
is near that of exact arithmetic: their logarithms differ by no more than twice the bound of `C100_ctw_sum`. -/
theorem C100_ctw_predict (hR : R.Accurate ε) {κ : Type} [DecidableEq κ] [Fintype κ] (ctx : List Bool → List κ) (D T : ℕ) (xs : List (Obs Bool))
    (hw : ∀ o ∈ xs, o.weight = 1) (hc : ∀ h, (ctx h).length = D) (hT : xs.length < T) (hε : 100 * ε * T * (D + 1) ≤ 1) :
    ∃ r' q' r q, (R.ctwPredictor R.ktPredictor (KTBinary.init none) ctx).run (CTW.init (KTBinary.init none)) xs = .ok (r', q') ∧
      (CTW.predictor KTBinary.predictor (KTBinary.init none) ctx).run (CTW.init (KTBinary.init none)) xs = .ok (r, q) ∧
      ∀ h, ∃ p' p : Bool → ℝ,
        (∀ b, ∃ t' t, (R.ctwPredictor R.ktPredictor (KTBinary.init none) ctx).logPredict q' b h = .ok (p' b, t') ∧
          (CTW.predictor KTBinary.predictor (KTBinary.init none) ctx).logPredict q b h = .ok (p b, t) ∧
          |p' b - p b| ≤ 2 * (22 * (D + 1) * ε * T ^ 2 * (Real.log (2 * T) + 2))) ∧
        |Real.log (Real.exp (p' false) + Real.exp (p' true))| ≤ 2 * (22 * (D + 1) * ε * T ^ 2 * (Real.log (2 * T) + 2)) := by
  have e0 := hR.nonneg
  obtain ⟨hG, hE⟩ := ctw_room e0 (by omega) hε
  have h1 : (1 : ℝ) ≤ T := by exact_mod_cast (by omega)
  have hρ := log_ge (T := T) (by omega)
  have hG0 : 0 ≤ 2 * (T : ℝ) * Real.log (2 * T) + 4 := by
    have := mul_nonneg (by linarith : (0 : ℝ) ≤ 2 * T) (by linarith : 0 ≤ Real.log (2 * T))
    linarith
  set E := 22 * (D + 1) * ε * T ^ 2 * (Real.log (2 * T) + 2) with hEd
  set G := 2 * (T : ℝ) * Real.log (2 * T) + 4 with hGd
  set β := ε * (Real.log (2 * T) + 5 * T) with hβd
  have hβ : 0 ≤ β := mul_nonneg e0 (by linarith)
  have hS : 0 ≤ stepErr ε β G D := by
    have h6 : 0 ≤ ε * G := mul_nonneg e0 hG0
    have h7 := mul_nonneg (Nat.cast_nonneg D : (0 : ℝ) ≤ D) h6
    simp only [stepErr]
    linarith
  obtain ⟨r', q', r, q, k1, k2, k3, -, -⟩ := run_sim hR (κ := κ) (ctx := ctx) (ktBase hR T) hβ (by linarith) hG0 hG
    xs hw (fun o _ => hc o.hist) 0 (by omega) (CTW.init (KTBinary.init none)) (CTW.init (KTBinary.init none)) (NodeSim.new (KtSim.init : KtSim ε 0 _ _) rfl D)
  rw [zero_add] at k3
  refine ⟨r', q', r, q, k1, k2, fun h => ?_⟩
  have key : ∀ b : Bool, ∃ p' p t' t, (R.ctwPredictor R.ktPredictor (KTBinary.init none) ctx).logPredict q' b h = .ok (p', t') ∧
      (CTW.predictor KTBinary.predictor (KTBinary.init none) ctx).logPredict q b h = .ok (p, t) ∧ |p' - p| ≤ 2 * E := by
    intro b
    obtain ⟨u', v', u, v, g1, g2, g3, g4, g5, -⟩ := k3.update hR (ktBase hR T) hβ (by linarith) hG0 hG (o := ⟨b, h, 1⟩) rfl (ctx h).reverse hT le_rfl
      (by rw [List.length_reverse]; exact hc h)
    have hbnd : ∀ (k : ℕ) (x : ℝ), k ≤ T → |x| ≤ k * Real.log (2 * T) + k * stepErr ε β G D → |x| ≤ G := by
      intro k x hk hx
      have hk' : (k : ℝ) ≤ T := by exact_mod_cast hk
      have := mul_le_mul_of_nonneg_right hk' (by linarith : 0 ≤ Real.log (2 * T) + stepErr ε β G D)
      linarith
    have b1 := hbnd (xs.length + 1) v'.lp (by omega) (abs_le_of_near g3.lp.1 g3.lp.2)
    have b2 := hbnd xs.length q'.lp (by omega) (abs_le_of_near k3.lp.1 k3.lp.2)
    have b3 : |u' - (v'.lp - q'.lp)| ≤ 2 * (ε * G) := by
      rw [g4]
      refine le_trans (hR.sub _ _) ?_
      have := abs_sub v'.lp q'.lp
      have := mul_le_mul_of_nonneg_left (by linarith : |v'.lp - q'.lp| ≤ 2 * G) e0
      linarith
    have b4 : |v'.lp - v.lp| ≤ T * stepErr ε β G D :=
      le_trans g3.lp.2 (mul_le_mul_of_nonneg_right (by exact_mod_cast (by omega)) hS)
    have b5 : |q'.lp - q.lp| ≤ T * stepErr ε β G D :=
      le_trans k3.lp.2 (mul_le_mul_of_nonneg_right (by exact_mod_cast (by omega)) hS)
    have b6 : |u' - u| ≤ 2 * E := by
      have h6 : 0 ≤ ε * G := mul_nonneg e0 hG0
      have h7 : ε * G ≤ T * (ε * G) := by nlinarith
      rw [g5, abs_le]
      rw [abs_le] at b3 b4 b5
      constructor <;> linarith
    have c1 := (C99_predict_is_update R R.ktPredictor (KTBinary.init none) ctx).2 (C99_predict_is_update R R.ktPredictor (KTBinary.init none) ctx).1
      q' b h 1
    have c2 := (C99_predict_is_update Arith.exact Arith.exact.ktPredictor (KTBinary.init none) ctx).2
      (C99_predict_is_update Arith.exact Arith.exact.ktPredictor (KTBinary.init none) ctx).1 q b h 1
    rw [(C99_exact KTBinary.predictor (KTBinary.init none) ctx).2.1, (C99_exact KTBinary.predictor (KTBinary.init none) ctx).2.2.1] at c2
    have d1 : (R.ctwPredictor R.ktPredictor (KTBinary.init none) ctx).update q' b h 1 = .ok (u', v') := g1
    have d2 : (CTW.predictor KTBinary.predictor (KTBinary.init none) ctx).update q b h 1 = .ok (u, v) := g2
    rw [d1] at c1
    rw [d2] at c2
    cases hp' : (R.ctwPredictor R.ktPredictor (KTBinary.init none) ctx).logPredict q' b h with
    | error e => rw [hp'] at c1; cases c1
    | ok y =>
      cases hp : (CTW.predictor KTBinary.predictor (KTBinary.init none) ctx).logPredict q b h with
      | error e => rw [hp] at c2; cases c2
      | ok z =>
        obtain ⟨y1, y2⟩ := y
        obtain ⟨z1, z2⟩ := z
        rw [hp'] at c1
        rw [hp] at c2
        cases c1
        cases c2
        exact ⟨_, _, _, _, rfl, rfl, b6⟩
  choose p' p hp using key
  refine ⟨p', p, fun b => ?_, ?_⟩
  · obtain ⟨t', t, h2, h3, h4⟩ := hp b
    exact ⟨t', t, h2, h3, h4⟩
  have hL := CTWNode.lawful (fresh := KTBinary.init none) KTBinary.lawful hc
  obtain ⟨_, q2, k4, k5⟩ := hL.updateLawful.run_ok (CTWNode.WF.new (by norm_num [KTBinary.init]) D) (xs := xs)
    (fun o ho => ⟨by cases o.sym <;> simp, by have := hw o ho; linarith⟩)
  have k4' : (CTW.predictor KTBinary.predictor (KTBinary.init none) ctx).run (CTW.init (KTBinary.init none)) xs = .ok (_, q2) := k4
  rw [k2] at k4'
  cases k4'
  have hn := hL.normalised q h k5
  obtain ⟨t0', t0, h2, h3, h4⟩ := hp false
  obtain ⟨t1', t1, h5, h6, h7⟩ := hp true
  simp only [List.map_cons, List.map_nil, List.sum_cons, List.sum_nil, add_zero, h3, h6, Predictor.probOf] at hn
  rw [abs_le] at h4 h7 ⊢
  have l0 : Real.exp (p' false) ≤ Real.exp (2 * E) * Real.exp (p false) := by rw [← Real.exp_add]; exact Real.exp_le_exp.2 (by linarith)
  have l1 : Real.exp (p' true) ≤ Real.exp (2 * E) * Real.exp (p true) := by rw [← Real.exp_add]; exact Real.exp_le_exp.2 (by linarith)
  have u0 : Real.exp (-(2 * E)) * Real.exp (p false) ≤ Real.exp (p' false) := by rw [← Real.exp_add]; exact Real.exp_le_exp.2 (by linarith)
  have u1 : Real.exp (-(2 * E)) * Real.exp (p true) ≤ Real.exp (p' true) := by rw [← Real.exp_add]; exact Real.exp_le_exp.2 (by linarith)
  have hpos : 0 < Real.exp (p' false) + Real.exp (p' true) := by positivity
  constructor
  · rw [Real.le_log_iff_exp_le hpos]
    calc Real.exp (-(2 * E)) = Real.exp (-(2 * E)) * (Real.exp (p false) + Real.exp (p true)) := by rw [hn, mul_one]
      _ ≤ _ := by rw [mul_add]; linarith
  · rw [Real.log_le_iff_le_exp hpos]
    calc Real.exp (p' false) + Real.exp (p' true) ≤ Real.exp (2 * E) * (Real.exp (p false) + Real.exp (p true)) := by rw [mul_add]; linarith
      _ = _ := by rw [hn, mul_one]

/-- An accurate arithmetic that is not exact: every result is a little too big. -/
example : ∃ R : Arith, R.Accurate (2⁻¹ ^ 52) ∧ R.add 1 1 ≠ 2 := by
  refine ⟨⟨fun x y => (x + y) * (1 + 2⁻¹ ^ 52), fun x y => (x - y) * (1 + 2⁻¹ ^ 52), fun x y => x * y * (1 + 2⁻¹ ^ 52),
    fun x y => x / y * (1 + 2⁻¹ ^ 52), fun x => Real.log x * (1 + 2⁻¹ ^ 52), fun x => Real.exp x * (1 + 2⁻¹ ^ 52)⟩, ?_, by norm_num⟩
  have key : ∀ x : ℝ, |x * (1 + 2⁻¹ ^ 52) - x| ≤ 2⁻¹ ^ 52 * |x| := by
    intro x
    rw [show x * (1 + 2⁻¹ ^ 52) - x = 2⁻¹ ^ 52 * x by ring, abs_mul, abs_of_pos (by norm_num)]
  refine ⟨by norm_num, by norm_num, fun x y => key _, fun x y => key _, fun x y => key _, fun x y _ => key _, fun x _ => key _, fun x _ => ⟨?_, ?_⟩⟩
  · have := Real.exp_pos x
    positivity
  · have h := key (Real.exp x)
    rw [abs_of_pos (Real.exp_pos x)] at h
    refine le_trans h ?_
    have : (0 : ℝ) ≤ 2⁻¹ ^ 52 := by positivity
    linarith

/-- For a `CTW` of depth 8, ten thousand updates and errors of `2 ^ -52`, the bound of `C100_ctw_sum` is less than a thousandth of a nat. -/
example : 100 * (2⁻¹ ^ 52 : ℝ) * (10000 : ℕ) * ((8 : ℕ) + 1) ≤ 1 ∧
    22 * ((8 : ℕ) + 1) * (2⁻¹ ^ 52 : ℝ) * ((10000 : ℕ) : ℝ) ^ 2 * (Real.log (2 * (10000 : ℕ)) + 2) < 1 / 1000 := by
  refine ⟨by norm_num, ?_⟩
  have h1 : Real.log (2 * (10000 : ℕ)) ≤ Real.log (2 ^ 15) := Real.log_le_log (by norm_num) (by norm_num)
  rw [Real.log_pow] at h1
  have h2 := Real.log_two_lt_d9
  push_cast at h1 ⊢
  have h3 : Real.log (2 * 10000) + 2 ≤ 13 := by linarith
  generalize Real.log (2 * 10000) = x at h3
  norm_num
  linarith

/-- Observations meeting the hypotheses of `C100_ctw_sum`. -/
example : ∀ o ∈ ([⟨true, [], 1⟩, ⟨false, [true], 1⟩] : List (Obs Bool)), o.weight = 1 ∧ (CTW.mkcontext 2 false o.hist).length = 2 := by
  simp [CTW.mkcontext, pyTail]

end Verif
