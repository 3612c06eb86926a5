import Verif.Proofs.RoundingPTW
import Verif.Props.Rounding

/-!
# C109: rounding errors of partition tree weighting
-/

namespace Verif

open Arith

variable {R : Arith} {ε : ℝ}

/-- With exact arithmetic the updates with rounding are those of the other files, also if making a base model raises. -/
theorem Arith.ptw_exact {σ α : Type} (P : Predictor σ α) (fresh : Py σ) (h0 height : ℕ) (s : PTW σ) (a : α) (h : List α) (w : ℝ) :
    Arith.exact.ptwUpdate P fresh h0 s a h w = PTW.update P fresh h0 s a h w ∧
    Arith.exact.ptwFixedUpdate P fresh h0 height s a h w = PTWFixedLength.update P fresh h0 height s a h w := by
  have hl : ∀ v1 v2, Arith.exact.logsumexp2 v1 v2 = .ok (Verif.logsumexp2 v1 v2) :=
    (C99_exact (κ := Bool) KTBinary.predictor (KTBinary.init none) (fun _ => [])).2.2.2
  have hc : ∀ b n x, Arith.exact.ptwCorrect b n x = .ok (PTWData.correct b n x) := by
    intro b n
    induction n with
    | zero => intro x; rfl
    | succ n ih =>
      intro x
      rw [ptwCorrect, hl, ok_bind, ih]
      rfl
  have hb : ∀ d : PTWData σ, Arith.exact.ptwBaseStep P d a h w = d.baseStep P a h w := fun d => rfl
  have hleaf : ∀ d : PTWData σ, Arith.exact.ptwLeafUpdate P d a h w = PTWNode.leafUpdate P d a h w := fun d => rfl
  have hcomb : ∀ (d : PTWData σ) r, Arith.exact.ptwCombine d r = .ok (PTWNode.combine d r) := by
    intro d r
    rw [ptwCombine, hc, ok_bind, hl]
    rfl
  have hpr : ∀ d : PTWData σ, Arith.exact.ptwPromoted P fresh h0 d a h w = PTWNode.promoted P fresh h0 d a h w := by
    intro d
    simp only [ptwPromoted, PTWNode.promoted, hb, hleaf, hcomb]
    rfl
  have hn : ∀ n : PTWNode σ, Arith.exact.ptwNodeUpdate P fresh h0 a h w n = n.update P fresh h0 a h w := by
    intro n
    induction n with
    | leaf d => rw [ptwNodeUpdate, PTWNode.update, hpr, hleaf]
    | inner d r ih =>
      rw [ptwNodeUpdate, PTWNode.update, hpr, ih, hb]
      simp only [hcomb]
      rfl
  have ha : Arith.exact.ptwAdjusted s = .ok s.adjusted := by
    rw [ptwAdjusted, PTW.adjusted]
    split
    · rw [hl]; rfl
    · rfl
  constructor
  · rw [ptwUpdate, PTW.update, ha, ok_bind, hn]
    rfl
  · rw [ptwFixedUpdate, PTWFixedLength.update, hn]
    simp only [hc]
    rfl

/-- **C109 (faithfulness).** With exact arithmetic the updates with rounding are those of the other files. -/
theorem C109_exact {σ α : Type} (P : Predictor σ α) (fresh : σ) (h0 height : ℕ) (s : PTW σ) (a : α) (h : List α) (w : ℝ) :
    (Arith.exact.ptwPredictor P fresh h0).update s a h w = (PTW.predictor P fresh h0).update s a h w ∧
    (Arith.exact.ptwFixedPredictor P fresh h0 height).update s a h w = (PTWFixedLength.predictor P fresh h0 height).update s a h w :=
  Arith.ptw_exact P (.ok fresh) h0 height s a h w

namespace Arith

/-- A run, from what holds of each update. -/
theorem ptw_run {σ' σ α : Type} {Q' : Predictor (PTW σ') α} {Q : Predictor (PTW σ) α} {A : Obs α → Prop} {T : ℕ} {δ : ℝ}
    {Inv : ℕ → PTW σ' → PTW σ → Prop}
    (hstep : ∀ m s' s o, m < T → Inv m s' s → A o → ∃ r' t' r t, Q'.update s' o.sym o.hist o.weight = .ok (r', t') ∧
      Q.update s o.sym o.hist o.weight = .ok (r, t) ∧ Inv (m + 1) t' t ∧ r = t.logProb - s.logProb ∧
      |r' - (t'.logProb - s'.logProb)| ≤ δ)
    (xs : List (Obs α)) (hA : ∀ o ∈ xs, A o) (m : ℕ) (hm : m + xs.length ≤ T) (s' : PTW σ') (s : PTW σ) (hs : Inv m s' s) :
    ∃ r' q' r q, Q'.run s' xs = .ok (r', q') ∧ Q.run s xs = .ok (r, q) ∧ Inv (m + xs.length) q' q ∧ r = q.logProb - s.logProb ∧
      |r' - (q'.logProb - s'.logProb)| ≤ xs.length * δ := by
  induction xs generalizing m s' s with
  | nil => exact ⟨0, s', 0, s, rfl, rfl, hs, by simp, by simp⟩
  | cons o xs ih =>
    rw [List.length_cons] at hm
    obtain ⟨r', t', r, t, h1, h2, h3, h4, h5⟩ := hstep m s' s o (by omega) hs (hA o (by simp))
    obtain ⟨u', v', u, v, k1, k2, k3, k4, k5⟩ := ih (fun x hx => hA x (by simp [hx])) (m + 1) (by omega) t' t h3
    refine ⟨r' + u', v', r + u, v, ?_, ?_, ?_, ?_, ?_⟩
    · simp only [Predictor.run, h1, ok_bind, k1, pure_eq_ok]
    · simp only [Predictor.run, h2, ok_bind, k2, pure_eq_ok]
    · rw [List.length_cons, show m + (xs.length + 1) = m + 1 + xs.length by omega]; exact k3
    · rw [h4, k4]; ring
    · rw [List.length_cons]
      push_cast
      calc |r' + u' - (v'.logProb - s'.logProb)| = |(r' - (t'.logProb - s'.logProb)) + (u' - (v'.logProb - t'.logProb))| := by ring_nf
        _ ≤ _ := abs_add_le _ _
        _ ≤ _ := by linarith

section

variable {σ' σ α : Type} {β ρ G : ℝ} {Sim : Rel σ' σ} {f' : σ'} {f : σ} {P' : Predictor σ' α} {P : Predictor σ α}
  {A : Obs α → Prop} {T H h0 height : ℕ}

/-- A rounded and an exact `PTWFixedLength` after the same `m` updates. -/
def FixedSim (Sim : Rel σ' σ) (ε β ρ G : ℝ) (h0 H : ℕ) (m : ℕ) (s' : PTW σ') (s : PTW σ) : Prop :=
  (∃ h ≤ H, TreeSim Sim ε β ρ G h0 h m s'.tree s.tree) ∧ |s.logProb| ≤ m * ρ ∧ |s'.logProb - s.logProb| ≤ m * ptwErr ε β G H

theorem FixedSim.step (hR : R.Accurate ε) (hB : BaseSim P' P A T β ρ Sim) (hβ : 0 ≤ β) (hρ : 0 ≤ ρ) (hεG : 0 ≤ ε * G)
    (hG : T * (ρ + ptwErr ε β G H) + 2 ≤ G) (hf : Sim.sim 0 f' f) (hfg : Sim.gap f' f = 0) (hTH : T ≤ 2 ^ H) (hH : height ≤ H) (m : ℕ)
    (s' : PTW σ') (s : PTW σ) (o : Obs α)
    (hm : m < T) (hs : FixedSim Sim ε β ρ G h0 H m s' s) (ho : A o) :
    ∃ r' t' r t, (R.ptwFixedPredictor P' f' h0 height).update s' o.sym o.hist o.weight = .ok (r', t') ∧
      (PTWFixedLength.predictor P f h0 height).update s o.sym o.hist o.weight = .ok (r, t) ∧ FixedSim Sim ε β ρ G h0 H (m + 1) t' t ∧
      r = t.logProb - s.logProb ∧ |r' - (t'.logProb - s'.logProb)| ≤ 2 * (ε * G) ∧ r' = R.sub t'.logProb s'.logProb ∧
      t.logProb = PTWData.correct t.tree.data.baseLP (height - t.tree.data.height) t.tree.data.lp ∧
      (T ≤ 2 ^ height → s.logProb = PTWData.correct s.tree.data.baseLP (height - s.tree.data.height) s.tree.data.lp → |r| ≤ ρ) := by
  obtain ⟨⟨h, hh, ht⟩, hl, hl'⟩ := hs
  obtain ⟨n', n, k1, k2, k3, k4, k5, k6⟩ := TreeSim.update (Sim := Sim) (Nx := Sim.sim) hR hB.stepSim hβ hρ hεG hG hf hfg ho hTH ht hm hh
  have hstep : T ≤ 2 ^ height → s.logProb = PTWData.correct s.tree.data.baseLP (height - s.tree.data.height) s.tree.data.lp →
      |PTWData.correct n.data.baseLP (height - (if 2 ^ h ≤ m then h + 1 else h)) n.data.lp - s.logProb| ≤ ρ := by
    intro hT1 hs1
    rw [hs1, ht.data.height]
    by_cases hc : 2 ^ h ≤ m
    · have : h < height := (Nat.pow_lt_pow_iff_right (by norm_num : 1 < 2)).1 (by omega)
      rw [if_pos hc] at k6 ⊢
      rw [show height - h = (height - (h + 1)) + 1 by omega, PTWData.correct]
      exact correct_lipschitz k5 _ _ _ k6
    · rw [if_neg hc] at k6 ⊢
      exact correct_lipschitz k5 _ _ _ k6
  generalize (if 2 ^ h ≤ m then h + 1 else h) = g at k3 k4 hstep
  have hd := k3.data
  have hm1 : (1 : ℝ) ≤ (m + 1 : ℕ) := by
    push_cast
    have : (0 : ℝ) ≤ m := Nat.cast_nonneg m
    linarith
  have hroom := ptw_room (k := m + 1) (x := ρ + ptwErr ε β G H) hβ hρ hεG hG hm le_rfl
  have hroom0 := ptw_room (k := m) (x := ρ + ptwErr ε β G H) hβ hρ hεG hG hm.le le_rfl
  have hdiff : (0 : ℝ) ≤ (height - g : ℕ) * (8 * (ε * G)) := by positivity
  have hE : ptwErr ε β G g + (height - g : ℕ) * (8 * (ε * G)) ≤ ptwErr ε β G H := by
    rcases le_total g height with hg | hg
    · exact le_trans (ptwErr_mono hεG hg) (ptwErr_le hεG hH)
    · rw [Nat.sub_eq_zero_of_le hg]
      simpa using ptwErr_le hεG k4
  have hmE : (m + 1 : ℕ) * ptwErr ε β G g + (height - g : ℕ) * (8 * (ε * G)) ≤ (m + 1 : ℕ) * ptwErr ε β G H := by
    have := mul_le_mul_of_nonneg_left hE (by linarith : (0 : ℝ) ≤ (m + 1 : ℕ))
    have := mul_le_mul_of_nonneg_right hm1 hdiff
    linarith
  obtain ⟨y, hy, hyn, hyM⟩ := ptwCorrect_near hR hεG hd.baseLP (height - g) n'.data.lp n.data.lp ((m + 1 : ℕ) * ptwErr ε β G g)
    (le_trans hd.baseErr (mul_le_mul_of_nonneg_left (base_le_ptwErr hεG g) (by linarith))) hd.lpErr hd.lp (by linarith)
  have hyE : |y - PTWData.correct n.data.baseLP (height - g) n.data.lp| ≤ (m + 1 : ℕ) * ptwErr ε β G H := by linarith
  refine ⟨R.sub y s'.logProb, ⟨n', y, s'.adj⟩, PTWData.correct n.data.baseLP (height - g) n.data.lp - s.logProb,
    ⟨n, PTWData.correct n.data.baseLP (height - g) n.data.lp, s.adj⟩, ?_, ?_, ⟨⟨g, k4, k3⟩, hyM, hyE⟩, rfl, ?_, rfl, ?_, hstep⟩
  · show R.ptwFixedUpdate P' (.ok f') h0 height s' o.sym o.hist o.weight = _
    rw [ptwFixedUpdate, k1, ok_bind, hd.height', hy]
    rfl
  · show PTWFixedLength.update P (.ok f) h0 height s o.sym o.hist o.weight = _
    rw [PTWFixedLength.update, k2, ok_bind, hd.height]
    rfl
  · have b1 := abs_le_of_near hyM hyE
    have b2 := abs_le_of_near hl hl'
    refine le_trans (hR.sub _ _) ?_
    have := abs_sub y s'.logProb
    have := mul_le_mul_of_nonneg_left (by linarith : |y - s'.logProb| ≤ 2 * G) hR.nonneg
    linarith
  · show _ = PTWData.correct n.data.baseLP (height - n.data.height) n.data.lp
    rw [hd.height]

theorem FixedSim.update (hR : R.Accurate ε) (hB : BaseSim P' P A T β ρ Sim) (hβ : 0 ≤ β) (hρ : 0 ≤ ρ) (hεG : 0 ≤ ε * G)
    (hG : T * (ρ + ptwErr ε β G H) + 2 ≤ G) (hf : Sim.sim 0 f' f) (hfg : Sim.gap f' f = 0) (hTH : T ≤ 2 ^ H) (hH : height ≤ H) (m : ℕ)
    (s' : PTW σ') (s : PTW σ) (o : Obs α)
    (hm : m < T) (hs : FixedSim Sim ε β ρ G h0 H m s' s) (ho : A o) :
    ∃ r' t' r t, (R.ptwFixedPredictor P' f' h0 height).update s' o.sym o.hist o.weight = .ok (r', t') ∧
      (PTWFixedLength.predictor P f h0 height).update s o.sym o.hist o.weight = .ok (r, t) ∧ FixedSim Sim ε β ρ G h0 H (m + 1) t' t ∧
      r = t.logProb - s.logProb ∧ |r' - (t'.logProb - s'.logProb)| ≤ 2 * (ε * G) := by
  obtain ⟨r', t', r, t, k1, k2, k3, k4, k5, -⟩ := FixedSim.step (h0 := h0) (height := height) hR hB hβ hρ hεG hG hf hfg hTH hH m s' s o hm hs ho
  exact ⟨r', t', r, t, k1, k2, k3, k4, k5⟩

/-- A rounded and an exact `PTW` after the same `m` updates. -/
def RootSim (Sim : Rel σ' σ) (ε β ρ G : ℝ) (h0 H : ℕ) (m : ℕ) (s' : PTW σ') (s : PTW σ) : Prop :=
  (∃ h ≤ H, TreeSim Sim ε β ρ G h0 h m s'.tree s.tree ∧ |s.adj| ≤ (2 ^ h - 2 ^ h0) * (2 * ρ) ∧
    |s'.adj - s.adj| ≤ (2 ^ h - 2 ^ h0) * (2 * ptwErr ε β G H + 10 * (ε * G))) ∧
  |s.logProb| ≤ m * (5 * ρ) ∧ |s'.logProb - s.logProb| ≤ m * (5 * ptwErr ε β G H + 21 * (ε * G))

theorem RootSim.stepNext (hR : R.Accurate ε) {Nx : ℕ → σ' → σ → Prop} (hB : StepSim P' P A T β ρ Sim Nx) (hβ : 0 ≤ β) (hρ : 0 ≤ ρ) (hεG : 0 ≤ ε * G)
    (hG : T * (8 * (ρ + ptwErr ε β G H + 5 * (ε * G))) + 2 ≤ G) (hf : Sim.sim 0 f' f) (hfg : Sim.gap f' f = 0)
    (hTH : T ≤ 2 ^ H) (m : ℕ) (s' : PTW σ') (s : PTW σ) (o : Obs α)
    (hm : m < T) (hs : RootSim Sim ε β ρ G h0 H m s' s) (ho : A o) :
    ∃ r' t' r t, (R.ptwPredictor P' f' h0).update s' o.sym o.hist o.weight = .ok (r', t') ∧
      (PTW.predictor P f h0).update s o.sym o.hist o.weight = .ok (r, t) ∧ RootSim (Sim.next Nx) ε β ρ G h0 H (m + 1) t' t ∧
      r = t.logProb - s.logProb ∧ |r' - (t'.logProb - s'.logProb)| ≤ 2 * (ε * G) ∧ r' = R.sub t'.logProb s'.logProb ∧
      t.logProb = t.tree.data.lp + t.adj ∧ (s.logProb = s.tree.data.lp + s.adj → |r| ≤ ρ) := by
  have e0 := hR.nonneg
  obtain ⟨⟨h, hh, ht, ha, ha'⟩, hl, hl'⟩ := hs
  have hE0 : 0 ≤ ptwErr ε β G H := by linarith [base_le_ptwErr (β := β) hεG H]
  set E := ptwErr ε β G H with hE
  have hG1 : T * (ρ + ptwErr ε β G H) + 2 ≤ G := by
    have : (T : ℝ) * (ρ + E) ≤ T * (8 * (ρ + E + 5 * (ε * G))) := mul_le_mul_of_nonneg_left (by linarith) (Nat.cast_nonneg T)
    linarith
  -- everything up to `8 T (...)` is at most `G`
  have hroom : ∀ x : ℝ, x ≤ 8 * (ρ + E + 5 * (ε * G)) → T * x + 2 ≤ G := by
    intro x hx
    have := mul_le_mul_of_nonneg_left hx (Nat.cast_nonneg T : (0 : ℝ) ≤ T)
    linarith
  have hT : ∀ {k : ℕ} {x : ℝ}, k ≤ T → 0 ≤ x → k * x ≤ T * x := fun hk hx => mul_le_mul_of_nonneg_right (by exact_mod_cast hk) hx
  have hT1 : (1 : ℝ) ≤ T := by exact_mod_cast (by omega : 1 ≤ T)
  have hεT : ε * G ≤ T * (ε * G) := le_mul_of_one_le_left hεG hT1
  obtain ⟨n', n, k1, k2, k3, k4, k5, k6⟩ := ht.update hR hB hβ hρ hεG hG1 hf hfg ho hTH hm hh
  have hd := ht.data
  have hstep : s.logProb = s.tree.data.lp + s.adj → |n.data.lp + s.adjusted - s.logProb| ≤ ρ := by
    intro hs1
    have ec := complete_iff s.tree.data
    rw [hd.height, hd.count] at ec
    rw [hs1, PTW.adjusted]
    by_cases hc : 2 ^ h ≤ m
    · rw [if_pos hc] at k6
      rw [if_pos (ec.2 hc)]
      calc |n.data.lp + (s.adj + (s.tree.data.lp - (log05 + Verif.logsumexp2 s.tree.data.baseLP s.tree.data.lp))) - (s.tree.data.lp + s.adj)| =
            |n.data.lp - (log05 + Verif.logsumexp2 s.tree.data.baseLP s.tree.data.lp)| := by ring_nf
        _ ≤ ρ := k6
    · rw [if_neg hc] at k6
      rw [if_neg (fun h => hc (ec.1 h))]
      calc |n.data.lp + s.adj - (s.tree.data.lp + s.adj)| = |n.data.lp - s.tree.data.lp| := by ring_nf
        _ ≤ ρ := k6
  have hEh : ptwErr ε β G h ≤ E := ptwErr_le hεG hh
  have hmono : (2 : ℝ) ^ h0 ≤ 2 ^ h := pow_le_pow_right₀ (by norm_num) ht.min_le
  have hsize : (2 : ℝ) ^ h - 2 ^ h0 ≤ 2 * m := by
    have : ((2 ^ h : ℕ) : ℝ) ≤ ((2 ^ h0 + 2 * m : ℕ) : ℝ) := by exact_mod_cast ht.size
    push_cast at this
    linarith
  -- the adjustment
  have hadj : ∃ b', R.ptwAdjusted s' = .ok b' ∧
      |s.adjusted| ≤ (2 ^ (if 2 ^ h ≤ m then h + 1 else h) - 2 ^ h0) * (2 * ρ) ∧
      |b' - s.adjusted| ≤ (2 ^ (if 2 ^ h ≤ m then h + 1 else h) - 2 ^ h0) * (2 * E + 10 * (ε * G)) := by
    have ec' := complete_iff s'.tree.data
    have ec := complete_iff s.tree.data
    rw [hd.height', hd.count'] at ec'
    rw [hd.height, hd.count] at ec
    by_cases hc : 2 ^ h ≤ m
    · have hmh : m = 2 ^ h := le_antisymm ht.count_le hc
      have hmh' : (m : ℝ) = 2 ^ h := by rw [hmh]; push_cast; rfl
      have hm1 : (1 : ℝ) ≤ m := by
        rw [hmh']
        exact one_le_pow₀ (by norm_num)
      have hεm : ε * G ≤ m * (ε * G) := le_mul_of_one_le_left hεG hm1
      have hmE : m * ptwErr ε β G h ≤ m * E := mul_le_mul_of_nonneg_left hEh (Nat.cast_nonneg m)
      have hbase : |s'.tree.data.baseLP - s.tree.data.baseLP| ≤ m * E :=
        le_trans hd.baseErr (mul_le_mul_of_nonneg_left (by linarith [base_le_ptwErr (β := β) hεG H]) (Nat.cast_nonneg m))
      have hlpe : |s'.tree.data.lp - s.tree.data.lp| ≤ m * E := le_trans hd.lpErr hmE
      have q1 := abs_le_of_near hd.baseLP hbase
      have q2 := abs_le_of_near hd.lp hlpe
      have r1 := hroom (8 * (ρ + E + 5 * (ε * G))) le_rfl
      have r2 := hT hm.le (by linarith : 0 ≤ ρ + E)
      have r3 := hT hm.le hεG
      have r4 := hT hm.le hE0
      have r5 := hT hm.le hρ
      have hTρ : 0 ≤ T * ρ := by positivity
      have hTE : 0 ≤ T * E := by positivity
      have hTe : 0 ≤ T * (ε * G) := by positivity
      obtain ⟨l, hl1, hln⟩ := half_near hR hbase hlpe (G := G) (by linarith) (by linarith)
      have hhalf := half_bound hd.baseLP hd.lp
      rw [if_pos hc]
      set L' := R.add (R.log (1 / 2)) l
      set L := log05 + Verif.logsumexp2 s.tree.data.baseLP s.tree.data.lp
      have hL' := abs_le_of_near hhalf hln
      -- the difference
      have d1 : |(s'.tree.data.lp - L') - (s.tree.data.lp - L)| ≤ 2 * (m * E) + 8 * (ε * G) := by
        rw [abs_le] at hlpe hln ⊢
        constructor <;> linarith
      have d2 : |s'.tree.data.lp - L'| ≤ G := by
        have := abs_sub s'.tree.data.lp L'
        linarith
      have d3 : |R.sub s'.tree.data.lp L' - (s.tree.data.lp - L)| ≤ 2 * (m * E) + 9 * (ε * G) := by
        have g1 := hR.sub s'.tree.data.lp L'
        have g2 := mul_le_mul_of_nonneg_left d2 e0
        rw [abs_le] at g1 d1 ⊢
        constructor <;> linarith
      have d4 : |s.tree.data.lp - L| ≤ 2 * (m * ρ) := by
        have := abs_sub s.tree.data.lp L
        linarith [hd.lp]
      -- the sum
      have w1 : (2 ^ h - 2 ^ h0) * (2 * ρ) ≤ 2 * m * (2 * ρ) := mul_le_mul_of_nonneg_right hsize (by linarith)
      have w2 : (2 ^ h - 2 ^ h0) * (2 * E + 10 * (ε * G)) ≤ 2 * m * (2 * E + 10 * (ε * G)) := mul_le_mul_of_nonneg_right hsize (by linarith)
      have w3 : (2 ^ h - 2 ^ h0) * (2 * ρ) ≤ m * (2 * ρ) := by
        rw [hmh']
        exact mul_le_mul_of_nonneg_right (by linarith [pow_pos (by norm_num : (0 : ℝ) < 2) h0]) (by linarith)
      have w4 : (2 ^ h - 2 ^ h0) * (2 * E + 10 * (ε * G)) ≤ m * (2 * E + 10 * (ε * G)) := by
        rw [hmh']
        exact mul_le_mul_of_nonneg_right (by linarith [pow_pos (by norm_num : (0 : ℝ) < 2) h0]) (by linarith)
      have s1 := abs_le_of_near ha ha'
      have s2 := abs_le_of_near d4 d3
      have d5 : |s'.adj + R.sub s'.tree.data.lp L'| ≤ G := by
        have := abs_add_le s'.adj (R.sub s'.tree.data.lp L')
        linarith
      have d6 : |R.add s'.adj (R.sub s'.tree.data.lp L') - (s.adj + (s.tree.data.lp - L))| ≤
          (2 ^ h - 2 ^ h0) * (2 * E + 10 * (ε * G)) + 2 * (m * E) + 10 * (ε * G) := by
        have g1 := hR.add s'.adj (R.sub s'.tree.data.lp L')
        have g2 := mul_le_mul_of_nonneg_left d5 e0
        rw [abs_le] at g1 d3 ha' ⊢
        constructor <;> linarith
      have d7 : |s.adj + (s.tree.data.lp - L)| ≤ (2 ^ h - 2 ^ h0) * (2 * ρ) + 2 * (m * ρ) := by
        have := abs_add_le s.adj (s.tree.data.lp - L)
        linarith
      have hpow : (2 : ℝ) ^ (h + 1) - 2 ^ h0 = (2 ^ h - 2 ^ h0) + m := by rw [hmh', pow_succ]; ring
      refine ⟨R.add s'.adj (R.sub s'.tree.data.lp L'), ?_, ?_, ?_⟩
      · rw [ptwAdjusted, if_pos (ec'.2 hc), hl1]
        rfl
      · rw [PTW.adjusted, if_pos (ec.2 hc), hpow, add_mul]
        linarith
      · rw [PTW.adjusted, if_pos (ec.2 hc), hpow, add_mul]
        linarith
    · rw [if_neg hc]
      refine ⟨s'.adj, ?_, ?_, ?_⟩
      · rw [ptwAdjusted, if_neg (fun h => hc (ec'.1 h))]
      · rw [PTW.adjusted, if_neg (fun h => hc (ec.1 h))]; exact ha
      · rw [PTW.adjusted, if_neg (fun h => hc (ec.1 h))]; exact ha'
  obtain ⟨b', j1, j2, j3⟩ := hadj
  generalize (if 2 ^ h ≤ m then h + 1 else h) = g at k3 k4 j2 j3
  have hd1 := k3.data
  have hsize1 : (2 : ℝ) ^ g - 2 ^ h0 ≤ 2 * (m + 1 : ℕ) := by
    have : ((2 ^ g : ℕ) : ℝ) ≤ ((2 ^ h0 + 2 * (m + 1) : ℕ) : ℝ) := by exact_mod_cast k3.size
    push_cast at this ⊢
    linarith
  have hm1 : (1 : ℝ) ≤ (m + 1 : ℕ) := by
    push_cast
    have : (0 : ℝ) ≤ m := Nat.cast_nonneg m
    linarith
  have hεm : ε * G ≤ (m + 1 : ℕ) * (ε * G) := le_mul_of_one_le_left hεG hm1
  have v1 : (2 ^ g - 2 ^ h0) * (2 * ρ) ≤ 2 * (m + 1 : ℕ) * (2 * ρ) := mul_le_mul_of_nonneg_right hsize1 (by linarith)
  have v2 : (2 ^ g - 2 ^ h0) * (2 * E + 10 * (ε * G)) ≤ 2 * (m + 1 : ℕ) * (2 * E + 10 * (ε * G)) :=
    mul_le_mul_of_nonneg_right hsize1 (by linarith)
  have hlp1 : |n'.data.lp - n.data.lp| ≤ (m + 1 : ℕ) * E :=
    le_trans hd1.lpErr (mul_le_mul_of_nonneg_left (ptwErr_le hεG k4) (by linarith))
  have hsum : |n.data.lp + s.adjusted| ≤ (m + 1 : ℕ) * (5 * ρ) := by
    have := abs_add_le n.data.lp s.adjusted
    linarith [hd1.lp]
  have hsum' : |(n'.data.lp + b') - (n.data.lp + s.adjusted)| ≤ (m + 1 : ℕ) * (5 * E + 20 * (ε * G)) := by
    have y1 := abs_le.1 hlp1
    have y2 := abs_le.1 j3
    rw [abs_le]
    constructor <;> linarith [y1.1, y1.2, y2.1, y2.2]
  have r1 := hroom (8 * (ρ + E + 5 * (ε * G))) le_rfl
  have r2 := hT (k := m + 1) hm (by linarith : 0 ≤ 5 * ρ + (5 * E + 21 * (ε * G)))
  have r3 := hT hm.le (by linarith : 0 ≤ 5 * ρ + (5 * E + 21 * (ε * G)))
  have hTρ : 0 ≤ T * ρ := by positivity
  have hTE : 0 ≤ T * E := by positivity
  have hTe : 0 ≤ T * (ε * G) := by positivity
  have hsG : |n'.data.lp + b'| ≤ G := by
    have := abs_le_of_near hsum hsum'
    linarith
  have hlast : |R.add n'.data.lp b' - (n.data.lp + s.adjusted)| ≤ (m + 1 : ℕ) * (5 * E + 21 * (ε * G)) := by
    have g1 := abs_le.1 (hR.add n'.data.lp b')
    have g2 := mul_le_mul_of_nonneg_left hsG e0
    have y2 := abs_le.1 hsum'
    rw [abs_le]
    constructor <;> linarith [g1.1, g1.2, y2.1, y2.2]
  refine ⟨R.sub (R.add n'.data.lp b') s'.logProb, ⟨n', R.add n'.data.lp b', b'⟩, n.data.lp + s.adjusted - s.logProb,
    ⟨n, n.data.lp + s.adjusted, s.adjusted⟩, ?_, ?_, ⟨⟨g, k4, k3, j2, j3⟩, hsum, hlast⟩, rfl, ?_, rfl, rfl, hstep⟩
  · show R.ptwUpdate P' (.ok f') h0 s' o.sym o.hist o.weight = _
    rw [ptwUpdate, j1, ok_bind, k1]
    rfl
  · show PTW.update P (.ok f) h0 s o.sym o.hist o.weight = _
    rw [PTW.update, k2]
    rfl
  · have b1 := abs_le_of_near hsum hlast
    have b2 := abs_le_of_near hl hl'
    refine le_trans (hR.sub _ _) ?_
    have := abs_sub (R.add n'.data.lp b') s'.logProb
    have := mul_le_mul_of_nonneg_left (by linarith : |R.add n'.data.lp b' - s'.logProb| ≤ 2 * G) hR.nonneg
    linarith

theorem RootSim.step (hR : R.Accurate ε) (hB : BaseSim P' P A T β ρ Sim) (hβ : 0 ≤ β) (hρ : 0 ≤ ρ) (hεG : 0 ≤ ε * G)
    (hG : T * (8 * (ρ + ptwErr ε β G H + 5 * (ε * G))) + 2 ≤ G) (hf : Sim.sim 0 f' f) (hfg : Sim.gap f' f = 0)
    (hTH : T ≤ 2 ^ H) (m : ℕ) (s' : PTW σ') (s : PTW σ) (o : Obs α)
    (hm : m < T) (hs : RootSim Sim ε β ρ G h0 H m s' s) (ho : A o) :
    ∃ r' t' r t, (R.ptwPredictor P' f' h0).update s' o.sym o.hist o.weight = .ok (r', t') ∧
      (PTW.predictor P f h0).update s o.sym o.hist o.weight = .ok (r, t) ∧ RootSim Sim ε β ρ G h0 H (m + 1) t' t ∧
      r = t.logProb - s.logProb ∧ |r' - (t'.logProb - s'.logProb)| ≤ 2 * (ε * G) ∧ r' = R.sub t'.logProb s'.logProb ∧
      t.logProb = t.tree.data.lp + t.adj ∧ (s.logProb = s.tree.data.lp + s.adj → |r| ≤ ρ) :=
  RootSim.stepNext (h0 := h0) hR hB.stepSim hβ hρ hεG hG hf hfg hTH m s' s o hm hs ho

theorem RootSim.update (hR : R.Accurate ε) (hB : BaseSim P' P A T β ρ Sim) (hβ : 0 ≤ β) (hρ : 0 ≤ ρ) (hεG : 0 ≤ ε * G)
    (hG : T * (8 * (ρ + ptwErr ε β G H + 5 * (ε * G))) + 2 ≤ G) (hf : Sim.sim 0 f' f) (hfg : Sim.gap f' f = 0)
    (hTH : T ≤ 2 ^ H) (m : ℕ) (s' : PTW σ') (s : PTW σ) (o : Obs α)
    (hm : m < T) (hs : RootSim Sim ε β ρ G h0 H m s' s) (ho : A o) :
    ∃ r' t' r t, (R.ptwPredictor P' f' h0).update s' o.sym o.hist o.weight = .ok (r', t') ∧
      (PTW.predictor P f h0).update s o.sym o.hist o.weight = .ok (r, t) ∧ RootSim Sim ε β ρ G h0 H (m + 1) t' t ∧
      r = t.logProb - s.logProb ∧ |r' - (t'.logProb - s'.logProb)| ≤ 2 * (ε * G) := by
  obtain ⟨r', t', r, t, k1, k2, k3, k4, k5, -⟩ := RootSim.step (h0 := h0) hR hB hβ hρ hεG hG hf hfg hTH m s' s o hm hs ho
  exact ⟨r', t', r, t, k1, k2, k3, k4, k5⟩

end

/-- The choice of the bound on all numbers for `PTWFixedLength` over `KTBinary`. -/
theorem ptw_fixed_room (hε0 : 0 ≤ ε) {T H : ℕ} (hT : 1 ≤ T) (hε : 100 * ε * T * (H + 2) ≤ 1) :
    T * (Real.log (2 * T) + ptwErr ε (ε * (Real.log (2 * T) + 5 * T)) (2 * T * Real.log (2 * T) + 4) H) + 2 ≤ 2 * T * Real.log (2 * T) + 4 ∧
    T * (ptwErr ε (ε * (Real.log (2 * T) + 5 * T)) (2 * T * Real.log (2 * T) + 4) H + 2 * (ε * (2 * T * Real.log (2 * T) + 4))) ≤
      18 * (H + 2) * ε * T ^ 2 * (Real.log (2 * T) + 2) := by
  have h1 : (1 : ℝ) ≤ T := by exact_mod_cast hT
  have hH : (0 : ℝ) ≤ H := Nat.cast_nonneg H
  have hρ := log_ge hT
  generalize Real.log (2 * T) = ρ at *
  have e3 : 0 ≤ ε * T * H := by positivity
  have hTe : ε * T ≤ 1 / 200 := by linarith
  have hTH : ε * T * H ≤ 1 / 100 := by
    have : 0 ≤ ε * T := by positivity
    linarith
  have e1 : 0 ≤ ε * T := by positivity
  have e2 : ε * T ≤ ε * T * T := by nlinarith
  have hTρ : 69 / 100 ≤ T * ρ := by nlinarith
  have k5 : (T : ℝ) ≤ 100 / 69 * (T * ρ) := by nlinarith
  constructor
  · simp only [ptwErr]
    have k1 : ε * T * ρ ≤ 1 / 200 * (T * ρ) := by
      have : ε * T * ρ ≤ 1 / 200 * ρ := mul_le_mul_of_nonneg_right hTe (by linarith)
      nlinarith
    have k2 : ε * T * T ≤ 1 / 200 * T := mul_le_mul_of_nonneg_right hTe (by linarith)
    have k3 : ε * T * (2 * T * ρ + 4) ≤ 1 / 200 * (2 * T * ρ + 4) := mul_le_mul_of_nonneg_right hTe (by linarith)
    have k4 : ε * T * H * (2 * T * ρ + 4) ≤ 1 / 100 * (2 * T * ρ + 4) := mul_le_mul_of_nonneg_right hTH (by linarith)
    calc (T : ℝ) * (ρ + (ε * (ρ + 5 * T) + ε * (2 * T * ρ + 4) + (H + 1) * (9 * (ε * (2 * T * ρ + 4))))) + 2 =
          T * ρ + ε * T * ρ + 5 * (ε * T * T) + 10 * (ε * T * (2 * T * ρ + 4)) + 9 * (ε * T * H * (2 * T * ρ + 4)) + 2 := by ring
      _ ≤ 2 * T * ρ + 4 := by linarith
  · simp only [ptwErr]
    have k1 : ε * T * ρ ≤ ε * T * T * ρ := mul_le_mul_of_nonneg_right e2 (by linarith)
    have k2 : ε * T * H ≤ ε * T * T * H := mul_le_mul_of_nonneg_right e2 hH
    have k3 : 0 ≤ ε * T * T := by positivity
    have k4 : 0 ≤ ε * T * T * ρ := mul_nonneg k3 (by linarith)
    calc (T : ℝ) * (ε * (ρ + 5 * T) + ε * (2 * T * ρ + 4) + (H + 1) * (9 * (ε * (2 * T * ρ + 4))) + 2 * (ε * (2 * T * ρ + 4))) =
          ε * T * ρ + 5 * (ε * T * T) + 24 * (ε * T * T * ρ) + 48 * (ε * T) + 18 * (ε * T * T * ρ * H) + 36 * (ε * T * H) := by ring
      _ ≤ 36 * (ε * T * T * ρ) + 72 * (ε * T * T) + 18 * (ε * T * T * ρ * H) + 36 * (ε * T * T * H) := by linarith
      _ = _ := by ring

/-- The choice of the bound on all numbers for `PTW` over `KTBinary`. -/
theorem ptw_root_room (hε0 : 0 ≤ ε) {T H : ℕ} (hT : 1 ≤ T) (hε : 500 * ε * T * (H + 2) ≤ 1) :
    T * (8 * (Real.log (2 * T) + ptwErr ε (ε * (Real.log (2 * T) + 5 * T)) (10 * T * Real.log (2 * T) + 4) H +
      5 * (ε * (10 * T * Real.log (2 * T) + 4)))) + 2 ≤ 10 * T * Real.log (2 * T) + 4 ∧
    T * (5 * ptwErr ε (ε * (Real.log (2 * T) + 5 * T)) (10 * T * Real.log (2 * T) + 4) H + 23 * (ε * (10 * T * Real.log (2 * T) + 4))) ≤
      450 * (H + 2) * ε * T ^ 2 * (Real.log (2 * T) + 1) := by
  have h1 : (1 : ℝ) ≤ T := by exact_mod_cast hT
  have hH : (0 : ℝ) ≤ H := Nat.cast_nonneg H
  have hρ := log_ge hT
  generalize Real.log (2 * T) = ρ at *
  have e3 : 0 ≤ ε * T * H := by positivity
  have hTe : ε * T ≤ 1 / 1000 := by linarith
  have hTH : ε * T * H ≤ 1 / 500 - 2 * (ε * T) := by linarith
  have e1 : 0 ≤ ε * T := by positivity
  have e2 : ε * T ≤ ε * T * T := by nlinarith
  have hTρ : 69 / 100 ≤ T * ρ := by nlinarith
  have k5 : (T : ℝ) ≤ 100 / 69 * (T * ρ) := by nlinarith
  constructor
  · simp only [ptwErr]
    have k1 : ε * T * ρ ≤ 1 / 1000 * (T * ρ) := by
      have : ε * T * ρ ≤ 1 / 1000 * ρ := mul_le_mul_of_nonneg_right hTe (by linarith)
      nlinarith
    have k2 : ε * T * T ≤ 1 / 1000 * T := mul_le_mul_of_nonneg_right hTe (by linarith)
    have k3 : 0 ≤ ε * T * (10 * T * ρ + 4) := mul_nonneg e1 (by linarith)
    have k4 : ε * T * H * (10 * T * ρ + 4) ≤ (1 / 500 - 2 * (ε * T)) * (10 * T * ρ + 4) := mul_le_mul_of_nonneg_right hTH (by linarith)
    calc (T : ℝ) * (8 * (ρ + (ε * (ρ + 5 * T) + ε * (10 * T * ρ + 4) + (H + 1) * (9 * (ε * (10 * T * ρ + 4)))) + 5 * (ε * (10 * T * ρ + 4)))) + 2 =
          8 * (T * ρ) + 8 * (ε * T * ρ) + 40 * (ε * T * T) + 120 * (ε * T * (10 * T * ρ + 4)) + 72 * (ε * T * H * (10 * T * ρ + 4)) + 2 := by ring
      _ ≤ 10 * T * ρ + 4 := by linarith
  · simp only [ptwErr]
    have k1 : ε * T * ρ ≤ ε * T * T * ρ := mul_le_mul_of_nonneg_right e2 (by linarith)
    have k2 : ε * T * H ≤ ε * T * T * H := mul_le_mul_of_nonneg_right e2 hH
    have k3 : 0 ≤ ε * T * T := by positivity
    have k4 : 0 ≤ ε * T * T * ρ := mul_nonneg k3 (by linarith)
    calc (T : ℝ) * (5 * (ε * (ρ + 5 * T) + ε * (10 * T * ρ + 4) + (H + 1) * (9 * (ε * (10 * T * ρ + 4)))) + 23 * (ε * (10 * T * ρ + 4))) =
          5 * (ε * T * ρ) + 25 * (ε * T * T) + 730 * (ε * T * T * ρ) + 292 * (ε * T) + 450 * (ε * T * T * ρ * H) + 180 * (ε * T * H) := by ring
      _ ≤ 900 * (ε * T * T * ρ) + 900 * (ε * T * T) + 450 * (ε * T * T * ρ * H) + 450 * (ε * T * T * H) := by
        have : 0 ≤ ε * T * T * H := mul_nonneg k3 hH
        linarith
      _ = _ := by ring

end Arith

/-- **C109 (`PTWFixedLength`).** In rounded arithmetic no update of a `PTWFixedLength` over `KTBinary` raises, and the sum of the values it returns is near
that of exact arithmetic: the error is at most proportional to the height and, up to a logarithm, to the square of the number of updates. -/
theorem C109_fixed_sum (hR : R.Accurate ε) (h0 height H : ℕ) (xs : List (Obs Bool)) (hw : ∀ o ∈ xs, o.weight = 1) (hT : 1 ≤ xs.length)
    (hH : xs.length ≤ 2 ^ H) (hh : height ≤ H) (hh0 : h0 ≤ H) (hε : 100 * ε * xs.length * (H + 2) ≤ 1) :
    ∃ r' q' r q, (R.ptwFixedPredictor R.ktPredictor (KTBinary.init none) h0 height).run (PTW.init (KTBinary.init none) h0) xs = .ok (r', q') ∧
      (PTWFixedLength.predictor KTBinary.predictor (KTBinary.init none) h0 height).run (PTW.init (KTBinary.init none) h0) xs = .ok (r, q) ∧
      |r' - r| ≤ 18 * (H + 2) * ε * xs.length ^ 2 * (Real.log (2 * xs.length) + 2) := by
  have e0 := hR.nonneg
  obtain ⟨hG, hE⟩ := ptw_fixed_room e0 hT hε
  have h1 : (1 : ℝ) ≤ xs.length := by exact_mod_cast hT
  have hρ := log_ge hT
  have hG0 : 0 ≤ 2 * (xs.length : ℝ) * Real.log (2 * xs.length) + 4 := by
    have := mul_nonneg (by linarith : (0 : ℝ) ≤ 2 * xs.length) (by linarith : 0 ≤ Real.log (2 * xs.length))
    linarith
  obtain ⟨r', q', r, q, k1, k2, ⟨_, _, k3⟩, k4, k5⟩ := ptw_run (T := xs.length)
    (fun m s' s o => FixedSim.update (h0 := h0) (height := height) hR (ktBase hR xs.length)
        (mul_nonneg e0 (by linarith)) (by linarith) (mul_nonneg e0 hG0) hG (KtSim.init : KtSim ε 0 _ _) rfl hH hh m s' s o) xs hw 0 (by omega) (PTW.init (KTBinary.init none) h0)
    (PTW.init (KTBinary.init none) h0)
    ⟨⟨h0, hh0, .leaf (DataSim.new (KtSim.init : KtSim ε 0 _ _) rfl h0) (Nat.zero_le _) rfl⟩, by simp [PTW.init], by simp [PTW.init]⟩
  refine ⟨r', q', r, q, k1, k2, le_trans ?_ hE⟩
  rw [zero_add] at k3
  have z1 : (PTW.init (KTBinary.init none) h0).logProb = 0 := rfl
  rw [z1, sub_zero] at k4 k5
  rw [k4]
  calc |r' - q.logProb| = |(r' - q'.logProb) + (q'.logProb - q.logProb)| := by ring_nf
    _ ≤ _ := abs_add_le _ _
    _ ≤ _ := by linarith

/-- **C109 (`PTW`).** In rounded arithmetic no update of a `PTW` over `KTBinary` raises, and the sum of the values it returns is near that of exact
arithmetic, although the adjustment for the unknown length is summed over all heights. -/
theorem C109_ptw_sum (hR : R.Accurate ε) (h0 H : ℕ) (xs : List (Obs Bool)) (hw : ∀ o ∈ xs, o.weight = 1) (hT : 1 ≤ xs.length)
    (hH : xs.length ≤ 2 ^ H) (hh0 : h0 ≤ H) (hε : 500 * ε * xs.length * (H + 2) ≤ 1) :
    ∃ r' q' r q, (R.ptwPredictor R.ktPredictor (KTBinary.init none) h0).run (PTW.init (KTBinary.init none) h0) xs = .ok (r', q') ∧
      (PTW.predictor KTBinary.predictor (KTBinary.init none) h0).run (PTW.init (KTBinary.init none) h0) xs = .ok (r, q) ∧
      |r' - r| ≤ 450 * (H + 2) * ε * xs.length ^ 2 * (Real.log (2 * xs.length) + 1) := by
  have e0 := hR.nonneg
  obtain ⟨hG, hE⟩ := ptw_root_room e0 hT hε
  have h1 : (1 : ℝ) ≤ xs.length := by exact_mod_cast hT
  have hρ := log_ge hT
  have hG0 : 0 ≤ 10 * (xs.length : ℝ) * Real.log (2 * xs.length) + 4 := by
    have := mul_nonneg (by linarith : (0 : ℝ) ≤ 10 * xs.length) (by linarith : 0 ≤ Real.log (2 * xs.length))
    linarith
  obtain ⟨r', q', r, q, k1, k2, ⟨_, _, k3⟩, k4, k5⟩ := ptw_run (T := xs.length)
    (fun m s' s o => RootSim.update (h0 := h0) hR (ktBase hR xs.length)
        (mul_nonneg e0 (by linarith)) (by linarith) (mul_nonneg e0 hG0) hG (KtSim.init : KtSim ε 0 _ _) rfl hH m s' s o) xs hw 0 (by omega) (PTW.init (KTBinary.init none) h0)
    (PTW.init (KTBinary.init none) h0)
    ⟨⟨h0, hh0, .leaf (DataSim.new (KtSim.init : KtSim ε 0 _ _) rfl h0) (Nat.zero_le _) rfl, by simp [PTW.init], by simp [PTW.init]⟩,
      by simp [PTW.init], by simp [PTW.init]⟩
  refine ⟨r', q', r, q, k1, k2, le_trans ?_ hE⟩
  rw [zero_add] at k3
  have z1 : (PTW.init (KTBinary.init none) h0).logProb = 0 := rfl
  rw [z1, sub_zero] at k4 k5
  rw [k4]
  calc |r' - q.logProb| = |(r' - q'.logProb) + (q'.logProb - q.logProb)| := by ring_nf
    _ ≤ _ := abs_add_le _ _
    _ ≤ _ := by linarith

/-- For ten thousand updates and errors of `2 ^ -52`, the hypotheses hold with `H = 14`, and the bound of `C109_ptw_sum` is less than two hundredths of
a nat. -/
example : (10000 : ℕ) ≤ 2 ^ 14 ∧ 500 * (2⁻¹ ^ 52 : ℝ) * (10000 : ℕ) * ((14 : ℕ) + 2) ≤ 1 ∧
    450 * ((14 : ℕ) + 2) * (2⁻¹ ^ 52 : ℝ) * ((10000 : ℕ) : ℝ) ^ 2 * (Real.log (2 * (10000 : ℕ)) + 1) < 2 / 100 := by
  refine ⟨by norm_num, by norm_num, ?_⟩
  have h1 : Real.log (2 * (10000 : ℕ)) ≤ Real.log (2 ^ 15) := Real.log_le_log (by norm_num) (by norm_num)
  rw [Real.log_pow] at h1
  have h2 := Real.log_two_lt_d9
  push_cast at h1 ⊢
  have h3 : Real.log (2 * 10000) + 1 ≤ 12 := by linarith
  generalize Real.log (2 * 10000) = x at h3
  norm_num
  linarith

/-- The order of operations matters once numbers are rounded: `update` adds the difference to the adjustment, `log_predict` (model.py:629-631) adds the
probability first and then subtracts.  Here is an arithmetic, accurate to `2 ^ -5`, in which the two are not the same. -/
example : ∃ (R : Arith) (adj lp half : ℝ), R.Accurate (1 / 32) ∧
    R.add adj (R.sub lp half) ≠ R.sub (R.add adj lp) half := by
  refine ⟨⟨fun x y => (x + y) * (1 + 1 / 32), fun x y => x - y, fun x y => x * y, fun x y => x / y, Real.log, Real.exp⟩, 0, 1, 1, ?_, by norm_num⟩
  refine ⟨by norm_num, by norm_num, fun x y => ?_, fun x y => ?_, fun x y => ?_, fun x y _ => ?_, fun x _ => ?_, fun x _ => ⟨(Real.exp_pos x).le, ?_⟩⟩
  · rw [show (x + y) * (1 + 1 / 32) - (x + y) = 1 / 32 * (x + y) by ring, abs_mul, abs_of_pos (by norm_num : (0 : ℝ) < 1 / 32)]
  · simp
  · rw [sub_self, abs_zero]; positivity
  · simp
  · simp
  · have := Real.exp_pos x
    rw [sub_self, abs_zero]
    positivity

end Verif
