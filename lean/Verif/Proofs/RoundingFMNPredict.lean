import Verif.Proofs.RoundingFMN
import Verif.Proofs.RoundingPredict

/-! Rounding errors of `log_predict` of `Averager` and `FMN`. -/

namespace Verif

namespace Arith

variable {R : Arith} {ε : ℝ} {S' S σ' σ α : Type} {P' : Predictor σ' α} {P : Predictor σ α} {A : Obs α → Prop} {T K N H h0 : ℕ} {β ρ G L : ℝ}
  {Sim : Rel σ' σ}

theorem predictModels_sim (hR : R.Accurate ε) (hB : BaseSim P' P A T β ρ Sim) (hP : PredSim P' P A T β ρ Sim) (hβ : 0 ≤ β) (hρ : 0 ≤ ρ) (hγ : 0 ≤ Sim.γ)
    (hεG : 0 ≤ ε * G) (hG : L + T * (ρ + avErr ε β G Sim.γ K N) ≤ G) {o : Obs α} (ho : A o) {t m : ℕ} (ht : t < T) (hm : m ≤ t)
    {ms' : List (σ' × ℝ)} {ms : List (σ × ℝ)} (h : List.Forall₂ (Comp Sim ε β ρ G L K N t m) ms' ms) :
    ∃ vs' ns' vs ns, R.avPredictModels P' o.sym o.hist ms' = .ok (vs', ns') ∧ Averager.predictModels P o.sym o.hist ms = .ok (vs, ns) ∧
      List.Forall₂ (Comp Sim ε β ρ G L K N t m) ns' ns ∧ ns.map Prod.snd = ms.map Prod.snd ∧
      List.Forall₂ (fun v' v => |v' - v| ≤ 4 * N * ε + 2 * K * Sim.γ + (m + 1 : ℕ) * (β + ε * G)) vs' vs ∧
      List.Forall₂ (fun v q => |v - q.2| ≤ ρ) vs ms := by
  have e0 := hR.nonneg
  have hT1 : (1 : ℝ) ≤ T := by exact_mod_cast (by omega : 1 ≤ T)
  have hmT : (m : ℝ) + 1 ≤ T := by exact_mod_cast (by omega : m + 1 ≤ T)
  have hNε : 0 ≤ N * ε := by positivity
  induction h with
  | nil => exact ⟨[], [], [], [], rfl, rfl, .nil, rfl, .nil, .nil⟩
  | @cons p' p ms' ms hp _ ih =>
    obtain ⟨vs', ns', vs, ns, i1, i2, i3, i4, i5, i6⟩ := ih
    obtain ⟨k, h0, h1, h2, h3, h4⟩ := hp
    obtain ⟨r', u', r, u, g1, g2, g3, g4, g5, g6⟩ := hP (k + m) _ _ o (by omega) h2 ho
    push_cast at g5
    have hk : (k : ℝ) ≤ K := by exact_mod_cast h0
    have hkγ := mul_le_mul_of_nonneg_right hk hγ
    have hx : |r + p.2| ≤ L + (m + 1 : ℕ) * ρ := by
      have := abs_add_le r p.2
      push_cast
      linarith
    have hmβ := mul_le_mul_of_nonneg_right hmT (by linarith : 0 ≤ β + ε * G)
    have hmρ := mul_le_mul_of_nonneg_right hmT hρ
    have hNT := mul_le_mul_of_nonneg_right hT1 hNε
    have hTγ : K * Sim.γ ≤ T * K * Sim.γ := by
      have := mul_le_mul_of_nonneg_right hT1 (by positivity : 0 ≤ K * Sim.γ)
      linarith
    have hTε : 0 ≤ T * (ε * G) := by positivity
    have hd : |(r' + p'.2) - (r + p.2)| ≤ 4 * N * ε + 2 * K * Sim.γ + (m + 1 : ℕ) * (β + ε * G) - ε * G := by
      push_cast
      rw [abs_le] at *
      constructor <;> linarith [h4.1, h4.2, g5.1, g5.2]
    simp only [avErr] at hG
    have hsum : |r' + p'.2| ≤ G := by
      push_cast at hx hd
      rw [abs_le] at *
      constructor <;> nlinarith [hx.1, hx.2, hd.1, hd.2]
    have hadd := hR.add r' p'.2
    have hε := mul_le_mul_of_nonneg_left hsum e0
    refine ⟨R.add r' p'.2 :: vs', (u', p'.2) :: ns', (r + p.2) :: vs, (u, p.2) :: ns, ?_, ?_, .cons ⟨k, h0, h1, g3, h3, ?_⟩ i3, ?_, .cons ?_ i5,
      .cons ?_ i6⟩
    · obtain ⟨c', x'⟩ := p'
      simp only [avPredictModels, g1, ok_bind, i1, pure_eq_ok]
    · obtain ⟨c, x⟩ := p
      simp only [Averager.predictModels, g2, ok_bind, i2, pure_eq_ok]
    · show |(p'.2 - p.2) - Sim.gap u' u| ≤ _
      rw [g4]
      exact h4
    · simp only [List.map_cons, i4]
    · rw [abs_le] at *
      constructor <;> linarith [hd.1, hd.2, hadd.1, hadd.2]
    · rw [add_sub_cancel_right]
      exact g6

/-- The predictions of `Averager` over models whose predictions have small errors. -/
theorem predSim_av (hR : R.Accurate ε) (hB : BaseSim P' P A T β ρ Sim) (hP : PredSim P' P A T β ρ Sim) (hβ : 0 ≤ β) (hρ : 0 ≤ ρ) (hγ : 0 ≤ Sim.γ)
    (hεG : 0 ≤ ε * G) (hG : L + T * (ρ + avErr ε β G Sim.γ K N) ≤ G) (hL : 0 ≤ L) (hN : 64 * N * ε ≤ 1) {t : ℕ} (ht : t < T) :
    PredSim (R.avPredictor P') (Averager.predictor P) A T (avErr ε β G Sim.γ K N + 2 * (ε * G)) ρ (avRel Sim ε β ρ G L K N t) := by
  have e0 := hR.nonneg
  intro m s' s o _ hs ho
  replace hs : AvSim Sim ε β ρ G L K N t m s' s := hs
  have hmt : m ≤ t := by
    cases hc : s.models with
    | nil => exact absurd hc hs.ne
    | cons x xs =>
      have := hs.comp
      rw [hc] at this
      obtain ⟨p', ps', ⟨k, -, hk, -⟩, -⟩ := List.forall₂_cons_right_iff.1 this
      omega
  obtain ⟨vs', ns', vs, ns, h1, h2, h3, h4, h5, h6⟩ := predictModels_sim hR hB hP hβ hρ hγ hεG hG ho ht hmt hs.comp
  have hE0 : 0 ≤ avErr ε β G Sim.γ K N := by
    simp only [avErr]
    have : 0 ≤ 2 * K * Sim.γ := by positivity
    have : 0 ≤ 24 * N * ε := by positivity
    linarith
  have hlen : vs.length = s.models.length := h6.length_eq
  have hlen' : vs'.length = vs.length := h5.length_eq
  have hne : vs ≠ [] := by
    intro h
    rw [h] at hlen
    exact hs.ne (List.length_eq_zero_iff.1 hlen.symm)
  have hne' : vs' ≠ [] := by
    intro h
    rw [h] at hlen'
    exact hne (List.length_eq_zero_iff.1 hlen'.symm)
  have hmap : ∀ l : List (σ × ℝ), (l.map fun p => Real.exp p.2) = (l.map Prod.snd).map Real.exp := fun l => by
    rw [List.map_map]; rfl
  have hmT : (m : ℝ) + 1 ≤ T := by exact_mod_cast (by omega : m + 1 ≤ T)
  have hm0 : (0 : ℝ) ≤ m := Nat.cast_nonneg m
  have hNε : 0 ≤ N * ε := by positivity
  set lp := Real.log ((vs.map Real.exp).sum) with hlp
  have hr : |lp - s.logProb| ≤ ρ := by
    rw [hlp, hs.lp, hmap]
    exact lse_lipschitz (List.forall₂_map_right_iff.2 h6) hne
  have hbound : |lp| ≤ (m + 1 : ℕ) * ρ := by
    have := abs_add_le (lp - s.logProb) s.logProb
    rw [sub_add_cancel] at this
    have := hs.bound
    push_cast
    linarith
  set D := 4 * N * ε + 2 * K * Sim.γ + (m + 1 : ℕ) * (β + ε * G) with hD
  have hlip : |Real.log ((vs'.map Real.exp).sum) - lp| ≤ D := lse_lipschitz h5 hne'
  have hlenN : (vs'.length : ℝ) ≤ N := by
    exact_mod_cast (by rw [hlen', hlen]; exact hs.len)
  have hlenε := mul_le_mul_of_nonneg_right hlenN e0
  obtain ⟨y, hy, hyn⟩ := logsumexp_near hR hne' (by linarith)
  have hDE : D + ε * G + 20 * N * ε ≤ (m + 1 : ℕ) * avErr ε β G Sim.γ K N := by
    have c1 : (1 : ℝ) ≤ m + 1 := by linarith
    have c2 : 0 ≤ ε * G + 2 * K * Sim.γ + 24 * N * ε := by positivity
    have := mul_le_mul_of_nonneg_right c1 c2
    rw [hD]
    simp only [avErr]
    push_cast
    linarith
  have hmE := mul_le_mul_of_nonneg_right hmT (by linarith : 0 ≤ ρ + avErr ε β G Sim.γ K N)
  set x' := Real.log ((vs'.map Real.exp).sum)
  have hx' : |x'| ≤ G := by
    have := abs_le_of_near hbound hlip
    push_cast at this hDE
    linarith
  have herr : |y - lp| ≤ (m + 1 : ℕ) * avErr ε β G Sim.γ K N := by
    have := mul_le_mul_of_nonneg_left hx' e0
    rw [abs_le] at *
    constructor <;> linarith [hyn.1, hyn.2, hlip.1, hlip.2]
  have hyG : |y| ≤ G := by
    have := abs_le_of_near hbound herr
    push_cast at this
    linarith
  have hsG : |s'.logProb| ≤ G := by
    have h5 := abs_le_of_near hs.bound hs.err
    have h6 : 0 ≤ ρ + avErr ε β G Sim.γ K N := by linarith
    linarith
  have hns : ns.length = s.models.length := by
    have := congrArg List.length h4
    simpa using this
  refine ⟨R.sub y s'.logProb, ⟨ns', s'.logProb⟩, lp - s.logProb, ⟨ns, s.logProb⟩, ?_, ?_, ⟨?_, by rw [hns]; exact hs.len, h3, ?_, hs.bound, hs.err⟩, rfl,
    ?_, hr⟩
  · show R.avLogPredict P' s' o.sym o.hist = _
    rw [avLogPredict, h1]
    simp only [ok_bind, hy]
    rfl
  · show Averager.logPredict P s o.sym o.hist = _
    rw [Averager.logPredict, h2]
    simp only [ok_bind, Verif.logsumexp_eq hne]
    rfl
  · intro h
    rw [show ns = [] from h] at hns
    exact hs.ne (List.length_eq_zero_iff.1 hns.symm)
  · show s.logProb = Real.log ((ns.map fun p => Real.exp p.2).sum)
    rw [hs.lp, hmap, hmap, h4]
  · have := sub_gap hR (x := lp) (y := s.logProb) (G := G) rfl hyG hsG
    simp only [avRel]
    push_cast at herr
    rw [abs_le] at *
    constructor <;> linarith [this.1, this.2, herr.1, herr.2]

/-- A prediction of `FMN`. -/
theorem FmnSim.predict {Rl : (σ' → σ → Prop) → ℕ → S' → S → Prop} (hR : R.Accurate ε) (hB : BaseSim P' P A T β ρ Sim) (hP : PredSim P' P A T β ρ Sim)
    (hβ : 0 ≤ β) (hρ : 0 ≤ ρ) (hγ : 0 ≤ Sim.γ) (hεG : 0 ≤ ε * G) (hL : 0 ≤ L) (hN : 64 * (T + 1 : ℕ) * ε ≤ 1)
    (hG1 : L + T * (ρ + avErr ε β G Sim.γ T (T + 1)) ≤ G) (hG2 : T * (8 * (ρ + fmnErr ε β G Sim.γ T H + 5 * (ε * G))) + 2 ≤ G) (hTH : T ≤ 2 ^ H)
    {t : ℕ} (ht : t < T) {s' : FMN S' σ'} {s : FMN S σ} (hs : FmnSim Rl Sim ε β ρ G L T h0 H t s' s) {o : Obs α} (ho : A o) :
    ∃ r' q' r q, R.fmnLogPredict P' s' o.sym o.hist = .ok (r', q') ∧ FMN.logPredict P s o.sym o.hist = .ok (r, q) ∧
      FmnSim Rl Sim ε β ρ G L T h0 H t q' q ∧ |r| ≤ ρ ∧
      |(r' - r) + (s'.ptw.logProb - s.ptw.logProb)| ≤ t * (5 * fmnErr ε β G Sim.γ T H + 21 * (ε * G)) + (5 * fmnErr ε β G Sim.γ T H + 23 * (ε * G)) := by
  obtain ⟨t1, t2, hu, hroot, hlp⟩ := hs
  have e0 := hR.nonneg
  have hbase0 : 0 ≤ fmnBase ε β G Sim.γ T := by
    simp only [fmnBase, avErr]
    positivity
  obtain ⟨r', p', r, p, k1, k2, k3, -, k5, k6⟩ := PredSim.ptw (h0 := h0) (H := H) (f' := s'.ptw.tree.data.base) (f := s.ptw.tree.data.base) hR
    (predSim_av (K := T) (N := T + 1) hR hB hP hβ hρ hγ hεG hG1 hL hN ht) hbase0 hρ hεG hG2 hTH t s'.ptw s.ptw o ht ⟨hroot, hlp⟩ ho
  replace k1 : R.ptwLogPredict (R.avPredictor P') s'.ptw o.sym o.hist = .ok (r', p') := k1
  replace k2 : s.ptw.logPredict (Averager.predictor P) o.sym o.hist = .ok (r, p) := k2
  refine ⟨r', { s' with ptw := p' }, r, { s with ptw := p }, ?_, ?_, ⟨t1, t2, hu, k3.1, k3.2⟩, k6, k5⟩
  · simp only [fmnLogPredict, k1, ok_bind, pure_eq_ok]
  · simp only [FMN.logPredict, k2, ok_bind, pure_eq_ok]

end Arith

end Verif
