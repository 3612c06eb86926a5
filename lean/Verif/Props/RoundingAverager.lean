import Verif.Proofs.RoundingAverager
import Verif.Props.RoundingTower

/-!
# C116: rounding errors of mixtures
-/

namespace Verif

open Arith Layer

variable {R : Arith} {ε : ℝ} {σ' σ α : Type}

namespace Arith

theorem logsumexp_exact (l : List ℝ) : Arith.exact.logsumexp l = Verif.logsumexp l := by
  cases l with
  | nil => rfl
  | cons v vs =>
    have : ∀ l : List ℝ, l.foldl Arith.exact.add 0 = l.sum := fun l => by
      rw [List.sum_eq_foldl]; rfl
    simp only [Arith.logsumexp, Verif.logsumexp, this]
    rfl

theorem avUpdate_exact (P : Predictor σ α) (s : Averager σ) (a : α) (h : List α) (w : ℝ) : Arith.exact.avUpdate P s a h w = s.update P a h w := by
  have hu : ∀ l, Arith.exact.avUpdateModels P a h w l = Averager.updateModels P a h w l := by
    intro l
    induction l with
    | nil => rfl
    | cons p l ih =>
      obtain ⟨m, lp⟩ := p
      rw [avUpdateModels, Averager.updateModels, ih]
      rfl
  simp only [avUpdate, Averager.update, hu, logsumexp_exact]
  rfl

end Arith

/-- **C116 (faithfulness).** With exact arithmetic `logsumexp` and `Averager` with rounding are those of the other files. -/
theorem C116_exact (P : Predictor σ α) (ms : List σ) (l : List ℝ) (s : Averager σ) (a : α) (h : List α) (w : ℝ) :
    Arith.exact.logsumexp l = Verif.logsumexp l ∧ Arith.exact.avInit ms = Averager.init ms ∧ Arith.exact.avUpdate P s a h w = s.update P a h w :=
  ⟨logsumexp_exact l, rfl, avUpdate_exact P s a h w⟩

/-- **C116 (`logsumexp`).** In rounded arithmetic `logsumexp` of at least one number does not raise, and is near the logarithm of the sum of the exponentials:
up to one rounding of the result, the error is a small multiple of the number of arguments, however large or small they are. -/
theorem C116_logsumexp (hR : R.Accurate ε) (l : List ℝ) (hne : l ≠ []) (hn : 64 * l.length * ε ≤ 1) :
    ∃ y, R.logsumexp l = .ok y ∧ |y - Real.log ((l.map Real.exp).sum)| ≤ ε * |Real.log ((l.map Real.exp).sum)| + 20 * l.length * ε :=
  logsumexp_near hR hne hn

namespace Arith

variable {P' : Predictor σ' α} {P : Predictor σ α} {A : Obs α → Prop} {T N : ℕ} {β ρ G L : ℝ} {Sim : Rel σ' σ}

/-- `Averager` over models with small errors is one. -/
theorem BaseSim.av (hR : R.Accurate ε) (hB : BaseSim P' P A T β ρ Sim) (hβ : 0 ≤ β) (hρ : 0 ≤ ρ) (hγ : 0 ≤ Sim.γ) (hεG : 0 ≤ ε * G)
    (hL : 0 ≤ L) (hG : L + T * (ρ + avErr ε β G Sim.γ 0 N) ≤ G) (hN : 64 * N * ε ≤ 1) :
    BaseSim (R.avPredictor P') (Averager.predictor P) A T (avErr ε β G Sim.γ 0 N + 2 * (ε * G)) ρ
      ⟨fun m => AvSim Sim ε β ρ G L 0 N m m, fun s' s => s'.logProb - s.logProb, avErr ε β G Sim.γ 0 N⟩ :=
  ⟨fun m s' s o hm hs ho => (stepSim_av hR hB hβ hρ hγ hεG hL hG hN hm).step m s' s o hm hs ho, fun _ _ _ hs => hs.err⟩

/-- Models of different classes with small errors. -/
noncomputable def sigmaRel {ι : Type} {τ : ι → Type} (good : ι → Prop) (Sim : (i : ι) → Rel (τ i) (τ i)) (B : ℝ) : Rel ((i : ι) × τ i) ((i : ι) × τ i) :=
  open Classical in
  ⟨fun m x' x => ∃ i s' s, x' = ⟨i, s'⟩ ∧ x = ⟨i, s⟩ ∧ good i ∧ (Sim i).sim m s' s,
    fun x' x => if h : x'.1 = x.1 then (Sim x.1).gap (h ▸ x'.2) x.2 else 0, B⟩

theorem sigmaRel_gap {ι : Type} {τ : ι → Type} (good : ι → Prop) (Sim : (i : ι) → Rel (τ i) (τ i)) (B : ℝ) (i : ι) (s' s : τ i) :
    (sigmaRel good Sim B).gap ⟨i, s'⟩ ⟨i, s⟩ = (Sim i).gap s' s := by
  simp [sigmaRel]

theorem BaseSim.sigma {ι : Type} {τ : ι → Type} {Q' Q : (i : ι) → Predictor (τ i) α} {Sim : (i : ι) → Rel (τ i) (τ i)} {good : ι → Prop} {B : ℝ}
    (hB : ∀ i, good i → BaseSim (Q' i) (Q i) A T B ρ (Sim i) ∧ 0 ≤ (Sim i).γ ∧ (Sim i).γ ≤ B) :
    BaseSim (Predictor.sigma Q') (Predictor.sigma Q) A T (2 * B) ρ (sigmaRel good Sim B) := by
  constructor
  · rintro m _ _ o hm ⟨i, s', s, rfl, rfl, hi, hs⟩ ho
    obtain ⟨h1, h2, h3⟩ := hB i hi
    obtain ⟨r', t', r, t, k1, k2, k3, k4, k5⟩ := h1.step m s' s o hm hs ho
    refine ⟨r', ⟨i, t'⟩, r, ⟨i, t⟩, ?_, ?_, ⟨i, t', t, rfl, rfl, hi, k3⟩, ?_, k5⟩
    · simp only [Predictor.sigma, k1, ok_bind, pure_eq_ok]
    · simp only [Predictor.sigma, k2, ok_bind, pure_eq_ok]
    · rw [sigmaRel_gap, sigmaRel_gap]
      refine le_trans k4 ?_
      simp only [sigmaRel]
      linarith
  · rintro m _ _ ⟨i, s', s, rfl, rfl, hi, hs⟩
    obtain ⟨h1, h2, h3⟩ := hB i hi
    rw [sigmaRel_gap]
    exact le_trans (h1.gap m s' s hs) (mul_le_mul_of_nonneg_left h3 (Nat.cast_nonneg m))

end Arith

/-- **C116 (mixtures of models over models).** Take the `Averager` over any list of towers of `CTW`, `PTW` and `PTWFixedLength` over `KTBinary`, of
different kinds.  In rounded arithmetic neither making it nor any of its updates raises, and the sum of the values they return is near that of exact
arithmetic.  The error grows, up to a logarithm, like the square of the number of updates; the number of models adds only a linear term. -/
theorem C116_average_sum (hR : R.Accurate ε) (lss : List (List Layer)) (H c : ℕ) (xs : List (Obs Bool)) (hne : lss ≠ []) (hw : ∀ o ∈ xs, o.weight = 1)
    (hT : 1 ≤ xs.length) (hTH : xs.length ≤ 2 ^ H) (hfit : ∀ ls ∈ lss, cost H ls ≤ c ∧ ∀ l ∈ ls, l.Fits H xs.length)
    (hε : 100 * ((c : ℝ) + 1) * ε * xs.length ≤ 1) (hN : 64 * lss.length * ε ≤ 1) :
    let ms : List ((ls : List Layer) × State ls) := lss.map fun ls => ⟨ls, new ls⟩
    ∃ s' s r' q' r q, R.avInit ms = .ok s' ∧ Averager.init ms = .ok s ∧
      (R.avPredictor (Predictor.sigma (rounded R))).run s' xs = .ok (r', q') ∧
      (Averager.predictor (Predictor.sigma Layer.exact)).run s xs = .ok (r, q) ∧
      |r' - r| ≤ (2 * c + 4) * ε * xs.length ^ 2 * (10 * Real.log (2 * xs.length) + 4) + 32 * lss.length * ε * xs.length := by
  intro ms
  have e0 := hR.nonneg
  set T := xs.length with hTd
  set N := lss.length with hNd
  have h1 : (1 : ℝ) ≤ T := by exact_mod_cast hT
  have hN1 : 1 ≤ N := List.length_pos_iff.2 hne
  have hNr : (1 : ℝ) ≤ N := by exact_mod_cast hN1
  have hc0 : (0 : ℝ) ≤ c := Nat.cast_nonneg c
  have hρ := log_ge hT
  have hTρ : 69 / 100 ≤ T * Real.log (2 * T) := by nlinarith
  have hεT : 0 ≤ ε * T := by positivity
  have hG0 : 0 ≤ 10 * T * Real.log (2 * T) + 4 := by linarith
  set B := c * (ε * (10 * T * Real.log (2 * T) + 4)) with hBd
  have hB0 : 0 ≤ B := by positivity
  -- one relation for every tower
  have hex : ∀ ls, ∃ Sim : Arith.Rel (State ls) (State ls), ls ∈ lss → BaseSim (rounded R ls) (Layer.exact ls) (fun o => o.weight = 1) T B (Real.log (2 * T)) Sim ∧
      Sim.sim 0 (new ls) (new ls) ∧ 0 ≤ Sim.γ ∧ Sim.γ ≤ B := by
    intro ls
    by_cases hls : ls ∈ lss
    · obtain ⟨f1, f2⟩ := hfit ls hls
      have f1' : (cost H ls : ℝ) ≤ c := by exact_mod_cast f1
      have f3 : (cost H ls : ℝ) * (ε * (10 * T * Real.log (2 * T) + 4)) ≤ B := mul_le_mul_of_nonneg_right f1' (mul_nonneg e0 hG0)
      have f4 := mul_le_mul_of_nonneg_right f1' hεT
      obtain ⟨Sim, k1, k2, -, k4, k5⟩ := tower_sim_gap hR hT hTH ls f2 (by linarith)
      exact ⟨Sim, fun _ => ⟨k1.mono f3, k2, k4, k5.trans f3⟩⟩
    · exact ⟨⟨fun _ _ _ => False, fun _ _ => 0, 0⟩, fun h => absurd h hls⟩
  choose Sim hSim using hex
  have hS := BaseSim.sigma (good := fun ls => ls ∈ lss) (Sim := Sim) fun ls hls => ⟨(hSim ls hls).1, (hSim ls hls).2.2⟩
  generalize hρd : Real.log (2 * T) = ρ at *
  set G := 10 * T * ρ + 4 with hGd
  set G2 := G + 2 * N with hG2d
  have hεG2 : 0 ≤ ε * G2 := by positivity
  have hlogN : Real.log N ≤ N := le_trans (Real.log_le_sub_one_of_pos (by linarith)) (by linarith)
  have hroom : Real.log N + T * (ρ + avErr ε (2 * B) G2 (sigmaRel (fun ls => ls ∈ lss) Sim B).γ 0 N) ≤ G2 := by
    have g1 : T * B ≤ 1 / 100 * G := by
      have : c * ε * T * G ≤ 1 / 100 * G := mul_le_mul_of_nonneg_right (by linarith) hG0
      calc T * B = c * ε * T * G := by rw [hBd]; ring
        _ ≤ _ := this
    have hcε : 0 ≤ c * (ε * T) := by positivity
    have g2 : T * (ε * G2) ≤ 1 / 100 * G2 := by
      have : ε * T * G2 ≤ 1 / 100 * G2 := mul_le_mul_of_nonneg_right (by linarith) (by positivity)
      linarith
    have g3 : T * (N * ε) ≤ 1 / 100 * N := by
      have : ε * T * N ≤ 1 / 100 * N := mul_le_mul_of_nonneg_right (by linarith) (by positivity)
      linarith
    simp only [avErr, Nat.cast_zero]
    have : T * (ρ + (2 * B + 2 * (ε * G2) + 2 * 0 * (sigmaRel (fun ls => ls ∈ lss) Sim B).γ + 24 * N * ε)) =
        T * ρ + 2 * (T * B) + 2 * (T * (ε * G2)) + 24 * (T * (N * ε)) := by ring
    linarith
  have hav := BaseSim.av (N := N) (L := Real.log N) hR hS (by linarith) (by linarith) hB0 hεG2 (Real.log_nonneg hNr) hroom hN
  obtain ⟨s', s, i1, i2, i3, i4⟩ := avInit_sim (K := 0) (t := 0) (N := N) (L := Real.log N) (G := G2) hR hS hB0 (ms' := ms) (ms := ms)
    (List.forall₂_same.2 fun x hx => by
      obtain ⟨ls, hls, rfl⟩ := List.mem_map.1 hx
      exact ⟨0, le_rfl, le_rfl, ls, _, _, rfl, rfl, hls, (hSim ls hls).2.1⟩) (by simpa [ms] using hne) (by simp [ms, hNd]) le_rfl
  obtain ⟨r', q', r, q, k1, k2, k3, k4, -⟩ := hav.run xs hw 0 (by omega) s' s i3
  refine ⟨s', s, r', q', r, q, i1, i2, k1, k2, ?_⟩
  have k5 := k3.err
  rw [zero_add] at k5
  simp only [i4, sub_zero] at k4
  have k6 : |r' - r| ≤ T * avErr ε (2 * B) G2 (sigmaRel (fun ls => ls ∈ lss) Sim B).γ 0 N + T * (2 * (ε * G2)) := by
    rw [abs_le] at *
    constructor <;> linarith [k4.1, k4.2, k5.1, k5.2]
  refine le_trans k6 ?_
  simp only [avErr, Nat.cast_zero]
  have hfin : ε * T * G ≤ ε * T ^ 2 * (10 * ρ + 4) := by
    calc ε * T * G ≤ ε * T * (10 * T * ρ + 4 * T) := mul_le_mul_of_nonneg_left (by linarith) hεT
      _ = _ := by ring
  calc T * (2 * B + 2 * (ε * G2) + 2 * 0 * (sigmaRel (fun ls => ls ∈ lss) Sim B).γ + 24 * N * ε) + T * (2 * (ε * G2)) =
        (2 * c + 4) * (ε * T * G) + 32 * N * ε * T := by rw [hG2d, hBd]; ring
    _ ≤ (2 * c + 4) * (ε * T ^ 2 * (10 * ρ + 4)) + 32 * N * ε * T := by
        have := mul_le_mul_of_nonneg_left hfin (by positivity : (0 : ℝ) ≤ 2 * c + 4)
        linarith
    _ = _ := by ring

/-- A mixture of `KTBinary`, of `CTW` of depth 3 and of `PTW` over `CTW` in double precision, for two updates. -/
example (hR : R.Accurate (2 ^ (-52 : ℤ))) :
    ∃ s' r' q', R.avInit ([[], [.ctw 3], [.ptw 0, .ctw 2]].map fun ls => (⟨ls, new ls⟩ : (ls : List Layer) × State ls)) = .ok s' ∧
      (R.avPredictor (Predictor.sigma (rounded R))).run s' [⟨true, [], 1⟩, ⟨false, [true], 1⟩] = .ok (r', q') := by
  obtain ⟨s', s, r', q', r, q, h1, -, h3, -⟩ := C116_average_sum hR [[], [.ctw 3], [.ptw 0, .ctw 2]] 1 1000 [⟨true, [], 1⟩, ⟨false, [true], 1⟩] (by simp)
    (by simp) (by simp) (by simp) (by simp [cost, Layer.Fits]) (by norm_num) (by norm_num)
  exact ⟨s', r', q', h1, h3⟩

end Verif
