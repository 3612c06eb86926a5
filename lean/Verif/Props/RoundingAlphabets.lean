import Verif.Spec.RoundingAlphabets
import Verif.Proofs.RoundingAlphabets
import Verif.Props.RoundingTower
import Verif.Proofs.RoundingPredict
import Verif.Props.RoundingAC

/-!
# C124: rounding errors over larger alphabets
-/

namespace Verif

open Arith Layer

variable {R : Arith} {ε : ℝ} {α : Type} [DecidableEq α]

namespace Arith

/-- The choice of the bound on all numbers. -/
theorem over_room {ρ : ℝ} {T c : ℕ} (hT : 1 ≤ T) (hρ : 69 / 100 ≤ ρ) (hε : 100 * c * ε * T ≤ 1) :
    T * (8 * (ρ + c * (ε * (10 * T * ρ + 4)))) + 2 ≤ 10 * T * ρ + 4 := by
  have h1 : (1 : ℝ) ≤ T := by exact_mod_cast hT
  have hTρ : 69 / 100 ≤ T * ρ := by nlinarith
  have k1 : c * ε * T * (10 * T * ρ + 4) ≤ 1 / 100 * (10 * T * ρ + 4) := mul_le_mul_of_nonneg_right (by linarith) (by linarith)
  calc (T : ℝ) * (8 * (ρ + c * (ε * (10 * T * ρ + 4)))) + 2 = 8 * (T * ρ) + 8 * (c * ε * T * (10 * T * ρ + 4)) + 2 := by ring
    _ ≤ _ := by linarith

theorem mkcontext_length' {d : ℕ} (hd : 1 ≤ d) (pad : α) (h : List α) : (CTW.mkcontext d pad h).length = d := by
  rw [CTW.mkcontext, pyTail, if_neg (by omega), List.length_append, List.length_replicate, List.length_drop]
  omega

/-- Every tower over a model with small errors has small errors. -/
theorem over_sim [Fintype α] {σ' σ : Type} (hR : R.Accurate ε) {T H c : ℕ} {ρ β : ℝ} (hT : 1 ≤ T) (hTH : T ≤ 2 ^ H) (hρ : 69 / 100 ≤ ρ)
    {P' : Predictor σ' α} {P : Predictor σ α} {f' : σ'} {f : σ} {A : Obs α → Prop} {Sim0 : Rel σ' σ} (hB0 : BaseSim P' P A T β ρ Sim0)
    (hβ0 : β ≤ c * (ε * (10 * T * ρ + 4))) (hf : Sim0.sim 0 f' f) (hfg : Sim0.gap f' f = 0) (hγ0 : Sim0.γ = 0) (pad : α) (ls : List Layer)
    (hfit : ∀ l ∈ ls, l.Fits H T) (hε : 100 * (costOver c H ls : ℝ) * ε * T ≤ 1) :
    ∃ Sim : Rel (StateOver σ' α ls) (StateOver σ α ls),
      BaseSim (roundedOver R P' f' pad ls) (exactOver P f pad ls) A T (costOver c H ls * (ε * (10 * T * ρ + 4))) ρ Sim ∧
      Sim.sim 0 (newOver α f' ls) (newOver α f ls) ∧ Sim.gap (newOver α f' ls) (newOver α f ls) = 0 ∧
      0 ≤ Sim.γ ∧ Sim.γ ≤ costOver c H ls * (ε * (10 * T * ρ + 4)) ∧
      (PredSim P' P A T β ρ Sim0 →
        PredSim (roundedOver R P' f' pad ls) (exactOver P f pad ls) A T (costOver c H ls * (ε * (10 * T * ρ + 4))) ρ Sim) := by
  have e0 := hR.nonneg
  have h1 : (1 : ℝ) ≤ T := by exact_mod_cast hT
  have hTρ : 69 / 100 ≤ T * ρ := by nlinarith
  induction ls with
  | nil =>
    have : 0 ≤ (c : ℝ) * (ε * (10 * T * ρ + 4)) := mul_nonneg (Nat.cast_nonneg c) (mul_nonneg e0 (by linarith))
    exact ⟨Sim0, hB0.mono hβ0, hf, hfg, hγ0.ge, hγ0.trans_le this, fun h => h.mono hβ0⟩
  | cons l ls ih =>
    have room := over_room hT hρ hε
    have hmono : costOver c H ls ≤ costOver c H (l :: ls) := by cases l <;> simp only [costOver] <;> omega
    have hε' : 100 * (costOver c H ls : ℝ) * ε * T ≤ 1 := by
      refine le_trans ?_ hε
      have : (costOver c H ls : ℝ) ≤ costOver c H (l :: ls) := by exact_mod_cast hmono
      have := mul_le_mul_of_nonneg_right this (by positivity : 0 ≤ ε * T)
      linarith
    obtain ⟨Sim, hB, hi, hg, -, -, hPr⟩ := ih (fun l hl => hfit l (by simp [hl])) hε'
    have hl := hfit l (by simp)
    set G := 10 * (T : ℝ) * ρ + 4 with hGd
    have hG0 : 0 ≤ G := by linarith
    have hεG : 0 ≤ ε * G := mul_nonneg e0 hG0
    have hβ : 0 ≤ (costOver c H ls : ℝ) * (ε * G) := by positivity
    have hroom : ∀ x : ℝ, x ≤ 8 * (ρ + costOver c H (l :: ls) * (ε * G)) → T * x + 2 ≤ G := by
      intro x hx
      have := mul_le_mul_of_nonneg_left hx (by linarith : (0 : ℝ) ≤ T)
      linarith
    cases l with
    | ctw d =>
      simp only [costOver] at hroom ⊢
      push_cast at hroom ⊢
      have hd : 0 ≤ (d : ℝ) * (ε * G) := by positivity
      have k1 := BaseSim.ctw (f' := newOver α f' ls) (f := newOver α f ls) hR hB hβ (by linarith) hG0 (D := d)
        (hroom _ (by simp only [stepErr]; linarith)) (CTW.mkcontext d pad) (mkcontext_length' hl pad)
      exact ⟨_, k1.mono (by simp only [stepErr]; linarith), NodeSim.new hi hg d, sub_self _, by simp only [ctwRel, stepErr]; linarith,
        by simp only [ctwRel, stepErr]; linarith, fun h => ((hPr h).ctw hR hβ (by linarith) hG0 (D := d)
        (hroom _ (by simp only [stepErr]; linarith)) (CTW.mkcontext d pad) (mkcontext_length' hl pad)).mono (by simp only [stepErr]; linarith)⟩
    | ptw h0 =>
      simp only [costOver] at hroom ⊢
      push_cast at hroom ⊢
      have hH : 0 ≤ (H : ℝ) * (ε * G) := by positivity
      have k1 := BaseSim.ptw (h0 := h0) hR hB hβ (by linarith) hεG (hroom _ (by simp only [ptwErr]; linarith)) hi hg hTH
      refine ⟨_, k1.mono (by simp only [ptwErr]; linarith),
        ⟨⟨⟨h0, hl, .leaf (DataSim.new hi hg h0) (Nat.zero_le _) rfl, ?_, ?_⟩, ?_, ?_⟩, ?_⟩, sub_self _,
        by simp only [rootRel, ptwErr]; linarith, by simp only [rootRel, ptwErr]; linarith, fun h => ((hPr h).ptw hR hβ (by linarith) hεG
        (hroom _ (by simp only [ptwErr]; linarith)) hTH).mono (by simp only [ptwErr]; linarith)⟩
      all_goals simp [newOver, PTW.init, PTWNode.data, PTWData.new]
    | fixed h0 height =>
      simp only [costOver] at hroom ⊢
      push_cast at hroom ⊢
      have hH : 0 ≤ (height : ℝ) * (ε * G) := by positivity
      have k1 := BaseSim.fixed (h0 := h0) hR hB hβ (by linarith) hεG (hroom _ (by simp only [ptwErr]; linarith)) hi hg hl.2
      refine ⟨_, k1.mono (by simp only [ptwErr]; linarith),
        ⟨⟨⟨h0, hl.1, .leaf (DataSim.new hi hg h0) (Nat.zero_le _) rfl⟩, ?_, ?_⟩, ?_⟩, sub_self _,
        by simp only [fixedRel, ptwErr]; linarith, by simp only [fixedRel, ptwErr]; linarith, fun h => ((hPr h).fixed hR hβ (by linarith) hεG
        (hroom _ (by simp only [ptwErr]; linarith)) hl.2).mono (by simp only [ptwErr]; linarith)⟩
      · simp [newOver, PTW.init]
      · simp [newOver, PTW.init]
      · exact (correct_self 0 _).symm

/-- The sums of the values returned. -/
theorem over_sum [Fintype α] {σ' σ : Type} (hR : R.Accurate ε) {H c : ℕ} {ρ β : ℝ} (xs : List (Obs α)) (hT : 1 ≤ xs.length) (hTH : xs.length ≤ 2 ^ H)
    (hρ : 69 / 100 ≤ ρ) {P' : Predictor σ' α} {P : Predictor σ α} {f' : σ'} {f : σ} {A : Obs α → Prop} {Sim0 : Rel σ' σ}
    (hB0 : BaseSim P' P A xs.length β ρ Sim0) (hβ0 : β ≤ c * (ε * (10 * xs.length * ρ + 4))) (hf : Sim0.sim 0 f' f) (hfg : Sim0.gap f' f = 0)
    (hγ0 : Sim0.γ = 0) (pad : α)
    (ls : List Layer) (hfit : ∀ l ∈ ls, l.Fits H xs.length) (hε : 100 * (costOver c H ls : ℝ) * ε * xs.length ≤ 1) (hA : ∀ o ∈ xs, A o) :
    ∃ r' q' r q, (roundedOver R P' f' pad ls).run (newOver α f' ls) xs = .ok (r', q') ∧ (exactOver P f pad ls).run (newOver α f ls) xs = .ok (r, q) ∧
      |r' - r| ≤ costOver c H ls * ε * xs.length ^ 2 * (10 * ρ + 4) := by
  have e0 := hR.nonneg
  have h1 : (1 : ℝ) ≤ xs.length := by exact_mod_cast hT
  obtain ⟨Sim, hB, hi, hg, -⟩ := over_sim hR hT hTH hρ hB0 hβ0 hf hfg hγ0 pad ls hfit hε
  obtain ⟨r', q', r, q, k1, k2, k3, k4, -⟩ := hB.run xs hA 0 (by omega) _ _ hi
  refine ⟨r', q', r, q, k1, k2, ?_⟩
  rw [zero_add] at k3
  have k5 := hB.gap _ _ _ k3
  rw [hg, sub_zero] at k4
  have hc : 0 ≤ (costOver c H ls : ℝ) * ε * xs.length := by positivity
  calc |r' - r| ≤ xs.length * Sim.γ + xs.length * (costOver c H ls * (ε * (10 * xs.length * ρ + 4)) - Sim.γ) := abs_le_of_near k5 k4
    _ = costOver c H ls * ε * xs.length * (10 * xs.length * ρ + 4) := by ring
    _ ≤ costOver c H ls * ε * xs.length * (10 * xs.length * ρ + 4 * xs.length) := mul_le_mul_of_nonneg_left (by linarith) hc
    _ = _ := by ring

end Arith

/-- **C124 (`KT`).** `KT` over any nonempty alphabet of `n` symbols, and any tower of `CTW`, `PTW` and `PTWFixedLength` over it, can be made and updated in
rounded arithmetic without exceptions, and the sum of the values returned is near that of exact arithmetic.  Already the initial counts
`1.0 / len(alphabet)` and their sum are rounded. -/
theorem C124_KT [Fintype α] (hR : R.Accurate ε) (A : List α) (hA : A.Nodup) (hne : A ≠ []) (pad : α) (ls : List Layer) (H : ℕ) (xs : List (Obs α))
    (hx : ∀ o ∈ xs, o.sym ∈ A ∧ o.weight = 1) (hT : 1 ≤ xs.length) (hTH : xs.length ≤ 2 ^ H) (hfit : ∀ l ∈ ls, l.Fits H xs.length)
    (hε : 100 * (costOver (A.length + 1) H ls : ℝ) * ε * xs.length ≤ 1) :
    ∃ s' s r' q' r q, R.katInit A = .ok s' ∧ KT.init A none = .ok s ∧
      (roundedOver R R.katPredictor s' pad ls).run (newOver α s' ls) xs = .ok (r', q') ∧
      (exactOver KT.predictor s pad ls).run (newOver α s ls) xs = .ok (r, q) ∧
      |r' - r| ≤ costOver (A.length + 1) H ls * ε * xs.length ^ 2 * (10 * Real.log (A.length * (xs.length + 1)) + 4) := by
  have e0 := hR.nonneg
  obtain ⟨s', s, k1, k2, k3⟩ := KatSim.init hR hA hne
  have hn : (1 : ℝ) ≤ A.length := by exact_mod_cast List.length_pos_iff.2 hne
  have h1 : (1 : ℝ) ≤ xs.length := by exact_mod_cast hT
  have hρ : 69 / 100 ≤ Real.log (A.length * (xs.length + 1)) := by
    have h2 : (2 : ℝ) ≤ A.length * (xs.length + 1) := by nlinarith
    have := Real.log_le_log (by norm_num) h2
    have := Real.log_two_gt_d9
    linarith
  have hβ : ε * (Real.log (A.length * (xs.length + 1)) + 3 * (2 * xs.length + A.length + 1)) ≤
      ((A.length + 1 : ℕ) : ℝ) * (ε * (10 * xs.length * Real.log (A.length * (xs.length + 1)) + 4)) := by
    push_cast
    rw [mul_left_comm]
    refine mul_le_mul_of_nonneg_left ?_ e0
    generalize Real.log (A.length * (xs.length + 1)) = ρ at *
    have h2 : 69 / 100 * (xs.length : ℝ) ≤ xs.length * ρ := by nlinarith
    have h3 : ρ ≤ xs.length * ρ := by nlinarith
    have h4 : 1 * (10 * xs.length * ρ + 4) ≤ A.length * (10 * xs.length * ρ + 4) := mul_le_mul_of_nonneg_right hn (by nlinarith)
    nlinarith
  obtain ⟨r', q', r, q, j1, j2, j3⟩ := over_sum hR xs hT hTH hρ (katBase hR A xs.length) hβ k3 rfl rfl pad ls hfit hε hx
  exact ⟨s', s, r', q', r, q, k1, k2, j1, j2, j3⟩

/-- **C124 (`SAD`).** The same for `SAD(n)` with any number `n` of symbols, in an arithmetic that counts exactly.  The constant does not depend on `n`. -/
theorem C124_SAD [Fintype α] (hR : R.Accurate ε) (A : List α) (hne : A ≠ []) (pad : α) (ls : List Layer) (H : ℕ) (xs : List (Obs α))
    (hC : ∀ a b : ℕ, a + b ≤ xs.length → R.add a b = a + b)
    (hx : ∀ o ∈ xs, o.sym ∈ A ∧ o.weight = 1) (hT : 1 ≤ xs.length) (hTH : xs.length ≤ 2 ^ H) (hfit : ∀ l ∈ ls, l.Fits H xs.length)
    (hε : 100 * (costOver 6 H ls : ℝ) * ε * xs.length ≤ 1) :
    ∃ r' q' r q, (roundedOver R R.sadPredictor (SAD.init A.length) pad ls).run (newOver α (SAD.init A.length) ls) xs = .ok (r', q') ∧
      (exactOver SAD.predictor (SAD.init A.length) pad ls).run (newOver α (SAD.init A.length) ls) xs = .ok (r, q) ∧
      |r' - r| ≤ costOver 6 H ls * ε * xs.length ^ 2 * (10 * Real.log (3 * A.length * xs.length ^ 2) + 4) := by
  have e0 := hR.nonneg
  have hn : (1 : ℝ) ≤ A.length := by exact_mod_cast List.length_pos_iff.2 hne
  have h1 : (1 : ℝ) ≤ xs.length := by exact_mod_cast hT
  have hρ : 69 / 100 ≤ Real.log (3 * A.length * xs.length ^ 2) := by
    have h2 : (2 : ℝ) ≤ 3 * A.length * xs.length ^ 2 := by nlinarith [one_le_pow₀ h1 (n := 2)]
    have := Real.log_le_log (by norm_num) h2
    have := Real.log_two_gt_d9
    linarith
  have hc : ∀ ls : List Layer, 6 ≤ costOver 6 H ls := by
    intro ls
    induction ls with
    | nil => exact le_rfl
    | cons l ls ih => cases l <;> simp only [costOver] <;> omega
  have hε' : 64 * ε * xs.length ≤ 1 := by
    have h6 : (6 : ℝ) ≤ costOver 6 H ls := by exact_mod_cast hc ls
    have := mul_le_mul_of_nonneg_right h6 (by positivity : 0 ≤ ε * xs.length)
    have : 0 ≤ ε * xs.length := by positivity
    linarith
  have hβ : ε * (Real.log (3 * A.length * xs.length ^ 2) + 32 * xs.length) ≤
      ((6 : ℕ) : ℝ) * (ε * (10 * xs.length * Real.log (3 * A.length * xs.length ^ 2) + 4)) := by
    push_cast
    rw [mul_left_comm]
    refine mul_le_mul_of_nonneg_left ?_ e0
    generalize Real.log (3 * A.length * xs.length ^ 2) = ρ at *
    have h2 : 69 / 100 * (xs.length : ℝ) ≤ xs.length * ρ := by nlinarith
    have h3 : ρ ≤ xs.length * ρ := by nlinarith
    linarith
  exact over_sum hR xs hT hTH hρ (sadBase hR A xs.length hC hε') hβ (SadSim.init A) rfl rfl pad ls hfit hε hx

/-- **C124 (predictions).** In every arithmetic `log_predict` of `KT` and `SAD` returns exactly what `update` would return, and changes nothing. -/
theorem C124_predict (R : Arith) (a : α) (h : List α) (w : ℝ) :
    (∀ (s t : KT α) (r : ℝ), R.katPredictor.update s a h w = .ok (r, t) → R.katPredictor.logPredict s a h = .ok (r, s)) ∧
    ∀ (s t : SAD α) (r : ℝ), R.sadPredictor.update s a h w = .ok (r, t) → R.sadPredictor.logPredict s a h = .ok (r, s) := by
  constructor
  · intro s t r e
    simp only [katPredictor, katUpdate, bind_eq_ok, pure_eq_ok, Except.ok.injEq, Prod.mk.injEq] at e ⊢
    obtain ⟨x, e1, c, -, rfl, -⟩ := e
    exact ⟨x, e1, rfl, trivial⟩
  · intro s t r e
    simp only [sadPredictor, sadUpdate, bind_eq_ok, pure_eq_ok, Except.ok.injEq, Prod.mk.injEq] at e ⊢
    obtain ⟨x, e1, c, -, rfl, -⟩ := e
    exact ⟨x, e1, rfl, trivial⟩

/-- **C124 (exact arithmetic).** With exact arithmetic these are the models of the other theorems. -/
theorem C124_exact (A : List α) :
    Arith.exact.katInit A = KT.init A none ∧ Arith.exact.katPredictor (α := α) = KT.predictor ∧ Arith.exact.sadPredictor (α := α) = SAD.predictor := by
  have hd : Arith.exact.pyDiv = Verif.pyDiv := rfl
  have hl : Arith.exact.pyLog = Verif.pyLog := rfl
  refine ⟨?_, ?_, ?_⟩
  · unfold katInit KT.init
    rw [hd]
    congr 1
    funext d
    congr 2
    show d.values.foldl (fun x y => x + y) 0 = d.values.sum
    exact (List.sum_eq_foldl ..).symm
  · rfl
  · rfl

/-- **C124 (double precision).** Numbers of 53 binary digits count exactly up to `2 ^ 53`. -/
theorem C124_double (a b : ℕ) (h : a + b ≤ 2 ^ 53) : Double.arith.add a b = a + b := by
  have := C113_double.2.2 (a + b : ℤ) 0 (by
    rw [abs_of_nonneg (by positivity)]
    exact_mod_cast h)
  simpa [Double.arith] using this

/-- `PTW` over `SAD(256)` in double precision, and a thousand updates: the hypotheses hold, and the error is less than a thousandth of a nat. -/
example (xs : List (Obs (Fin 256))) (hw : ∀ o ∈ xs, o.weight = 1) (hl : xs.length = 1000) :
    ∃ r' q' r q, (roundedOver Double.arith Double.arith.sadPredictor (SAD.init 256) 0 [.ptw 0]).run (newOver (Fin 256) (SAD.init 256) [.ptw 0]) xs = .ok (r', q') ∧
      (exactOver SAD.predictor (SAD.init 256) 0 [.ptw 0]).run (newOver (Fin 256) (SAD.init 256) [.ptw 0]) xs = .ok (r, q) ∧ |r' - r| ≤ 1 / 1000 := by
  have hA : (List.finRange 256).length = 256 := List.length_finRange
  have hc : costOver 6 10 [.ptw 0] = 553 := by decide
  obtain ⟨r', q', r, q, k1, k2, k3⟩ := C124_SAD C113_double.1 (List.finRange 256) (by decide) 0 [.ptw 0] 10 xs
    (fun a b h => C124_double a b (by rw [hl] at h; omega)) (fun o ho => ⟨List.mem_finRange _, hw o ho⟩) (by omega) (by rw [hl]; norm_num)
    (by simp [Layer.Fits]) (by rw [hc, hl]; norm_num)
  rw [hA] at k1 k2
  refine ⟨r', q', r, q, k1, k2, le_trans k3 ?_⟩
  rw [hc, hl, hA]
  have h1 : Real.log (3 * (256 : ℕ) * ((1000 : ℕ) : ℝ) ^ 2) ≤ Real.log (2 ^ 30) := Real.log_le_log (by norm_num) (by norm_num)
  rw [Real.log_pow] at h1
  have h2 := Real.log_two_lt_d9
  have h3 : Real.log (3 * (256 : ℕ) * ((1000 : ℕ) : ℝ) ^ 2) ≤ 21 := by
    push_cast at h1 ⊢
    linarith
  generalize Real.log (3 * (256 : ℕ) * ((1000 : ℕ) : ℝ) ^ 2) = x at h3
  norm_num
  linarith

end Verif
