import Verif.Spec.RoundingTower
import Verif.Proofs.RoundingTower

/-!
# C112: rounding errors of models over models
-/

namespace Verif

open Arith Layer

variable {R : Arith} {ε : ℝ}

namespace Arith

/-- The choice of the bound on all numbers. -/
theorem tower_room (hε0 : 0 ≤ ε) {T c : ℕ} (hT : 1 ≤ T) (hε : 100 * c * ε * T ≤ 1) :
    T * (8 * (Real.log (2 * T) + c * (ε * (10 * T * Real.log (2 * T) + 4)))) + 2 ≤ 10 * T * Real.log (2 * T) + 4 := by
  have h1 : (1 : ℝ) ≤ T := by exact_mod_cast hT
  have hρ := log_ge hT
  generalize Real.log (2 * T) = ρ at *
  have hTρ : 69 / 100 ≤ T * ρ := by nlinarith
  have k1 : c * ε * T * (10 * T * ρ + 4) ≤ 1 / 100 * (10 * T * ρ + 4) := mul_le_mul_of_nonneg_right (by linarith) (by linarith)
  calc (T : ℝ) * (8 * (ρ + c * (ε * (10 * T * ρ + 4)))) + 2 = 8 * (T * ρ) + 8 * (c * ε * T * (10 * T * ρ + 4)) + 2 := by ring
    _ ≤ _ := by linarith

theorem mkcontext_length {d : ℕ} (hd : 1 ≤ d) (h : List Bool) : (CTW.mkcontext d false h).length = d := by
  rw [CTW.mkcontext, pyTail, if_neg (by omega), List.length_append, List.length_replicate, List.length_drop]
  omega

/-- Every tower has small errors, also those that its state remembers. -/
theorem tower_sim_gap (hR : R.Accurate ε) {T H : ℕ} (hT : 1 ≤ T) (hTH : T ≤ 2 ^ H) (ls : List Layer) (hfit : ∀ l ∈ ls, l.Fits H T)
    (hε : 100 * (cost H ls : ℝ) * ε * T ≤ 1) :
    ∃ Sim : Rel (State ls) (State ls),
      BaseSim (rounded R ls) (Layer.exact ls) (fun o => o.weight = 1) T (cost H ls * (ε * (10 * T * Real.log (2 * T) + 4))) (Real.log (2 * T)) Sim ∧
      Sim.sim 0 (new ls) (new ls) ∧ Sim.gap (new ls) (new ls) = 0 ∧ 0 ≤ Sim.γ ∧ Sim.γ ≤ cost H ls * (ε * (10 * T * Real.log (2 * T) + 4)) := by
  have e0 := hR.nonneg
  have h1 : (1 : ℝ) ≤ T := by exact_mod_cast hT
  have hρ := log_ge hT
  have hTρ : 69 / 100 ≤ T * Real.log (2 * T) := by nlinarith
  induction ls with
  | nil =>
    refine ⟨ktRel ε, (ktBase hR T).mono ?_, (KtSim.init : KtSim ε 0 _ _), rfl, le_rfl, ?_⟩
    · rw [cost, Nat.cast_one, one_mul]
      refine mul_le_mul_of_nonneg_left ?_ e0
      nlinarith
    · have : 0 ≤ ε * (10 * T * Real.log (2 * T) + 4) := mul_nonneg e0 (by linarith)
      rw [cost, Nat.cast_one, one_mul]
      exact this
  | cons l ls ih =>
    have room := tower_room e0 hT hε
    have hmono : cost H ls ≤ cost H (l :: ls) := by cases l <;> simp only [cost] <;> omega
    have hε' : 100 * (cost H ls : ℝ) * ε * T ≤ 1 := by
      refine le_trans ?_ hε
      have : (cost H ls : ℝ) ≤ cost H (l :: ls) := by exact_mod_cast hmono
      have := mul_le_mul_of_nonneg_right this (by positivity : 0 ≤ ε * T)
      linarith
    obtain ⟨Sim, hB, hi, hg, -, -⟩ := ih (fun l hl => hfit l (by simp [hl])) hε'
    have hl := hfit l (by simp)
    set G := 10 * (T : ℝ) * Real.log (2 * T) + 4 with hGd
    have hG0 : 0 ≤ G := by linarith
    have hεG : 0 ≤ ε * G := mul_nonneg e0 hG0
    have hβ : 0 ≤ (cost H ls : ℝ) * (ε * G) := by positivity
    -- it is enough to bound one update
    have hroom : ∀ x : ℝ, x ≤ 8 * (Real.log (2 * T) + cost H (l :: ls) * (ε * G)) → T * x + 2 ≤ G := by
      intro x hx
      have := mul_le_mul_of_nonneg_left hx (by linarith : (0 : ℝ) ≤ T)
      linarith
    cases l with
    | ctw d =>
      simp only [cost] at hroom ⊢
      push_cast at hroom ⊢
      have hd : 0 ≤ (d : ℝ) * (ε * G) := by positivity
      have k1 := BaseSim.ctw (f' := new ls) (f := new ls) hR hB hβ (by linarith) hG0 (D := d)
        (hroom _ (by simp only [stepErr]; linarith)) (CTW.mkcontext d false) (mkcontext_length hl)
      exact ⟨_, k1.mono (by simp only [stepErr]; linarith), NodeSim.new hi hg d, sub_self _, by simp only [ctwRel, stepErr]; linarith,
        by simp only [ctwRel, stepErr]; linarith⟩
    | ptw h0 =>
      simp only [cost] at hroom ⊢
      push_cast at hroom ⊢
      have hH : 0 ≤ (H : ℝ) * (ε * G) := by positivity
      have k1 := BaseSim.ptw (h0 := h0) hR hB hβ (by linarith) hεG (hroom _ (by simp only [ptwErr]; linarith)) hi hg hTH
      refine ⟨_, k1.mono (by simp only [ptwErr]; linarith),
        ⟨⟨⟨h0, hl, .leaf (DataSim.new hi hg h0) (Nat.zero_le _) rfl, ?_, ?_⟩, ?_, ?_⟩, ?_⟩, sub_self _,
        by simp only [rootRel, ptwErr]; linarith, by simp only [rootRel, ptwErr]; linarith⟩
      all_goals simp [new, PTW.init, PTWNode.data, PTWData.new]
    | fixed h0 height =>
      simp only [cost] at hroom ⊢
      push_cast at hroom ⊢
      have hH : 0 ≤ (height : ℝ) * (ε * G) := by positivity
      have k1 := BaseSim.fixed (h0 := h0) hR hB hβ (by linarith) hεG (hroom _ (by simp only [ptwErr]; linarith)) hi hg hl.2
      refine ⟨_, k1.mono (by simp only [ptwErr]; linarith),
        ⟨⟨⟨h0, hl.1, .leaf (DataSim.new hi hg h0) (Nat.zero_le _) rfl⟩, ?_, ?_⟩, ?_⟩, sub_self _,
        by simp only [fixedRel, ptwErr]; linarith, by simp only [fixedRel, ptwErr]; linarith⟩
      · simp [new, PTW.init]
      · simp [new, PTW.init]
      · exact (correct_self 0 _).symm

/-- Every tower has small errors. -/
theorem tower_sim (hR : R.Accurate ε) {T H : ℕ} (hT : 1 ≤ T) (hTH : T ≤ 2 ^ H) (ls : List Layer) (hfit : ∀ l ∈ ls, l.Fits H T)
    (hε : 100 * (cost H ls : ℝ) * ε * T ≤ 1) :
    ∃ Sim : Rel (State ls) (State ls),
      BaseSim (rounded R ls) (Layer.exact ls) (fun o => o.weight = 1) T (cost H ls * (ε * (10 * T * Real.log (2 * T) + 4))) (Real.log (2 * T)) Sim ∧
      Sim.sim 0 (new ls) (new ls) ∧ Sim.gap (new ls) (new ls) = 0 := by
  obtain ⟨Sim, h1, h2, h3, -⟩ := tower_sim_gap hR hT hTH ls hfit hε
  exact ⟨Sim, h1, h2, h3⟩

end Arith

/-- **C112 (models over models).** Take any tower of `CTW`, `PTW` and `PTWFixedLength` over `KTBinary`.  In rounded arithmetic none of its updates raises,
and the sum of the values they return is near that of exact arithmetic.  The error still grows, up to a logarithm, like the square of the number of
updates, however many models are nested: the errors that the base models keep in their sums are not counted again by the models over them. -/
theorem C112_tower_sum (hR : R.Accurate ε) (ls : List Layer) (H : ℕ) (xs : List (Obs Bool)) (hw : ∀ o ∈ xs, o.weight = 1) (hT : 1 ≤ xs.length)
    (hTH : xs.length ≤ 2 ^ H) (hfit : ∀ l ∈ ls, l.Fits H xs.length) (hε : 100 * (cost H ls : ℝ) * ε * xs.length ≤ 1) :
    ∃ r' q' r q, (rounded R ls).run (new ls) xs = .ok (r', q') ∧ (Layer.exact ls).run (new ls) xs = .ok (r, q) ∧
      |r' - r| ≤ cost H ls * ε * xs.length ^ 2 * (10 * Real.log (2 * xs.length) + 4) := by
  have e0 := hR.nonneg
  have h1 : (1 : ℝ) ≤ xs.length := by exact_mod_cast hT
  obtain ⟨Sim, hB, hi, hg⟩ := tower_sim hR hT hTH ls hfit hε
  obtain ⟨r', q', r, q, k1, k2, k3, k4, -⟩ := hB.run xs hw 0 (by omega) _ _ hi
  refine ⟨r', q', r, q, k1, k2, ?_⟩
  rw [zero_add] at k3
  have k5 := hB.gap _ _ _ k3
  rw [hg, sub_zero] at k4
  have hc : 0 ≤ (cost H ls : ℝ) * ε * xs.length := by positivity
  calc |r' - r| ≤ xs.length * Sim.γ + xs.length * (cost H ls * (ε * (10 * xs.length * Real.log (2 * xs.length) + 4)) - Sim.γ) := abs_le_of_near k5 k4
    _ = cost H ls * ε * xs.length * (10 * xs.length * Real.log (2 * xs.length) + 4) := by ring
    _ ≤ cost H ls * ε * xs.length * (10 * xs.length * Real.log (2 * xs.length) + 4 * xs.length) := mul_le_mul_of_nonneg_left (by linarith) hc
    _ = _ := by ring

/-- **C112 (`update_seq`).** The same for the sum which the loop of `update_seq` computes, whose additions are rounded as well. -/
theorem C112_tower_sequence (hR : R.Accurate ε) (ls : List Layer) (H : ℕ) (seq hist : List Bool) (hT : 1 ≤ seq.length)
    (hTH : seq.length ≤ 2 ^ H) (hfit : ∀ l ∈ ls, l.Fits H seq.length) (hε : 100 * ((cost H ls : ℝ) + 1) * ε * seq.length ≤ 1) :
    ∃ r' t' r t hh, R.seqLoop (rounded R ls) 1 (new ls) seq hist 0 = .ok (r', t', hh) ∧
      (Layer.exact ls).updateSeqLoop 1 (new ls) seq hist 0 = .ok (r, t, hh) ∧
      |r' - r| ≤ (cost H ls + 1) * ε * seq.length ^ 2 * (10 * Real.log (2 * seq.length) + 4) := by
  have e0 := hR.nonneg
  have h1 : (1 : ℝ) ≤ seq.length := by exact_mod_cast hT
  have hρ := log_ge hT
  have he1 : 0 ≤ ε * seq.length := by positivity
  obtain ⟨Sim, hB, hi, hg⟩ := tower_sim hR hT hTH ls hfit (by linarith)
  have room := tower_room (c := cost H ls + 1) e0 hT (by push_cast; linarith)
  push_cast at room
  set G := 10 * (seq.length : ℝ) * Real.log (2 * seq.length) + 4 with hGd
  have hTρ : 69 / 100 ≤ seq.length * Real.log (2 * seq.length) := by nlinarith
  have hG0 : 0 ≤ G := by linarith
  have hεG : 0 ≤ ε * G := mul_nonneg e0 hG0
  have hβ : 0 ≤ (cost H ls : ℝ) * (ε * G) := by positivity
  obtain ⟨r', t', r, t, hh, k1, k2, k3⟩ := seq_sim hR hB hβ (by linarith) hG0 (by
    have : (seq.length : ℝ) * (Real.log (2 * seq.length) + (cost H ls * (ε * G) + ε * G)) ≤
        seq.length * (8 * (Real.log (2 * seq.length) + (cost H ls + 1) * (ε * G))) := mul_le_mul_of_nonneg_left (by linarith) (by linarith)
    linarith) seq hist 0 (by omega) _ _ hi 0 0 (by simp) (by simp [hg])
  refine ⟨r', t', r, t, hh, k1, k2, le_trans k3 ?_⟩
  rw [zero_add]
  have hc : 0 ≤ ((cost H ls : ℝ) + 1) * ε * seq.length := by positivity
  calc (seq.length : ℝ) * (cost H ls * (ε * G) + ε * G) = (cost H ls + 1) * ε * seq.length * (10 * seq.length * Real.log (2 * seq.length) + 4) := by
        rw [hGd]; ring
    _ ≤ (cost H ls + 1) * ε * seq.length * (10 * seq.length * Real.log (2 * seq.length) + 4 * seq.length) :=
        mul_le_mul_of_nonneg_left (by linarith) hc
    _ = _ := by ring

/-- **C112 (every symbol has some probability).** In exact arithmetic each of the first `T` updates of a tower gives the symbol a probability of at least `1 / (2 T)`, however
many models are nested: nesting does not make the worst case worse. -/
theorem C112_tower_bounded (ls : List Layer) (H T : ℕ) (xs : List (Obs Bool)) (hw : ∀ o ∈ xs, o.weight = 1) (hT : xs.length < T)
    (hTH : T ≤ 2 ^ H) (hfit : ∀ l ∈ ls, l.Fits H T) :
    ∃ r q, (Layer.exact ls).run (new ls) xs = .ok (r, q) ∧
      ∀ b h, ∃ p t, (Layer.exact ls).update q b h 1 = .ok (p, t) ∧ 1 / (2 * T) ≤ Real.exp p := by
  obtain ⟨Sim, hB, hi, -⟩ := tower_sim (C99_exact (κ := Bool) KTBinary.predictor (KTBinary.init none) (fun _ => [])).1 (by omega : 1 ≤ T) hTH ls hfit
    (by simp)
  obtain ⟨r', q', r, q, -, k2, k3, -, -⟩ := hB.run xs hw 0 (by omega) _ _ hi
  rw [zero_add] at k3
  refine ⟨r, q, k2, fun b h => ?_⟩
  obtain ⟨-, -, p, t, -, g2, -, -, g5⟩ := hB.step _ _ _ ⟨b, h, 1⟩ hT k3 rfl
  refine ⟨p, t, g2, ?_⟩
  have hpos : (0 : ℝ) < 2 * T := by
    have : (0 : ℝ) < T := by exact_mod_cast (by omega)
    linarith
  rw [one_div, ← Real.exp_log hpos, ← Real.exp_neg]
  exact Real.exp_le_exp.2 (abs_le.1 g5).1

/-- `PTW` over `CTW` of depth 8 over `KTBinary`, a thousand updates and errors of `2 ^ -52`: the hypotheses of `C112_tower_sum` hold, and the error is less than
a thousandth of a nat. -/
example : (∀ l ∈ [Layer.ptw 0, Layer.ctw 8], l.Fits 10 1000) ∧ 1000 ≤ 2 ^ 10 ∧
    100 * (cost 10 [.ptw 0, .ctw 8] : ℝ) * 2⁻¹ ^ 52 * (1000 : ℕ) ≤ 1 ∧
    (cost 10 [.ptw 0, .ctw 8] : ℝ) * 2⁻¹ ^ 52 * ((1000 : ℕ) : ℝ) ^ 2 * (10 * Real.log (2 * (1000 : ℕ)) + 4) < 1 / 1000 := by
  have hc : cost 10 [.ptw 0, .ctw 8] = 983 := by decide
  refine ⟨?_, by norm_num, by rw [hc]; norm_num, ?_⟩
  · intro l hl
    simp only [List.mem_cons, List.not_mem_nil, or_false] at hl
    rcases hl with rfl | rfl <;> simp [Layer.Fits]
  · rw [hc]
    have h1 : Real.log (2 * (1000 : ℕ)) ≤ Real.log (2 ^ 11) := Real.log_le_log (by norm_num) (by norm_num)
    rw [Real.log_pow] at h1
    have h2 := Real.log_two_lt_d9
    push_cast at h1 ⊢
    have h3 : Real.log (2 * 1000) ≤ 8 := by linarith
    generalize Real.log (2 * 1000) = x at h3
    norm_num
    linarith

/-- A tower of three models within the length of its `PTWFixedLength`. -/
example : (∀ l ∈ [Layer.fixed 2 10, Layer.ptw 3, Layer.ctw 4], l.Fits 10 1000) := by
  intro l hl
  simp only [List.mem_cons, List.not_mem_nil, or_false] at hl
  rcases hl with rfl | rfl | rfl <;> simp [Layer.Fits]

end Verif
