import Verif.Proofs.RoundingAC
import Verif.Props.RoundingTower

/-!
# C113: double precision, and the length of the code in rounded arithmetic
-/

namespace Verif

open Arith Layer AC Predictor

variable {R : Arith} {ε : ℝ}

/-- **C113 (double precision).** Arithmetic with numbers of 53 binary digits, rounded to the nearest and to the even one of two, is accurate to
`2 ^ -53`.  Every result has 53 digits, and numbers of 53 digits are not changed by rounding. -/
theorem C113_double :
    Double.arith.Accurate (2⁻¹ ^ 53) ∧ (∀ x, ∃ k e : ℤ, |k| ≤ 2 ^ 53 ∧ Double.fl x = k * 2 ^ e) ∧
    ∀ k e : ℤ, |k| ≤ 2 ^ 53 → Double.fl (k * 2 ^ e) = k * 2 ^ e := by
  refine ⟨⟨by norm_num, by norm_num, fun x y => Double.fl_near _, fun x y => Double.fl_near _, fun x y => Double.fl_near _,
    fun x y _ => Double.fl_near _, fun x _ => Double.fl_near _, fun x _ => ⟨?_, ?_⟩⟩, Double.fl_repr, Double.fl_of_repr⟩
  · have h := Double.fl_near (Real.exp x)
    have hp := Real.exp_pos x
    rw [abs_of_pos hp, abs_le] at h
    have : (2⁻¹ : ℝ) ^ 53 * Real.exp x ≤ 1 * Real.exp x := mul_le_mul_of_nonneg_right (by norm_num) hp.le
    show 0 ≤ Double.fl (Real.exp x)
    linarith
  · have h := Double.fl_near (Real.exp x)
    rw [abs_of_pos (Real.exp_pos x)] at h
    refine h.trans ?_
    have : (0 : ℝ) ≤ 2⁻¹ ^ 53 := by positivity
    linarith

/-- **C113 (rounding to nearest).** The result is the number of 53 digits nearest to the exact value, whatever its exponent; of two that are equally near it is the
one with an even last digit; and rounding does not depend on the sign. -/
theorem C113_nearest_even :
    (∀ (x : ℝ) (k e : ℤ), |k| ≤ 2 ^ 53 → |Double.fl x - x| ≤ |k * 2 ^ e - x|) ∧
    (∀ k e : ℤ, 2 ^ 52 ≤ k → k < 2 ^ 53 → Double.fl ((k + 1 / 2) * 2 ^ e) = (if Even k then k else k + 1 : ℤ) * 2 ^ e) ∧
    ∀ x, Double.fl (-x) = -Double.fl x :=
  ⟨Double.fl_nearest, Double.fl_tie, Double.fl_neg⟩

/-- Two ties: `2 ^ 53 + 1` is rounded down and `2 ^ 53 + 3` is rounded up. -/
example : Double.arith.add (2 ^ 53) 1 = 2 ^ 53 ∧ Double.arith.add (2 ^ 53) 3 = 2 ^ 53 + 4 := by
  have h1 := C113_nearest_even.2.1 (2 ^ 52) 1 le_rfl (by norm_num)
  have h2 := C113_nearest_even.2.1 (2 ^ 52 + 1) 1 (by norm_num) (by norm_num)
  rw [if_pos (by decide)] at h1
  rw [if_neg (by decide)] at h2
  norm_num at h1 h2
  constructor
  · show Double.fl _ = _
    norm_num
    exact h1
  · show Double.fl _ = _
    norm_num
    exact h2

/-- It is not exact. -/
example : Double.arith.add 1 (2 ^ (-60 : ℤ)) ≠ 1 + 2 ^ (-60 : ℤ) := by
  intro h
  obtain ⟨k, e, hk, he⟩ := Double.fl_repr (1 + 2 ^ (-60 : ℤ))
  change Double.fl _ = _ at h
  rw [he] at h
  have hk' : |(k : ℝ)| ≤ 2 ^ 53 := by
    have : ((|k| : ℤ) : ℝ) ≤ ((2 ^ 53 : ℤ) : ℝ) := by exact_mod_cast hk
    norm_num at this ⊢
    exact this
  have h1 : (1 : ℝ) < (k : ℝ) * 2 ^ e := by
    rw [h]
    have : (0 : ℝ) < 2 ^ (-60 : ℤ) := by positivity
    linarith
  have hek : -53 ≤ e := by
    by_contra hc
    have h2 : (2 : ℝ) ^ e ≤ 2 ^ (-54 : ℤ) := zpow_le_zpow_right₀ (by norm_num) (by omega)
    have h3 : (k : ℝ) * 2 ^ e ≤ 2 ^ 53 * 2 ^ (-54 : ℤ) :=
      mul_le_mul ((le_abs_self _).trans hk') h2 (by positivity) (by positivity)
    norm_num at h3
    linarith
  obtain ⟨j, hj⟩ := Int.eq_ofNat_of_zero_le (by omega : 0 ≤ e + 53)
  have h4 : (k : ℝ) * 2 ^ j = 2 ^ 53 + 2 ^ (-7 : ℤ) := by
    have : (2 : ℝ) ^ j = 2 ^ e * 2 ^ 53 := by
      rw [← zpow_natCast, ← hj, zpow_add₀ (by norm_num)]
      norm_num
    rw [this, ← mul_assoc, h]
    norm_num
  have h5 : ((k * 2 ^ j * 2 ^ 7 : ℤ) : ℝ) = ((2 ^ 60 + 1 : ℤ) : ℝ) := by
    push_cast
    rw [h4]
    norm_num
  have h6 : k * 2 ^ j * 2 ^ 7 = 2 ^ 60 + 1 := by exact_mod_cast h5
  omega

namespace Double

/-- One update of `KTBinary`. -/
theorem kt_step (a b M : ℕ) (h : a + b + 1 ≤ M) (hM : M < 2 ^ 52) (x : Bool) (hist : List Bool) :
    ∃ r' r a' b', a' + b' = a + b + 1 ∧ arith.ktPredictor.update ⟨a + 1 / 2, b + 1 / 2⟩ x hist 1 = .ok (r', ⟨a' + 1 / 2, b' + 1 / 2⟩) ∧
      KTBinary.predictor.update ⟨a + 1 / 2, b + 1 / 2⟩ x hist 1 = .ok (r, ⟨a' + 1 / 2, b' + 1 / 2⟩) ∧
      |r' - r| ≤ 2⁻¹ ^ 53 * (Real.log (2 * M) + 4) := by
  have hrep : ∀ n : ℕ, n + 1 < 2 ^ 52 → fl (n + 1 / 2 + 1) = ((n + 1 : ℕ) : ℝ) + 1 / 2 := by
    intro n hn
    have h := fl_of_repr (2 * n + 3) (-1) (by rw [abs_of_nonneg (by positivity)]; omega)
    push_cast at h ⊢
    rw [show ((n : ℝ) + 1 / 2 + 1) = (2 * n + 3) * 2 ^ (-1 : ℤ) by norm_num; ring, h]
    norm_num
    ring
  have hsum : arith.add (a + 1 / 2) (b + 1 / 2) = a + b + 1 := by
    have h := fl_of_repr (a + b + 1) 0 (by rw [abs_of_nonneg (by positivity)]; omega)
    push_cast at h
    rw [zpow_zero, mul_one] at h
    show fl _ = _
    rw [show (a : ℝ) + 1 / 2 + (b + 1 / 2) = a + b + 1 by ring, h]
  set c : ℝ := KTBinary.get ⟨a + 1 / 2, b + 1 / 2⟩ x with hc
  have hc2 : (1 / 2 : ℝ) ≤ c := by
    rw [hc, KTBinary.get]
    have : (0 : ℝ) ≤ a := by positivity
    have : (0 : ℝ) ≤ b := by positivity
    split_ifs <;> simp
  have hc3 : c ≤ a + b + 1 := by
    rw [hc, KTBinary.get]
    have : (0 : ℝ) ≤ a := by positivity
    have : (0 : ℝ) ≤ b := by positivity
    split_ifs <;> dsimp only <;> linarith
  have hs : (0 : ℝ) < a + b + 1 := by positivity
  have hsM : (a + b + 1 : ℝ) ≤ M := by exact_mod_cast h
  have hM0 : (0 : ℝ) < M := by linarith
  have hq0 : 0 < c / (a + b + 1) := by positivity
  have hq1 : 1 / (2 * M : ℝ) ≤ c / (a + b + 1) := by
    rw [div_le_div_iff₀ (by positivity) hs]
    nlinarith
  have hq2 : c / (a + b + 1) ≤ 1 := (div_le_one hs).2 hc3
  have hlog : |Real.log (c / (a + b + 1))| ≤ Real.log (2 * M) := by
    rw [abs_of_nonpos (Real.log_nonpos hq0.le hq2)]
    have := Real.log_le_log (by positivity) hq1
    rw [one_div, Real.log_inv] at this
    linarith
  have hR := C113_double.1
  have hn : Near (0 + 2 * 2⁻¹ ^ 53) (fl (c / (a + b + 1))) (c / (a + b + 1)) := (Near.refl hq0).round hR (fl_near _)
  have hl := hn.log
  have hl2 := fl_near (Real.log (fl (c / (a + b + 1))))
  refine ⟨fl (Real.log (fl (c / (a + b + 1)))), Real.log (c / (a + b + 1)), if x then a else a + 1, if x then b + 1 else b, ?_, ?_, ?_, ?_⟩
  · split_ifs <;> omega
  · have h1 : arith.ktLogPredict ⟨a + 1 / 2, b + 1 / 2⟩ x = .ok (fl (Real.log (fl (c / (a + b + 1))))) := by
      simp only [Arith.ktLogPredict, hsum, Arith.pyDiv, if_neg hs.ne', ok_bind]
      rw [Arith.pyLog, if_pos]
      · rfl
      · exact hn.pos
    simp only [Arith.ktPredictor, Arith.ktUpdate, h1, ok_bind, pure_eq_ok, Except.ok.injEq, Prod.mk.injEq, true_and]
    have ha := hrep a (by omega)
    have hb := hrep b (by omega)
    unfold Arith.ktBump
    cases x with
    | true => simp only [if_true, arith]; rw [hb]
    | false => simp only [Bool.false_eq_true, if_false, arith]; rw [ha]
  · have h1 : KTBinary.logPredict ⟨a + 1 / 2, b + 1 / 2⟩ x = .ok (Real.log (c / (a + b + 1))) := by
      simp only [KTBinary.logPredict]
      rw [show (a : ℝ) + 1 / 2 + (b + 1 / 2) = a + b + 1 by ring, pyDiv, if_neg hs.ne', ok_bind, pyLog, if_pos hq0]
    simp only [KTBinary.predictor, KTBinary.update, h1, ok_bind, pure_eq_ok, Except.ok.injEq, Prod.mk.injEq, true_and]
    unfold KTBinary.bump
    cases x with
    | true => simp only [if_true]; push_cast; congr 1; ring
    | false => simp only [Bool.false_eq_true, if_false]; push_cast; congr 1; ring
  · have h3 : |Real.log (fl (c / (a + b + 1)))| ≤ Real.log (2 * M) + 2 * 2⁻¹ ^ 53 := by
      have := abs_sub_abs_le_abs_sub (Real.log (fl (c / (a + b + 1)))) (Real.log (c / (a + b + 1)))
      linarith
    have h4 := mul_le_mul_of_nonneg_left h3 (by positivity : (0 : ℝ) ≤ 2⁻¹ ^ 53)
    have h5 := abs_sub_le (fl (Real.log (fl (c / (a + b + 1))))) (Real.log (fl (c / (a + b + 1)))) (Real.log (c / (a + b + 1)))
    have h6 : (2⁻¹ : ℝ) ^ 53 * (2 * 2⁻¹ ^ 53) ≤ 2⁻¹ ^ 53 * 2 := mul_le_mul_of_nonneg_left (by norm_num) (by positivity)
    rw [mul_add] at h4 ⊢
    linarith

end Double

/-- **C113 (counts).** In double precision `KTBinary` has, for less than `2 ^ 52` updates of weight one, exactly the counts of exact arithmetic, and so the
error of the sum grows, up to a logarithm, only linearly. -/
theorem C113_kt_counts (xs : List (Obs Bool)) (hw : ∀ o ∈ xs, o.weight = 1) (hl : xs.length < 2 ^ 52) :
    ∃ r' r q, Double.arith.ktPredictor.run (KTBinary.init none) xs = .ok (r', q) ∧ KTBinary.predictor.run (KTBinary.init none) xs = .ok (r, q) ∧
      |r' - r| ≤ xs.length * (2⁻¹ ^ 53 * (Real.log (2 * xs.length) + 4)) := by
  have key : ∀ (M : ℕ) (hM : M < 2 ^ 52) (xs : List (Obs Bool)) (a b : ℕ), (∀ o ∈ xs, o.weight = 1) → a + b + xs.length ≤ M →
      ∃ r' r q, Double.arith.ktPredictor.run ⟨a + 1 / 2, b + 1 / 2⟩ xs = .ok (r', q) ∧ KTBinary.predictor.run ⟨a + 1 / 2, b + 1 / 2⟩ xs = .ok (r, q) ∧
        |r' - r| ≤ xs.length * (2⁻¹ ^ 53 * (Real.log (2 * M) + 4)) := by
    intro M hM xs
    induction xs with
    | nil => exact fun a b _ _ => ⟨0, 0, _, rfl, rfl, by simp⟩
    | cons o xs ih =>
      intro a b hw hl
      rw [List.length_cons] at hl
      obtain ⟨r1', r1, a', b', e, h1, h2, h3⟩ := Double.kt_step a b M (by omega) hM o.sym o.hist
      obtain ⟨r2', r2, q, k1, k2, k3⟩ := ih a' b' (fun o ho => hw o (by simp [ho])) (by omega)
      refine ⟨r1' + r2', r1 + r2, q, ?_, ?_, ?_⟩
      · simp only [Predictor.run, hw o (by simp), h1, ok_bind, k1, pure_eq_ok]
      · simp only [Predictor.run, hw o (by simp), h2, ok_bind, k2, pure_eq_ok]
      · rw [List.length_cons]
        push_cast
        have := abs_add_le (r1' - r1) (r2' - r2)
        rw [show r1' + r2' - (r1 + r2) = r1' - r1 + (r2' - r2) by ring, add_mul, one_mul]
        linarith
  have h := key xs.length hl xs 0 0 hw (by omega)
  rw [show (⟨((0 : ℕ) : ℝ) + 1 / 2, ((0 : ℕ) : ℝ) + 1 / 2⟩ : KTBinary) = KTBinary.init none by norm_num [KTBinary.init]] at h
  exact h

/-- **C113 (length of the code).** Let the encoder and the model compute in rounded arithmetic.  If along the message the probabilities keep the distance
`m ≥ 16 ε` from 0 and 1, then the encoder succeeds, and the code of `n` bits has at most `2 + n (1 + log2 (1 / (1 - 8 ε / m)))` bits more than
`-log2` of the product of the probabilities that the model reports. -/
theorem C113_code_length (hR : R.Accurate ε) {σ : Type} (P : Predictor σ Bool) (N : ℕ) (hN : 1 ≤ N) (m : ℝ) (hm0 : 0 < m) (hm : 16 * ε ≤ m) (st : σ)
    (msg : List Bool) (hW : Within P m st msg) (fuel : ℕ) (hf : N < fuel) :
    ∃ code r st', R.acCompress P N fuel st msg = .ok code ∧ P.run st (msg.map fun b => ⟨b, [], 1⟩) = .ok (r, st') ∧
      (code.length : ℝ) ≤ 2 + msg.length * (1 + Real.logb 2 (1 / (1 - 8 * ε / m))) + -Real.logb 2 (Real.exp r) := by
  obtain ⟨o, s, t, ho⟩ := ac_all_total hR hm0 hm hN (fuel - (N + 1)) (Enc.ok_init hN) hW
  rw [show N + 1 + (fuel - (N + 1)) = fuel by omega] at ho
  have hc : R.acCompress P N fuel st msg = .ok (o ++ s.flush N) := by
    simp only [acCompress, ho, ok_bind, pure_eq_ok]
  obtain ⟨r, st', hr, hl⟩ := ac_length hR hm0 hm hN hW hc
  refine ⟨_, r, st', hc, hr, hl.trans_eq ?_⟩
  rw [one_div, Real.logb_inv]
  ring

namespace Arith

/-- One step of two models that stay near each other. -/
theorem BaseSim.near {σ' σ α : Type} {P' : Predictor σ' α} {P : Predictor σ α} {A : Obs α → Prop} {T : ℕ} {β ρ : ℝ} {Sim : Rel σ' σ}
    (hB : BaseSim P' P A T β ρ Sim) {m : ℕ} {s' : σ'} {s : σ} {o : Obs α} (hm : m < T) (hs : Sim.sim m s' s) (ho : A o) :
    ∃ r' t' r t, P'.update s' o.sym o.hist o.weight = .ok (r', t') ∧ P.update s o.sym o.hist o.weight = .ok (r, t) ∧
      Sim.sim (m + 1) t' t ∧ |r' - r| ≤ 2 * T * β ∧ |r| ≤ ρ := by
  obtain ⟨r', t', r, t, h1, h2, h3, h4, h5⟩ := hB.step m s' s o hm hs ho
  refine ⟨r', t', r, t, h1, h2, h3, ?_, h5⟩
  have g1 := hB.gap _ _ _ hs
  have g2 := hB.gap _ _ _ h3
  have g3 : 0 ≤ Sim.γ := by
    have : 0 ≤ ((m + 1 : ℕ) : ℝ) * Sim.γ := (abs_nonneg _).trans g2
    have h0 : (0 : ℝ) < ((m + 1 : ℕ) : ℝ) := by positivity
    exact nonneg_of_mul_nonneg_right this h0
  have g4 : Sim.γ ≤ β := by linarith [(abs_nonneg _).trans h4]
  have hT : (m : ℝ) + 1 ≤ T := by exact_mod_cast hm
  have g5 : (m + 1) * Sim.γ ≤ T * β := mul_le_mul hT g4 g3 (by linarith)
  push_cast at g2
  rw [abs_le] at *
  constructor <;> nlinarith

/-- Towers of `CTW` and `PTW` have normalised probabilities in exact arithmetic. -/
theorem tower_lawful (ls : List Layer) (h : ∀ l ∈ ls, l.Endless) :
    ∃ I, (Layer.exact ls).UpdateLawful I [false, true] (fun w => 0 ≤ w) ∧ I (new ls) := by
  induction ls with
  | nil => exact ⟨_, KTBinary.lawful.updateLawful, by norm_num [new, KTBinary.init]⟩
  | cons l ls ih =>
    obtain ⟨I, h1, h2⟩ := ih fun l hl => h l (by simp [hl])
    have hl := h l (by simp)
    cases l with
    | ctw d => exact ⟨_, CTWNode.updateLawful (fresh := new ls) h1 (mkcontext_length hl), CTWNode.WF.new h2 d⟩
    | ptw h0 => exact ⟨_, PTW.updateLawful (m := h0) h1 h2, [], by simp [GoodObs], PTW.inv_init, h2⟩
    | fixed _ _ => exact hl.elim

end Arith

/-- **C112 (normalisation).** After at most `T` updates of a tower of `CTW` and `PTW` in rounded arithmetic, the probabilities that `update` would report for the two
symbols are near those of exact arithmetic, and they sum nearly to one. -/
theorem C112_tower_normalised (hR : R.Accurate ε) (ls : List Layer) (H T : ℕ) (xs : List (Obs Bool)) (hw : ∀ o ∈ xs, o.weight = 1) (hT : xs.length < T)
    (hTH : T ≤ 2 ^ H) (hend : ∀ l ∈ ls, l.Endless) (hfit : ∀ l ∈ ls, l.Fits H T) (hε : 100 * (cost H ls : ℝ) * ε * T ≤ 1) :
    ∃ r' q' r q, (rounded R ls).run (new ls) xs = .ok (r', q') ∧ (Layer.exact ls).run (new ls) xs = .ok (r, q) ∧
      ∀ h, ∃ p' p : Bool → ℝ, (∀ b, (∃ t', (rounded R ls).update q' b h 1 = .ok (p' b, t')) ∧ (∃ t, (Layer.exact ls).update q b h 1 = .ok (p b, t)) ∧
          |p' b - p b| ≤ 2 * T * (cost H ls * (ε * (10 * T * Real.log (2 * T) + 4)))) ∧
        |Real.log (Real.exp (p' false) + Real.exp (p' true))| ≤ 2 * T * (cost H ls * (ε * (10 * T * Real.log (2 * T) + 4))) := by
  obtain ⟨Sim, hB, hi, -⟩ := tower_sim hR (by omega : 1 ≤ T) hTH ls hfit hε
  obtain ⟨I, hL, hI⟩ := tower_lawful ls hend
  obtain ⟨r', q', r, q, k1, k2, k3, -, -⟩ := hB.run xs hw 0 (by omega) _ _ hi
  rw [zero_add] at k3
  refine ⟨r', q', r, q, k1, k2, fun h => ?_⟩
  obtain ⟨r2, q2, k4, hIq⟩ := hL.run_ok hI (fun o ho => ⟨by cases o.sym <;> simp, by rw [hw o ho]; norm_num⟩ : ∀ o ∈ xs, o.sym ∈ [false, true] ∧ 0 ≤ o.weight)
  rw [k2] at k4
  simp only [Except.ok.injEq, Prod.mk.injEq] at k4
  obtain ⟨rfl, rfl⟩ := k4
  have hs := fun b : Bool => hB.near (o := ⟨b, h, 1⟩) hT k3 rfl
  choose p' t' p t g1 g2 g3 g4 g5 using hs
  refine ⟨p', p, fun b => ⟨⟨_, g1 b⟩, ⟨_, g2 b⟩, g4 b⟩, ?_⟩
  have hsum := hL.normalised q h 1 hIq (by norm_num) p (fun a _ => ⟨_, g2 a⟩)
  simp only [List.map_cons, List.map_nil, List.sum_cons, List.sum_nil, add_zero] at hsum
  generalize 2 * T * (cost H ls * (ε * (10 * T * Real.log (2 * T) + 4))) = δ at g4 ⊢
  have hb : ∀ b, Real.exp (p b) * Real.exp (-δ) ≤ Real.exp (p' b) ∧ Real.exp (p' b) ≤ Real.exp (p b) * Real.exp δ := by
    intro b
    obtain ⟨z1, z2⟩ := abs_le.1 (g4 b)
    rw [← Real.exp_add, ← Real.exp_add, Real.exp_le_exp, Real.exp_le_exp]
    constructor <;> linarith
  have hpos : 0 < Real.exp (p' false) + Real.exp (p' true) := by positivity
  rw [abs_le]
  constructor
  · rw [Real.le_log_iff_exp_le hpos]
    have h1 := (hb false).1
    have h2 := (hb true).1
    have : (Real.exp (p false) + Real.exp (p true)) * Real.exp (-δ) ≤ Real.exp (p' false) + Real.exp (p' true) := by
      rw [add_mul]
      linarith
    rwa [hsum, one_mul] at this
  · rw [Real.log_le_iff_le_exp hpos]
    have h1 := (hb false).2
    have h2 := (hb true).2
    have : Real.exp (p' false) + Real.exp (p' true) ≤ (Real.exp (p false) + Real.exp (p true)) * Real.exp δ := by
      rw [add_mul]
      linarith
    rwa [hsum, one_mul] at this

namespace Arith

theorem cost_pos (H : ℕ) (ls : List Layer) : 1 ≤ cost H ls := by
  cases ls with
  | nil => simp [cost]
  | cons l ls => cases l <;> simp only [cost] <;> omega

/-- Models near to a model with normalised probabilities keep a distance from 0 and 1. -/
theorem BaseSim.within {σ' σ : Type} {P' : Predictor σ' Bool} {P : Predictor σ Bool} {T : ℕ} {β : ℝ} {Sim : Rel σ' σ}
    (hB : BaseSim P' P (fun o => o.weight = 1) T β (Real.log (2 * T)) Sim) {I : σ → Prop} (hL : P.UpdateLawful I [false, true] (fun w => 0 ≤ w))
    (hT : 1 ≤ T) (hδ : 8 * T * (2 * T * β) ≤ 1) (msg : List Bool) :
    ∀ (k : ℕ) (s' : σ') (s : σ), k + msg.length ≤ T → Sim.sim k s' s → I s → Within P' (1 / (4 * T)) s' msg := by
  have h1 : (1 : ℝ) ≤ T := by exact_mod_cast hT
  induction msg with
  | nil => exact fun _ _ _ _ _ _ => trivial
  | cons b bs ih =>
    intro k s' s hk hs hI
    rw [List.length_cons] at hk
    have hst := fun c : Bool => hB.near (o := ⟨c, [], 1⟩) (by omega) hs rfl
    choose p' t' p t g1 g2 g3 g4 g5 using hst
    dsimp only at g1 g2
    have hsum := hL.normalised s [] 1 hI (by norm_num) p (fun a _ => ⟨_, g2 a⟩)
    simp only [List.map_cons, List.map_nil, List.sum_cons, List.sum_nil, add_zero] at hsum
    have hlow : ∀ c, 1 / (2 * T : ℝ) ≤ Real.exp (p c) := by
      intro c
      have hpos : (0 : ℝ) < 2 * T := by linarith
      rw [one_div, ← Real.exp_log hpos, ← Real.exp_neg]
      exact Real.exp_le_exp.2 (abs_le.1 (g5 c)).1
    have hup : Real.exp (p b) ≤ 1 - 1 / (2 * T) := by
      cases b with
      | true => linarith [hlow false]
      | false => linarith [hlow true]
    have g4b := abs_le.1 (g4 b)
    generalize hd : 2 * T * β = δ at hδ g4b
    have hδ0 : 0 ≤ δ := by linarith
    have hδ8 : δ ≤ 1 / 8 := by nlinarith
    have hδT : δ ≤ 1 / (8 * T) := by
      rw [le_div_iff₀ (by linarith)]
      linarith
    have hlow2 : Real.exp (p b) * (1 - δ) ≤ Real.exp (p' b) := by
      have e1 : Real.exp (p b + -δ) ≤ Real.exp (p' b) := Real.exp_le_exp.2 (by linarith)
      rw [Real.exp_add] at e1
      have e2 := Real.add_one_le_exp (-δ)
      have := mul_le_mul_of_nonneg_left e2 (Real.exp_pos (p b)).le
      linarith
    have hup2 : Real.exp (p' b) ≤ Real.exp (p b) + 2 * δ := by
      have e1 : Real.exp (p' b) ≤ Real.exp (p b + δ) := Real.exp_le_exp.2 (by linarith)
      rw [Real.exp_add] at e1
      have e2 : Real.exp δ ≤ 1 + 2 * δ := by
        have := Real.abs_exp_sub_one_le (x := δ) (by rw [abs_of_nonneg hδ0]; linarith)
        rw [abs_of_nonneg hδ0] at this
        linarith [le_abs_self (Real.exp δ - 1)]
      have e3 : Real.exp (p b) ≤ 1 := by
        have := (Real.exp_pos (p !b)).le
        cases b <;> simp only [Bool.not_true, Bool.not_false] at this <;> linarith
      have := mul_le_mul_of_nonneg_left e2 (Real.exp_pos (p b)).le
      nlinarith
    refine ⟨p' b, t' b, g1 b, ?_, ?_, ih (k + 1) (t' b) (t b) (by omega) (g3 b) ?_⟩
    · have : 1 / (2 * T : ℝ) * (1 - δ) ≤ Real.exp (p b) * (1 - δ) := mul_le_mul_of_nonneg_right (hlow b) (by linarith)
      have h4 : 1 / (4 * T : ℝ) = 1 / (2 * T) * (1 / 2) := by field_simp; norm_num
      have h5 : 1 / (2 * T : ℝ) * (1 / 2) ≤ 1 / (2 * T) * (1 - δ) := mul_le_mul_of_nonneg_left (by linarith) (by positivity)
      linarith
    · have h4 : 1 / (4 * T : ℝ) = 2 * (1 / (8 * T)) := by field_simp; norm_num
      have h5 : 1 / (2 * T : ℝ) = 4 * (1 / (8 * T)) := by field_simp; norm_num
      rw [h4]
      rw [h5] at hup
      linarith
    · obtain ⟨r2, q2, k4, hIq⟩ := hL.run_ok (xs := [⟨b, [], 1⟩]) hI (fun o ho => by
        simp only [List.mem_singleton] at ho
        subst ho
        exact ⟨by cases b <;> simp, by norm_num⟩)
      simp only [Predictor.run, g2 b, ok_bind, pure_eq_ok, Except.ok.injEq, Prod.mk.injEq] at k4
      rw [k4.2]
      exact hIq

end Arith

/-- **C113 (models over models).** Compress `n` bits with any tower of `CTW` and `PTW` over `KTBinary`, computing everything in rounded arithmetic.  If the precision
suffices for the length, then nothing raises, and the code is at most `2 + n` bits, and a bound of the rounding errors, longer than `-log2` of the
probability that the tower gives the message in exact arithmetic. -/
theorem C113_tower_code_length (hR : R.Accurate ε) (ls : List Layer) (H : ℕ) (msg : List Bool) (hT : 1 ≤ msg.length) (hTH : msg.length ≤ 2 ^ H)
    (hend : ∀ l ∈ ls, l.Endless) (hfit : ∀ l ∈ ls, l.Fits H msg.length)
    (hε : 16 * msg.length ^ 2 * (cost H ls * (ε * (10 * msg.length * Real.log (2 * msg.length) + 4))) ≤ 1) (N : ℕ) (hN : 1 ≤ N) (fuel : ℕ) (hf : N < fuel) :
    ∃ code r st, R.acCompress (rounded R ls) N fuel (new ls) msg = .ok code ∧
      (Layer.exact ls).run (new ls) (msg.map fun b => ⟨b, [], 1⟩) = .ok (r, st) ∧
      (code.length : ℝ) ≤ 2 + msg.length + -Real.logb 2 (Real.exp r) + cost H ls * ε * msg.length ^ 2 * (15 * Real.log (2 * msg.length) + 102) := by
  have e0 := hR.nonneg
  have hn : (1 : ℝ) ≤ msg.length := by exact_mod_cast hT
  have hρ := log_ge hT
  have hc : (1 : ℝ) ≤ cost H ls := by exact_mod_cast cost_pos H ls
  have hlen : (msg.map fun b => (⟨b, [], 1⟩ : Obs Bool)).length = msg.length := by simp
  have h100 : 100 * (cost H ls : ℝ) * ε * msg.length ≤ 1 := by
    refine le_trans ?_ hε
    have k1 : (100 : ℝ) ≤ 16 * (msg.length * (10 * msg.length * Real.log (2 * msg.length) + 4)) := by nlinarith
    have k2 : 0 ≤ (cost H ls : ℝ) * ε * msg.length := by positivity
    have k3 := mul_le_mul_of_nonneg_left k1 k2
    linarith
  obtain ⟨Sim, hB, hi, -⟩ := tower_sim hR hT hTH ls hfit h100
  obtain ⟨I, hL, hI⟩ := tower_lawful ls hend
  have hW := hB.within hL hT (by linarith) msg 0 _ _ (by omega) hi hI
  have hcε : ε ≤ cost H ls * ε := by nlinarith
  have hx : 64 * msg.length * ε ≤ 1 := by
    have := mul_le_mul_of_nonneg_left hcε (by positivity : (0 : ℝ) ≤ msg.length)
    have : 0 ≤ ε * msg.length := by positivity
    linarith
  obtain ⟨code, r', st', h1, h2, h3⟩ := C113_code_length hR (rounded R ls) N hN (1 / (4 * msg.length)) (by positivity)
    (by rw [le_div_iff₀ (by positivity)]; linarith) (new ls) msg hW fuel hf
  obtain ⟨r'', q', r, q, k1, k2, k3⟩ := C112_tower_sum hR ls H (msg.map fun b => ⟨b, [], 1⟩)
    (fun o ho => by obtain ⟨b, -, rfl⟩ := List.mem_map.1 ho; rfl) (by rwa [hlen]) (by rwa [hlen])
    (by rwa [hlen]) (by rwa [hlen])
  rw [h2] at k1
  simp only [Except.ok.injEq, Prod.mk.injEq] at k1
  obtain ⟨rfl, -⟩ := k1
  rw [hlen] at k3
  refine ⟨code, r, q, h1, k2, h3.trans ?_⟩
  have hl2 : 2 / 3 ≤ Real.log 2 := by linarith [Real.log_two_gt_d9]
  have hl0 : 0 < Real.log 2 := by linarith
  have hxx : 8 * ε / (1 / (4 * msg.length)) = 32 * msg.length * ε := by field_simp; ring
  rw [hxx]
  set x := 32 * msg.length * ε with hxd
  have hx0 : 0 ≤ x := by positivity
  have hx2 : x ≤ 1 / 2 := by linarith
  have a1 : Real.logb 2 (1 / (1 - x)) ≤ 3 * x := by
    rw [Real.logb, div_le_iff₀ hl0]
    have := Real.log_le_sub_one_of_pos (x := 1 / (1 - x)) (by apply one_div_pos.2; linarith)
    have e : 1 / (1 - x) - 1 ≤ 2 * x := by
      rw [tsub_le_iff_right, div_le_iff₀ (by linarith)]
      nlinarith
    nlinarith
  have a2 : -Real.logb 2 (Real.exp r') ≤ -Real.logb 2 (Real.exp r) + 3 / 2 * |r' - r| := by
    simp only [Real.logb, Real.log_exp]
    have : (r - r') / Real.log 2 ≤ 3 / 2 * |r' - r| := by
      rw [div_le_iff₀ hl0]
      have := neg_abs_le (r' - r)
      nlinarith [abs_nonneg (r' - r)]
    rw [sub_div] at this
    linarith
  have a3 := mul_le_mul_of_nonneg_left a1 (by positivity : (0 : ℝ) ≤ msg.length)
  have a4 : (msg.length : ℝ) * (3 * x) ≤ 96 * (cost H ls * ε * msg.length ^ 2) := by
    have := mul_le_mul_of_nonneg_right hcε (by positivity : (0 : ℝ) ≤ msg.length ^ 2)
    rw [hxd]
    linarith
  have a5 := mul_le_mul_of_nonneg_left k3 (by norm_num : (0 : ℝ) ≤ 3 / 2)
  linarith

/-- `CTW(8)` in double precision, as `CTW_KT` of `model.py` for `ac.py`, and a message of a thousand bits: the hypotheses hold, and the rounding errors cost less than a
hundred-thousandth of a bit. -/
example (msg : List Bool) (h : msg.length = 1000) :
    ∃ code r st, Double.arith.acCompress (rounded Double.arith [.ctw 8]) 32 33 (new [.ctw 8]) msg = .ok code ∧
      (Layer.exact [.ctw 8]).run (new [.ctw 8]) (msg.map fun b => ⟨b, [], 1⟩) = .ok (r, st) ∧
      (code.length : ℝ) ≤ 2 + 1000 + -Real.logb 2 (Real.exp r) + 1 / 100000 := by
  have hc : cost 10 [.ctw 8] = 92 := by decide
  have h1 : Real.log (2 * (1000 : ℕ)) ≤ Real.log (2 ^ 11) := Real.log_le_log (by norm_num) (by norm_num)
  rw [Real.log_pow] at h1
  have h2 := Real.log_two_lt_d9
  push_cast at h1
  have h3 : Real.log (2 * 1000) ≤ 8 := by linarith
  obtain ⟨code, r, st, k1, k2, k3⟩ := C113_tower_code_length C113_double.1 [.ctw 8] 10 msg (by omega) (by omega)
    (by simp [Layer.Endless]) (by simp [Layer.Fits]) (by
      rw [hc, h]
      push_cast
      generalize Real.log (2 * 1000) = x at h3
      norm_num
      linarith) 32 (by norm_num) 33 (by norm_num)
  refine ⟨code, r, st, k1, k2, k3.trans ?_⟩
  rw [hc, h]
  push_cast
  generalize Real.log (2 * 1000) = x at h3
  norm_num
  linarith

end Verif
