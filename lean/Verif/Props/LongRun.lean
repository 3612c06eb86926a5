import Mathlib.Analysis.SpecialFunctions.Log.Basic
import Mathlib.Analysis.SpecialFunctions.Pow.Asymptotics
import Verif.Props.Changing
import Verif.Props.Minimax

/-!
# C160: in the long run

What the models lose against the sources that they can learn is a vanishing part of every symbol, also if the source keeps changing.
-/

namespace Verif

open Predictor Redundancy Filter Topology

namespace LongRun

theorem one_le_log {n : ℕ} (hn : 3 ≤ n) : (1 : ℝ) ≤ Real.log n := by
  rw [Real.le_log_iff_exp_le (by positivity)]
  have : (3 : ℝ) ≤ n := by exact_mod_cast hn
  linarith [Real.exp_one_lt_d9]

theorem levels_le {m n : ℕ} (hn : 3 ≤ n) : (levelsFor m n : ℝ) ≤ 3 * Real.log n := by
  have h1 : levelsFor m n ≤ Nat.log 2 n + 1 := by
    refine Nat.find_min' _ ?_
    have h2 := Nat.lt_pow_succ_log_self (b := 2) (by norm_num) n
    exact h2.le.trans (Nat.pow_le_pow_right (by norm_num) (by omega))
  have h2 : (Nat.log 2 n : ℝ) * Real.log 2 ≤ Real.log n := by
    rw [← Real.log_pow]
    refine Real.log_le_log (by positivity) ?_
    exact_mod_cast Nat.pow_log_le_self 2 (by omega)
  have h3 : (levelsFor m n : ℝ) ≤ Nat.log 2 n + 1 := by exact_mod_cast h1
  have h4 : (1 : ℝ) ≤ Real.log n := one_le_log hn
  have h5 := Real.log_two_gt_d9
  nlinarith [Nat.cast_nonneg (α := ℝ) (Nat.log 2 n)]

/-- All prices together, for `n` symbols. -/
theorem bound {k c n : ℕ} {M a b : ℝ} (hn : 3 ≤ n) (hk : (k : ℝ) ≤ 3 * Real.log n) (hM : 1 ≤ M) (ha : 0 ≤ a) (hb : 0 ≤ b)
    (h : M ≤ Real.exp (a + b * Real.log n)) :
    (3 / 2 : ℝ) ^ k * 2 ^ (2 * (c * k) + 1) * M ^ (c * k + 1) ≤ Real.exp ((10 + 4 * (a + b)) * (((c : ℝ) + 1) * Real.log n ^ 2)) := by
  have hl := one_le_log hn
  have hexp : ∀ x : ℝ, 1 ≤ Real.exp x → 0 ≤ x := fun x hx => by simpa using hx
  have e1 : (3 / 2 : ℝ) ^ k ≤ Real.exp k := by
    rw [← Real.exp_one_pow]
    exact pow_le_pow_left₀ (by norm_num) (by linarith [Real.exp_one_gt_d9]) _
  have e2 : (2 : ℝ) ^ (2 * (c * k) + 1) ≤ Real.exp ((2 * (c * k) + 1 : ℕ) : ℝ) := by
    rw [← Real.exp_one_pow]
    exact pow_le_pow_left₀ (by norm_num) (by linarith [Real.exp_one_gt_d9]) _
  have e3 : M ^ (c * k + 1) ≤ Real.exp (((c * k + 1 : ℕ) : ℝ) * (a + b * Real.log n)) := by
    rw [Real.exp_nat_mul]
    exact pow_le_pow_left₀ (by linarith) h _
  calc _ ≤ Real.exp k * Real.exp ((2 * (c * k) + 1 : ℕ) : ℝ) * Real.exp (((c * k + 1 : ℕ) : ℝ) * (a + b * Real.log n)) := by gcongr
    _ = Real.exp (k + ((2 * (c * k) + 1 : ℕ) : ℝ) + ((c * k + 1 : ℕ) : ℝ) * (a + b * Real.log n)) := by rw [Real.exp_add, Real.exp_add]
    _ ≤ _ := by
      rw [Real.exp_le_exp]
      push_cast
      set l := Real.log n
      have hc : (0 : ℝ) ≤ c := Nat.cast_nonneg c
      have hk0 : (0 : ℝ) ≤ k := Nat.cast_nonneg k
      have hll : l ≤ l ^ 2 := by nlinarith
      have h1l : 1 ≤ l ^ 2 := hl.trans hll
      have i1 : (c : ℝ) * k ≤ 3 * (c * l) := by nlinarith
      have i2 : (c : ℝ) * l ≤ c * l ^ 2 := by gcongr
      have i3 : a + b * l ≤ (a + b) * l := by nlinarith
      have i4 : ((c : ℝ) * k + 1) * (a + b * l) ≤ (4 * ((c + 1) * l)) * ((a + b) * l) := by
        refine mul_le_mul ?_ i3 (by positivity) (by positivity)
        nlinarith
      nlinarith

/-- What one symbol costs vanishes. -/
theorem vanishes {c : ℕ → ℕ} (hc : Tendsto (fun n : ℕ => ((c n : ℝ) + 1) * Real.log n ^ 2 / n) atTop (𝓝 0)) (B : ℝ) (hB : 0 ≤ B)
    {ε : ℝ} (hε : 0 < ε) : ∃ N : ℕ, 3 ≤ N ∧ ∀ n, N ≤ n → B * (((c n : ℝ) + 1) * Real.log n ^ 2) ≤ ε * n := by
  have h1 : ∀ᶠ n : ℕ in atTop, ((c n : ℝ) + 1) * Real.log n ^ 2 / n < ε / (B + 1) :=
    hc.eventually (gt_mem_nhds (by positivity))
  obtain ⟨N, hN⟩ := eventually_atTop.mp h1
  refine ⟨max N 3, le_max_right _ _, fun n hn => ?_⟩
  have hn3 : 3 ≤ n := (le_max_right _ _).trans hn
  have hpos : (0 : ℝ) < n := by exact_mod_cast (show 0 < n by omega)
  have h2 := hN n ((le_max_left _ _).trans hn)
  rw [div_lt_div_iff₀ hpos (by positivity)] at h2
  have h3 : 0 ≤ ((c n : ℝ) + 1) * Real.log n ^ 2 := by positivity
  nlinarith

theorem poly_le {a : ℝ} {b n : ℕ} (ha : 0 < a) (hn : 3 ≤ n) : a * (n : ℝ) ^ b ≤ Real.exp (|Real.log a| + b * Real.log n) := by
  have hpos : (0 : ℝ) < n := by exact_mod_cast (show 0 < n by omega)
  rw [Real.exp_add, Real.exp_nat_mul, Real.exp_log hpos]
  refine mul_le_mul_of_nonneg_right ?_ (by positivity)
  calc a = Real.exp (Real.log a) := (Real.exp_log ha).symm
    _ ≤ _ := Real.exp_le_exp.mpr (le_abs_self _)

theorem catPrice_le (k : ℕ) {n : ℕ} (hn : 1 ≤ n) : catPrice k n ≤ (Real.exp 1 * ((k : ℝ) / 2) ^ k + 1) * (n : ℝ) ^ k := by
  have hn1 : (1 : ℝ) ≤ n := by exact_mod_cast hn
  have h1 : (1 : ℝ) ≤ (n : ℝ) ^ k := one_le_pow₀ hn1
  have h2 : Real.sqrt n ≤ n := by
    rw [Real.sqrt_le_left (by linarith)]
    nlinarith
  have h3 : Real.sqrt n ^ (k - 1) ≤ (n : ℝ) ^ k :=
    (pow_le_pow_left₀ (Real.sqrt_nonneg _) h2 _).trans (pow_le_pow_right₀ hn1 (by omega))
  have h4 : 0 ≤ Real.exp 1 * ((k : ℝ) / 2) ^ k := by positivity
  refine max_le ?_ ?_
  · nlinarith
  · nlinarith [mul_le_mul_of_nonneg_left h3 h4]

theorem storeSize_le {m n : ℕ} (hn : 3 ≤ n) : (storeSize m n : ℝ) ≤ (n : ℝ) ^ 2 := by
  have h1 : storeSize m n ≤ n + 1 := by
    unfold storeSize
    have h2 := Nat.log_lt_self 2 (Nat.succ_ne_zero (n / 2 ^ m))
    rw [Nat.succ_eq_add_one] at h2
    have h3 := Nat.div_le_self n (2 ^ m)
    omega
  have h2 : (storeSize m n : ℝ) ≤ n + 1 := by exact_mod_cast h1
  have h3 : (3 : ℝ) ≤ n := by exact_mod_cast hn
  nlinarith

theorem few {c : ℕ → ℕ} {δ : ℝ} (hδ : 0 < δ) (hδ1 : δ ≤ 1) (hc : ∀ᶠ n : ℕ in atTop, (c n : ℝ) ≤ (n : ℝ) ^ (1 - δ)) :
    Tendsto (fun n : ℕ => ((c n : ℝ) + 1) * Real.log n ^ 2 / n) atTop (𝓝 0) := by
  have h1 : Tendsto (fun x : ℝ => Real.log x ^ (2 : ℝ) / x ^ δ) atTop (𝓝 0) :=
    (isLittleO_log_rpow_rpow_atTop 2 hδ).tendsto_div_nhds_zero
  have h2 : Tendsto (fun n : ℕ => 2 * (Real.log n ^ (2 : ℝ) / (n : ℝ) ^ δ)) atTop (𝓝 0) := by
    simpa using (h1.comp tendsto_natCast_atTop_atTop).const_mul 2
  refine tendsto_of_tendsto_of_tendsto_of_le_of_le' tendsto_const_nhds h2 (Eventually.of_forall fun n => by positivity) ?_
  filter_upwards [eventually_ge_atTop 1, hc] with n hn hcn
  have hpos : (0 : ℝ) < n := by exact_mod_cast hn
  have hn1 : (1 : ℝ) ≤ n := by exact_mod_cast hn
  have h3 : (1 : ℝ) ≤ (n : ℝ) ^ (1 - δ) := Real.one_le_rpow hn1 (by linarith)
  have h4 : (n : ℝ) ^ (1 - δ) * (n : ℝ) ^ δ = n := by
    rw [← Real.rpow_add hpos]
    simp
  have h5 : (0 : ℝ) < (n : ℝ) ^ δ := Real.rpow_pos_of_pos hpos _
  rw [Real.rpow_two, ← mul_div_assoc, div_le_div_iff₀ hpos h5]
  calc ((c n : ℝ) + 1) * Real.log n ^ 2 * (n : ℝ) ^ δ ≤ (2 * (n : ℝ) ^ (1 - δ)) * Real.log n ^ 2 * (n : ℝ) ^ δ := by
        gcongr
        linarith
    _ = 2 * Real.log n ^ 2 * ((n : ℝ) ^ (1 - δ) * (n : ℝ) ^ δ) := by ring
    _ = _ := by rw [h4]

theorem none : Tendsto (fun n : ℕ => (((fun _ => 0 : ℕ → ℕ) n : ℝ) + 1) * Real.log n ^ 2 / n) atTop (𝓝 0) :=
  few (δ := 1) one_pos le_rfl (Eventually.of_forall (by simp))

end LongRun

/-- **C160 (few changes).** The condition on the number of changes is met if there are at most `n ^ (1 - δ)` of them in the first `n`
symbols, for some `δ`, from some length on; so it is met for any fixed number of changes. -/
theorem C160_few (c : ℕ → ℕ) (δ : ℝ) (hδ : 0 < δ) (hδ1 : δ ≤ 1) (hc : ∀ᶠ n : ℕ in atTop, (c n : ℝ) ≤ (n : ℝ) ^ (1 - δ)) :
    Tendsto (fun n : ℕ => ((c n : ℝ) + 1) * Real.log n ^ 2 / n) atTop (𝓝 0) := LongRun.few hδ hδ1 hc

/-- The square root of the length is few. -/
example : Tendsto (fun n : ℕ => ((Nat.sqrt n : ℝ) + 1) * Real.log n ^ 2 / n) atTop (𝓝 0) := by
  refine C160_few Nat.sqrt (1 / 2) (by norm_num) (by norm_num) (Eventually.of_forall fun n => ?_)
  rw [show (1 : ℝ) - 1 / 2 = 1 / 2 by norm_num, ← Real.sqrt_eq_rpow]
  exact Real.le_sqrt_of_sq_le (by exact_mod_cast Nat.sqrt_le' n)

section General

variable {γ α σ : Type} [DecidableEq γ] (P : Predictor σ α) (fresh : σ) (q : γ → Obs α → ℝ) (A : List α) (price : ℕ → ℝ)

/-- **C160 (PTW).** If a new base model loses on `n` symbols at most a polynomial factor against each source of a class, and the source
changes `c n` times, where `c n (log n)²` is small against `n`, then in the long run `PTW` over it loses nothing per symbol: for every `ε`
there is a length from which on, for every sequence, every way to change and every choice of sources, it loses at most `ε` per symbol. -/
theorem C160_PTW (hcomp : ∀ xs : List (Obs α), (∀ o ∈ xs, o.sym ∈ A ∧ o.weight = 1) → P.Competes fresh q (price xs.length) xs)
    (hq : ∀ g o, o.sym ∈ A → 0 ≤ q g o) (h1 : ∀ n, 1 ≤ price n) (a : ℝ) (b : ℕ) (ha : 0 < a) (hp : ∀ n, 1 ≤ n → price n ≤ a * (n : ℝ) ^ b) (m : ℕ) (c : ℕ → ℕ)
    (hc : Tendsto (fun n : ℕ => ((c n : ℝ) + 1) * Real.log n ^ 2 / n) atTop (𝓝 0)) (ε : ℝ) (hε : 0 < ε) :
    ∃ N : ℕ, ∀ xs : List (Obs α), N ≤ xs.length → (∀ o ∈ xs, o.sym ∈ A ∧ o.weight = 1) → ∀ θ : ℕ → γ,
      (changeTimes θ 0 xs.length).card ≤ c xs.length → (∀ i ∈ changeTimes θ 0 xs.length, 2 ^ m ∣ i) → ∀ (r : ℝ) (s : PTW σ),
      (PTW.predictor P fresh m).run (PTW.init fresh m) xs = .ok (r, s) →
      changingProb q θ 0 xs ≤ Real.exp (ε * xs.length) * Real.exp r := by
  obtain ⟨N, hN3, hN⟩ := LongRun.vanishes hc (10 + 4 * (|Real.log a| + b)) (by positivity) hε
  refine ⟨N, fun xs hn hx θ hcard hal r s hr => ?_⟩
  have hn3 : 3 ≤ xs.length := hN3.trans hn
  have h2 := C158_PTW P fresh q (price xs.length) xs θ (h1 _) (hcomp xs hx) (fun g o ho => hq g o (hx o ho).1) m hal r s hr
  refine h2.trans (mul_le_mul_of_nonneg_right ?_ (Real.exp_pos r).le)
  refine (LongRun.bound hn3 (LongRun.levels_le hn3) (h1 _) (abs_nonneg (Real.log a)) (Nat.cast_nonneg b)
    ((hp _ (by omega)).trans (LongRun.poly_le ha hn3))).trans ?_
  rw [Real.exp_le_exp]
  refine le_trans ?_ (hN _ hn)
  gcongr

/-- **C160 (FMN).** The same for forget-me-not over any base model that can be copied. -/
theorem C160_FMN (I : σ → Prop) (W : ℝ → Prop) (hP : P.UpdateLawful I A W) (hW : W 1) (hC : P.Copyable I) (hf : I fresh)
    (hcomp : ∀ xs : List (Obs α), (∀ o ∈ xs, o.sym ∈ A ∧ o.weight = 1) → P.Competes fresh q (price xs.length) xs)
    (hq : ∀ g o, o.sym ∈ A → 0 ≤ q g o) (h1 : ∀ n, 1 ≤ price n) (a : ℝ) (b : ℕ) (ha : 0 < a) (hp : ∀ n, 1 ≤ n → price n ≤ a * (n : ℝ) ^ b) (m : ℕ)
    (c : ℕ → ℕ) (hc : Tendsto (fun n : ℕ => ((c n : ℝ) + 1) * Real.log n ^ 2 / n) atTop (𝓝 0)) (ε : ℝ) (hε : 0 < ε) :
    ∃ N : ℕ, ∀ xs : List (Obs α), N ≤ xs.length → (∀ o ∈ xs, o.sym ∈ A ∧ o.weight = 1) → ∀ θ : ℕ → γ,
      (changeTimes θ 0 xs.length).card ≤ c xs.length → (∀ i ∈ changeTimes θ 0 xs.length, 2 ^ m ∣ i) →
      ∀ (s0 s : FMN (LogStore σ) σ) (r : ℝ), FMN.init (LogStore.store σ) P fresh m = .ok s0 →
      (FMN.predictor (LogStore.store σ) P m).run s0 xs = .ok (r, s) →
      changingProb q θ 0 xs ≤ Real.exp (ε * xs.length) * Real.exp r := by
  obtain ⟨N, hN3, hN⟩ := LongRun.vanishes hc (10 + 4 * (|Real.log a| + (b + 2 : ℕ))) (by positivity) hε
  refine ⟨N, fun xs hn hx θ hcard hal s0 s r h0 hr => ?_⟩
  have hn3 : 3 ≤ xs.length := hN3.trans hn
  have h2 := C158_FMN P fresh q (price xs.length) xs θ I A W hP hC hf
    (fun o ho => ⟨(hx o ho).1, by rw [(hx o ho).2]; exact hW⟩) (h1 _) (hcomp xs hx) (fun g o ho => hq g o (hx o ho).1) m hal s0 s r h0 hr
  refine h2.trans (mul_le_mul_of_nonneg_right ?_ (Real.exp_pos r).le)
  have hs1 : (1 : ℝ) ≤ storeSize m xs.length := by exact_mod_cast storeSize_pos m xs.length
  have hm : storeSize m xs.length * price xs.length ≤ a * (xs.length : ℝ) ^ (b + 2) := by
    calc storeSize m xs.length * price xs.length ≤ (xs.length : ℝ) ^ 2 * (a * (xs.length : ℝ) ^ b) :=
          mul_le_mul (LongRun.storeSize_le hn3) (hp _ (by omega)) (zero_le_one.trans (h1 _)) (by positivity)
      _ = _ := by ring
  refine (LongRun.bound hn3 (LongRun.levels_le hn3) (one_le_mul_of_one_le_of_one_le hs1 (h1 _)) (abs_nonneg (Real.log a))
    (Nat.cast_nonneg (b + 2)) (hm.trans (LongRun.poly_le ha hn3))).trans ?_
  rw [Real.exp_le_exp]
  refine le_trans ?_ (hN _ hn)
  gcongr

end General

/-- **C160 (KT).** For every `ε` there is a length from which on a new `KT` loses at most `ε` per symbol against every distribution, on every
sequence. -/
theorem C160_KT {α : Type} [DecidableEq α] (A : List α) (hA : A.Nodup) (hk : 2 ≤ A.length) (ε : ℝ) (hε : 0 < ε) :
    ∃ N : ℕ, ∀ xs : List (Obs α), N ≤ xs.length → (∀ o ∈ xs, o.sym ∈ A ∧ o.weight = 1) → ∀ q : α → ℝ, IsDist A q →
      ∃ s0 r s, KT.init A none = .ok s0 ∧ KT.predictor.run s0 xs = .ok (r, s) ∧
        catProb q xs ≤ Real.exp (ε * xs.length) * Real.exp r := by
  set a := Real.exp 1 * ((A.length : ℝ) / 2) ^ A.length + 1 with ha
  have hapos : 0 < a := by positivity
  obtain ⟨N, hN3, hN⟩ := LongRun.vanishes LongRun.none (10 + 4 * (|Real.log a| + A.length)) (by positivity) hε
  refine ⟨N, fun xs hn hx q hq => ?_⟩
  have hn3 : 3 ≤ xs.length := hN3.trans hn
  have hne : xs ≠ [] := by
    rintro rfl
    simp at hn3
  obtain ⟨s0, r, s, h0, hr, h⟩ := C93_KT_redundancy A hA hk xs hx hne q hq
  refine ⟨s0, r, s, h0, hr, h.trans (mul_le_mul_of_nonneg_right ?_ (Real.exp_pos r).le)⟩
  have h1 := LongRun.bound (k := 0) (c := 0) (M := catPrice A.length xs.length) hn3 (by simp; linarith [LongRun.one_le_log hn3])
    (Categorical.one_le_catPrice _ _) (abs_nonneg (Real.log a)) (Nat.cast_nonneg A.length)
    ((LongRun.catPrice_le _ (by omega)).trans (LongRun.poly_le hapos hn3))
  have h2 : Real.exp 1 * ((A.length : ℝ) / 2) ^ A.length * Real.sqrt xs.length ^ (A.length - 1) ≤ catPrice A.length xs.length := le_max_right _ _
  have h3 := Categorical.one_le_catPrice A.length xs.length
  refine h2.trans (le_trans ?_ (h1.trans (Real.exp_le_exp.mpr (hN _ hn))))
  simp only [pow_zero, Nat.zero_mul, mul_zero, zero_add, pow_one, one_mul]
  linarith

section Trees

variable {γ α κ : Type} [DecidableEq α]

namespace LongRun

theorem tree_le {k K L n : ℕ} (hn : 1 ≤ n) :
    (2 : ℝ) ^ K * catPrice k n ^ L ≤ 2 ^ K * (Real.exp 1 * ((k : ℝ) / 2) ^ k + 1) ^ L * (n : ℝ) ^ (k * L) := by
  calc (2 : ℝ) ^ K * catPrice k n ^ L ≤ 2 ^ K * ((Real.exp 1 * ((k : ℝ) / 2) ^ k + 1) * (n : ℝ) ^ k) ^ L := by
        gcongr
        · exact zero_le_one.trans (Categorical.one_le_catPrice _ _)
        · exact catPrice_le k hn
    _ = _ := by rw [mul_pow, ← pow_mul]; ring

end LongRun

/-- **C160 (CTW).** For every `ε`, and every size of trees, there is a length from which on a new `CTW` over `KT` loses at most `ε` per
symbol against every tree source of this size, on every sequence. -/
theorem C160_CTW [Fintype κ] [DecidableEq κ] (A : List α) (hA : A.Nodup) (hne : A ≠ []) (f : KT α) (hf : KT.init A none = .ok f) (d : ℕ)
    (ctx : List α → List κ) (hc : ∀ h, (ctx h).length = d) (K L : ℕ) (ε : ℝ) (hε : 0 < ε) :
    ∃ N : ℕ, ∀ xs : List (Obs α), N ≤ xs.length → (∀ o ∈ xs, o.sym ∈ A ∧ o.weight = 1) → ∀ T : CatTree α κ d, T.Valid A →
      T.shape.cost ≤ K → T.leaves ≤ L →
      ∃ r n, (CTW.predictor KT.predictor f ctx).run (CTW.init f) xs = .ok (r, n) ∧
        (xs.map fun o => T.look (ctx o.hist).reverse o.sym).prod ≤ Real.exp (ε * xs.length) * Real.exp r := by
  set a : ℝ := 2 ^ K * (Real.exp 1 * ((A.length : ℝ) / 2) ^ A.length + 1) ^ L with ha
  have hapos : 0 < a := by positivity
  obtain ⟨N, hN3, hN⟩ := LongRun.vanishes LongRun.none (10 + 4 * (|Real.log a| + (A.length * L : ℕ))) (by positivity) hε
  refine ⟨N, fun xs hn hx T hT hK hL => ?_⟩
  have hn3 : 3 ≤ xs.length := hN3.trans hn
  have hgood : KT.Good A f := by
    rw [KT.init_default hA hne] at hf
    cases hf
    exact KT.good_default hne
  obtain ⟨r, n, hr, -⟩ := (CTWNode.updateLawful (fresh := f) (KT.lawful hA hne) hc).run_ok (xs := xs) (CTWNode.WF.new hgood d)
    (fun o ho => ⟨(hx o ho).1, by rw [(hx o ho).2]; exact zero_le_one⟩)
  refine ⟨r, n, hr, ?_⟩
  have h := C158_CTW_competes (γ := Unit) A hA hne f hf d ctx hc (fun _ => T) (fun _ => hT) K L (fun _ => hK) (fun _ => hL) xs hx ()
    xs (List.infix_refl _)
  rw [show (CTW.predictor KT.predictor f ctx).seqProb (CTW.init f) xs = Real.exp r from seqProb_of_run hr] at h
  refine h.trans (mul_le_mul_of_nonneg_right ?_ (Real.exp_pos r).le)
  have hcat := Categorical.one_le_catPrice A.length xs.length
  have hM : (1 : ℝ) ≤ 2 ^ K * catPrice A.length xs.length ^ L :=
    one_le_mul_of_one_le_of_one_le (one_le_pow₀ (by norm_num)) (one_le_pow₀ hcat)
  have h1 := LongRun.bound (k := 0) (c := 0) hn3 (by simp; linarith [LongRun.one_le_log hn3]) hM (abs_nonneg (Real.log a))
    (Nat.cast_nonneg (A.length * L)) ((LongRun.tree_le (by omega)).trans (LongRun.poly_le hapos hn3))
  refine le_trans ?_ (h1.trans (Real.exp_le_exp.mpr (hN _ hn)))
  simp only [pow_zero, Nat.zero_mul, mul_zero, zero_add, pow_one, one_mul]
  linarith

/-- **C160 (PTW over CTW).** Tree sources that take turns: the length depends on their size only, not on the sources, not on the sequence
and not on when they change. -/
theorem C160_PTW_CTW [DecidableEq γ] [Fintype κ] [DecidableEq κ] (A : List α) (hA : A.Nodup) (hne : A ≠ []) (f : KT α)
    (hf : KT.init A none = .ok f) (d : ℕ) (ctx : List α → List κ) (hc : ∀ h, (ctx h).length = d) (K L m : ℕ) (c : ℕ → ℕ)
    (hcc : Tendsto (fun n : ℕ => ((c n : ℝ) + 1) * Real.log n ^ 2 / n) atTop (𝓝 0)) (ε : ℝ) (hε : 0 < ε) :
    ∃ N : ℕ, ∀ xs : List (Obs α), N ≤ xs.length → (∀ o ∈ xs, o.sym ∈ A ∧ o.weight = 1) → ∀ src : γ → CatTree α κ d,
      (∀ g, (src g).Valid A ∧ (src g).shape.cost ≤ K ∧ (src g).leaves ≤ L) → ∀ θ : ℕ → γ,
      (changeTimes θ 0 xs.length).card ≤ c xs.length → (∀ i ∈ changeTimes θ 0 xs.length, 2 ^ m ∣ i) →
      ∃ r s, (PTW.predictor (CTW.predictor KT.predictor f ctx) (CTW.init f) m).run (PTW.init (CTW.init f) m) xs = .ok (r, s) ∧
        changingTrees ctx src θ xs ≤ Real.exp (ε * xs.length) * Real.exp r := by
  set a : ℝ := 2 ^ K * (Real.exp 1 * ((A.length : ℝ) / 2) ^ A.length + 1) ^ L with ha
  have hapos : 0 < a := by positivity
  obtain ⟨N, hN3, hN⟩ := LongRun.vanishes hcc (10 + 4 * (|Real.log a| + (A.length * L : ℕ))) (by positivity) hε
  refine ⟨N, fun xs hn hx src hsrc θ hcard hal => ?_⟩
  have hn3 : 3 ≤ xs.length := hN3.trans hn
  obtain ⟨r, s, hr, h⟩ := C158_PTW_CTW A hA hne f hf d ctx hc src (fun g => (hsrc g).1) K L (fun g => (hsrc g).2.1) (fun g => (hsrc g).2.2)
    xs hx m θ hal
  refine ⟨r, s, hr, h.trans (mul_le_mul_of_nonneg_right ?_ (Real.exp_pos r).le)⟩
  have hcat := Categorical.one_le_catPrice A.length xs.length
  refine (LongRun.bound hn3 (LongRun.levels_le hn3) (one_le_mul_of_one_le_of_one_le (one_le_pow₀ (by norm_num)) (one_le_pow₀ hcat))
    (abs_nonneg (Real.log a)) (Nat.cast_nonneg (A.length * L)) ((LongRun.tree_le (by omega)).trans (LongRun.poly_le hapos hn3))).trans ?_
  rw [Real.exp_le_exp]
  refine le_trans ?_ (hN _ hn)
  gcongr

/-- **C160 (FMN over CTW).** The same for a forget-me-not model over context trees with bits as contexts. -/
theorem C160_FMN_CTW [DecidableEq γ] (A : List α) (hA : A.Nodup) (hne : A ≠ []) (f : KT α)
    (hf : KT.init A none = .ok f) (d : ℕ) (ctx : List α → List Bool) (hc : ∀ h, (ctx h).length = d) (K L m : ℕ) (c : ℕ → ℕ)
    (hcc : Tendsto (fun n : ℕ => ((c n : ℝ) + 1) * Real.log n ^ 2 / n) atTop (𝓝 0)) (ε : ℝ) (hε : 0 < ε) :
    ∃ N : ℕ, ∀ xs : List (Obs α), N ≤ xs.length → (∀ o ∈ xs, o.sym ∈ A ∧ o.weight = 1) → ∀ src : γ → CatTree α Bool d,
      (∀ g, (src g).Valid A ∧ (src g).shape.cost ≤ K ∧ (src g).leaves ≤ L) → ∀ θ : ℕ → γ,
      (changeTimes θ 0 xs.length).card ≤ c xs.length → (∀ i ∈ changeTimes θ 0 xs.length, 2 ^ m ∣ i) →
      ∃ s0 r s, FMN.init (LogStore.store _) (CTW.predictor KT.predictor f ctx) (CTW.init f) m = .ok s0 ∧
        (FMN.predictor (LogStore.store _) (CTW.predictor KT.predictor f ctx) m).run s0 xs = .ok (r, s) ∧
        changingTrees ctx src θ xs ≤ Real.exp (ε * xs.length) * Real.exp r := by
  set a : ℝ := 2 ^ K * (Real.exp 1 * ((A.length : ℝ) / 2) ^ A.length + 1) ^ L with ha
  have hapos : 0 < a := by positivity
  obtain ⟨N, hN3, hN⟩ := LongRun.vanishes hcc (10 + 4 * (|Real.log a| + (A.length * L + 2 : ℕ))) (by positivity) hε
  refine ⟨N, fun xs hn hx src hsrc θ hcard hal => ?_⟩
  have hn3 : 3 ≤ xs.length := hN3.trans hn
  obtain ⟨s0, r, s, h0, hr, h⟩ := C158_FMN_CTW A hA hne f hf d ctx hc src (fun g => (hsrc g).1) K L (fun g => (hsrc g).2.1)
    (fun g => (hsrc g).2.2) xs hx m θ hal
  refine ⟨s0, r, s, h0, hr, h.trans (mul_le_mul_of_nonneg_right ?_ (Real.exp_pos r).le)⟩
  have hcat := Categorical.one_le_catPrice A.length xs.length
  have hs1 : (1 : ℝ) ≤ storeSize m xs.length := by exact_mod_cast storeSize_pos m xs.length
  have hM : (1 : ℝ) ≤ 2 ^ K * catPrice A.length xs.length ^ L :=
    one_le_mul_of_one_le_of_one_le (one_le_pow₀ (by norm_num)) (one_le_pow₀ hcat)
  have hm : storeSize m xs.length * (2 ^ K * catPrice A.length xs.length ^ L) ≤ a * (xs.length : ℝ) ^ (A.length * L + 2) := by
    calc _ ≤ (xs.length : ℝ) ^ 2 * (a * (xs.length : ℝ) ^ (A.length * L)) :=
          mul_le_mul (LongRun.storeSize_le hn3) (LongRun.tree_le (by omega)) (zero_le_one.trans hM) (by positivity)
      _ = _ := by ring
  refine (LongRun.bound hn3 (LongRun.levels_le hn3) (one_le_mul_of_one_le_of_one_le hs1 hM)
    (abs_nonneg (Real.log a)) (Nat.cast_nonneg (A.length * L + 2)) (hm.trans (LongRun.poly_le hapos hn3))).trans ?_
  rw [Real.exp_le_exp]
  refine le_trans ?_ (hN _ hn)
  gcongr

end Trees

/-- **C160 (the number of changes has to be limited).** If the source may change at every symbol, every model over bits loses one bit per
symbol: for every length there is a sequence, and sources that take turns in giving it probability one, to which the model gives at most
`2 ^ (-n)`. -/
theorem C160_needed {σ : Type} (P : Predictor σ Bool) (I : σ → Prop) (W : ℝ → Prop) (hP : P.UpdateLawful I [false, true] W) (hW : W 1)
    (s : σ) (hs : I s) (n : ℕ) :
    ∃ (xs : List Bool) (θ : ℕ → Bool), xs.length = n ∧ changingProb (fun (g : Bool) (o : Obs Bool) => if o.sym = g then 1 else 0) θ 0 (drawn [] xs) = 1 ∧
      P.seqProb s (drawn [] xs) ≤ (1 / 2) ^ n := by
  have h1 := Compose.words_sum hP hW n s [] hs
  have hlen : ∀ n, (words [false, true] n).length = 2 ^ n := by
    intro n
    induction n with
    | zero => simp [words]
    | succ n ih => simp [words, ih, pow_succ]; ring
  have h2 : ((words [false, true] n).map fun _ => (1 / 2 : ℝ) ^ n).sum = 1 := by
    rw [List.map_const', List.sum_replicate, hlen, nsmul_eq_mul]
    push_cast
    rw [← mul_pow]
    norm_num
  have hne : words [false, true] n ≠ [] := by
    intro e
    rw [e] at h1
    simp at h1
  obtain ⟨xs, hm, hx⟩ := Minimax.exists_le _ _ _ hne (h1.trans h2.symm).le
  refine ⟨xs, fun i => xs.getD i false, (Minimax.mem_words hm).1, ?_, hx⟩
  have key : ∀ (ys : List Bool) (h : List Bool) (t : ℕ) (θ : ℕ → Bool), (∀ i, i < ys.length → θ (t + i) = ys.getD i false) →
      changingProb (fun (g : Bool) (o : Obs Bool) => if o.sym = g then (1 : ℝ) else 0) θ t (drawn h ys) = 1 := by
    intro ys
    induction ys with
    | nil => intros; simp [drawn, changingProb]
    | cons y ys ih =>
      intro h t θ hθ
      rw [drawn, changingProb, ih _ _ _ (fun i hi => by
        have := hθ (i + 1) (by simpa using hi)
        rw [show t + 1 + i = t + (i + 1) by omega, this]
        simp)]
      have := hθ 0 (by simp)
      simp at this
      simp [this]
  exact key xs [] 0 _ (by simp)

end Verif
