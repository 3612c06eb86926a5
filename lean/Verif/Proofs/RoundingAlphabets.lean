import Verif.Model.RoundingAlphabets
import Verif.Proofs.RoundingTower
import Verif.Proofs.SAD

/-! Rounding errors of `KT` and `SAD`. -/

namespace Verif

namespace Arith

variable {R : Arith} {ε : ℝ} {α : Type} [DecidableEq α]

/-- The logarithm of a number that is known up to a factor, rounded. -/
theorem Near.log_round (hR : R.Accurate ε) {t y x : ℝ} (h : Near t y x) (ht : 0 ≤ t) :
    R.pyLog y = .ok (R.log y) ∧ |R.log y - Real.log x| ≤ ε * |Real.log x| + 17 / 16 * t := by
  have e0 := hR.nonneg
  have e1 := hR.small
  refine ⟨by rw [Arith.pyLog, if_pos h.pos], ?_⟩
  have h1 := hR.log _ h.pos
  have h2 := h.log
  generalize Real.log y = a at *
  generalize Real.log x = b at *
  have h3 : |a| ≤ |b| + t := by
    calc |a| = |(a - b) + b| := by ring_nf
      _ ≤ _ := abs_add_le _ _
      _ ≤ _ := by linarith
  calc |R.log y - b| = |(R.log y - a) + (a - b)| := by ring_nf
    _ ≤ _ := abs_add_le _ _
    _ ≤ ε * (|b| + t) + t := by
      have := mul_le_mul_of_nonneg_left h3 e0
      linarith
    _ ≤ _ := by nlinarith

/-- A rounded and an exact `KT` over `n` symbols after the same `m` updates of weight 1. -/
structure KatSim (A : List α) (ε : ℝ) (m : ℕ) (s' s : KT α) : Prop where
  get : ∀ a ∈ A, ∃ c' c, s'.counts.get? a = some c' ∧ s.counts.get? a = some c ∧ Near (2 * ε * (m + 1)) c' c ∧
    1 / (A.length : ℝ) ≤ c ∧ c ≤ s.sumCounts
  sum : Near (2 * ε * (m + A.length + 1)) s'.sumCounts s.sumCounts
  le : s.sumCounts ≤ 1 + m

theorem sum_near_of_const (hR : R.Accurate ε) {t v' v : ℝ} (hv : Near t v' v) (ht : 0 ≤ t) (k : ℕ) {x' x s : ℝ} (hx : Near s x' x) (hs : t ≤ s) :
    Near (s + 2 * ε * k) ((List.replicate k v').foldl R.add x') (x + k * v) := by
  have e0 := hR.nonneg
  induction k generalizing x' x s with
  | zero => simpa using hx
  | succ k ih =>
    rw [List.replicate_succ, List.foldl_cons]
    have h := (hx.add (hv.mono hs)).round hR (hR.add x' v')
    have := ih h (by linarith)
    push_cast
    rw [show s + 2 * ε * ((k : ℝ) + 1) = s + 2 * ε + 2 * ε * k by ring, show x + ((k : ℝ) + 1) * v = x + v + k * v by ring]
    exact this

/-- The initial states. -/
theorem KatSim.init (hR : R.Accurate ε) {A : List α} (hA : A.Nodup) (hne : A ≠ []) :
    ∃ s' s, R.katInit A = .ok s' ∧ KT.init A none = .ok s ∧ KatSim A ε 0 s' s := by
  have e0 := hR.nonneg
  have hl : 0 < A.length := List.length_pos_iff.2 hne
  have hn : (0 : ℝ) < A.length := by exact_mod_cast hl
  have hv : Near (2 * ε) (R.div 1 A.length) (1 / A.length) := by
    have := (Near.refl (by positivity : (0 : ℝ) < 1 / A.length)).round hR (hR.div 1 A.length hn.ne')
    simpa using this
  refine ⟨⟨A.map fun a => (a, R.div 1 A.length), (List.replicate A.length (R.div 1 A.length)).foldl R.add 0⟩, _, ?_, KT.init_default hA hne, ?_⟩
  · unfold katInit
    rw [KT.comprehension_ok (g := fun _ => R.div 1 (A.length : ℝ)) (fun a _ => by rw [Arith.pyDiv, if_neg hn.ne']) hA [] (by simp)]
    simp only [List.nil_append, ok_bind, pure_eq_ok, PyDict.values, List.map_map]
    have : (Prod.snd ∘ fun a : α => (a, R.div 1 (A.length : ℝ))) = fun _ => R.div 1 (A.length : ℝ) := rfl
    rw [this, List.map_const']
  · refine ⟨fun a ha => ⟨_, _, KT.get?_map _ ha, KT.get?_map _ ha, hv.mono (by simp), le_rfl, ?_⟩, ?_, by simp⟩
    · rw [div_le_one hn]
      exact_mod_cast hl
    · obtain ⟨k, hk⟩ := Nat.exists_eq_succ_of_ne_zero hl.ne'
      have h1 := hv.round hR (z := R.add 0 (R.div 1 A.length)) (by simpa using hR.add 0 (R.div 1 A.length))
      have h2 := sum_near_of_const hR hv (by linarith) k h1 (by linarith)
      have hx : (1 : ℝ) / A.length + k * (1 / A.length) = 1 := by
        have : (A.length : ℝ) = k + 1 := by rw [hk]; push_cast; ring
        field_simp
        linarith
      rw [hx] at h2
      have e : (List.replicate A.length (R.div 1 A.length)).foldl R.add 0 = (List.replicate k (R.div 1 A.length)).foldl R.add (R.add 0 (R.div 1 A.length)) := by
        conv_lhs => rw [show List.replicate A.length (R.div 1 (A.length : ℝ)) = List.replicate (k + 1) (R.div 1 (A.length : ℝ)) by rw [← Nat.succ_eq_add_one, ← hk]]
        rw [List.replicate_succ, List.foldl_cons]
      simp only
      rw [e]
      refine h2.mono (le_of_eq ?_)
      have : (A.length : ℝ) = k + 1 := by rw [hk]; push_cast; ring
      rw [this]
      push_cast
      ring

theorem KatSim.predict (hR : R.Accurate ε) {A : List α} {m : ℕ} {s' s : KT α} (h : KatSim A ε m s' s) {a : α} (ha : a ∈ A) :
    ∃ r' r, R.katLogPredict s' a = .ok r' ∧ s.logPredict a = .ok r ∧ |r' - r| ≤ ε * |r| + 3 * ε * (2 * m + A.length + 3) ∧
      |r| ≤ Real.log (A.length * (m + 1)) := by
  have e0 := hR.nonneg
  obtain ⟨c', c, g1, g2, g3, g4, g5⟩ := h.get a ha
  have hs := h.sum
  have hn : (0 : ℝ) < A.length := by exact_mod_cast List.length_pos_of_mem ha
  have hq := (g3.div hs).round hR (hR.div c' s'.sumCounts hs.pos.ne')
  obtain ⟨k1, k2⟩ := hq.log_round hR (by positivity)
  refine ⟨R.log (R.div c' s'.sumCounts), Real.log (c / s.sumCounts), ?_, ?_, le_trans k2 ?_, ?_⟩
  · rw [katLogPredict, PyDict.getE_ok.2 g1, ok_bind, Arith.pyDiv, if_neg hs.pos.ne', ok_bind, k1]
  · rw [KT.logPredict, PyDict.getE_ok.2 g2, ok_bind, pyDiv_of_ne hs.1.ne', ok_bind, pyLog_of_pos hq.1]
  · have : 0 ≤ ε * (2 * m + A.length + 3) := by positivity
    linarith
  · have hc : 0 < c := g3.1
    have hS := hs.1
    have hle : c / s.sumCounts ≤ 1 := (div_le_one hS).mpr g5
    have hpos : 0 < c / s.sumCounts := div_pos hc hS
    rw [abs_of_nonpos (Real.log_nonpos hpos.le hle), ← Real.log_inv, inv_div]
    apply Real.log_le_log (div_pos hS hc)
    rw [div_le_iff₀ hc]
    have h1 : 1 ≤ A.length * c := by
      rwa [div_le_iff₀ hn, mul_comm] at g4
    calc s.sumCounts ≤ 1 * (m + 1) := by linarith [h.le]
      _ ≤ A.length * c * (m + 1) := mul_le_mul_of_nonneg_right h1 (by positivity)
      _ = _ := by ring

theorem KatSim.step (hR : R.Accurate ε) {A : List α} {m : ℕ} {s' s : KT α} (h : KatSim A ε m s' s) {a : α} (ha : a ∈ A) :
    ∃ r' t' r t, R.katUpdate s' a 1 = .ok (r', t') ∧ s.update a 1 = .ok (r, t) ∧ KatSim A ε (m + 1) t' t ∧
      |r' - r| ≤ ε * |r| + 3 * ε * (2 * m + A.length + 3) ∧ |r| ≤ Real.log (A.length * (m + 1)) := by
  have e0 := hR.nonneg
  obtain ⟨r', r, k1, k2, k3, k4⟩ := h.predict hR ha
  obtain ⟨c', c, g1, g2, g3, g4, g5⟩ := h.get a ha
  refine ⟨r', ⟨s'.counts.set a (R.add c' 1), R.add s'.sumCounts 1⟩, r, ⟨s.counts.set a (c + 1), s.sumCounts + 1⟩, ?_, ?_, ?_, k3, k4⟩
  · rw [katUpdate, k1, ok_bind, PyDict.getE_ok.2 g1, ok_bind, pure_eq_ok]
  · rw [KT.update, k2, ok_bind, PyDict.getE_ok.2 g2, ok_bind, pure_eq_ok]
  · have hm : (0 : ℝ) ≤ m := Nat.cast_nonneg m
    have one : ∀ t : ℝ, 0 ≤ t → Near t 1 1 := fun t ht => (Near.refl one_pos).mono ht
    refine ⟨fun b hb => ?_, ?_, ?_⟩
    · by_cases hab : b = a
      · subst hab
        refine ⟨_, _, PyDict.get?_set_self .., PyDict.get?_set_self .., ?_, by linarith, by simp only; linarith⟩
        refine ((g3.add (one _ (by positivity))).round hR (hR.add c' 1)).mono (le_of_eq ?_)
        push_cast
        ring
      · obtain ⟨d', d, b1, b2, b3, b4, b5⟩ := h.get b hb
        refine ⟨d', d, ?_, ?_, b3.mono ?_, b4, by simp only; linarith⟩
        · exact (PyDict.get?_set_other _ _ hab).trans b1
        · exact (PyDict.get?_set_other _ _ hab).trans b2
        · push_cast
          nlinarith
    · refine ((h.sum.add (one _ (by positivity))).round hR (hR.add s'.sumCounts 1)).mono (le_of_eq ?_)
      push_cast
      ring
    · have := h.le
      push_cast
      linarith

/-- The states of `KT` keep no error of the sum. -/
def katRel (A : List α) (ε : ℝ) : Rel (KT α) (KT α) := ⟨KatSim A ε, fun _ _ => 0, 0⟩

theorem katBase (hR : R.Accurate ε) (A : List α) (T : ℕ) :
    BaseSim (R.katPredictor) (KT.predictor (α := α)) (fun o => o.sym ∈ A ∧ o.weight = 1) T
      (ε * (Real.log (A.length * (T + 1)) + 3 * (2 * T + A.length + 1))) (Real.log (A.length * (T + 1))) (katRel A ε) := by
  have e0 := hR.nonneg
  refine ⟨fun m s' s o hm hs ho => ?_, fun m s' s _ => by simp [katRel]⟩
  obtain ⟨ha, hw⟩ := ho
  obtain ⟨r', t', r, t, k1, k2, k3, k4, k5⟩ := KatSim.step hR hs ha
  have hn : (0 : ℝ) < A.length := by exact_mod_cast List.length_pos_of_mem ha
  have hmT : (m : ℝ) + 1 ≤ T := by exact_mod_cast hm
  have hρ : |r| ≤ Real.log (A.length * (T + 1)) := by
    refine le_trans k5 (Real.log_le_log (by positivity) ?_)
    exact mul_le_mul_of_nonneg_left (by linarith) hn.le
  refine ⟨r', t', r, t, by rw [hw]; exact k1, by rw [hw]; exact k2, k3, ?_, hρ⟩
  simp only [katRel, sub_zero]
  refine le_trans k4 ?_
  have h1 := mul_le_mul_of_nonneg_left hρ e0
  have h2 : ε * (3 * (2 * m + A.length + 3)) ≤ ε * (3 * (2 * T + A.length + 1)) := mul_le_mul_of_nonneg_left (by linarith) e0
  linarith

/-! ### SAD -/

theorem Near.nonneg_add {t y x c : ℝ} (h : Near t y x) (ht : 0 ≤ t) (hc : 0 ≤ c) : Near t (c + y) (c + x) := by
  obtain ⟨h1, h2, h3⟩ := h
  refine ⟨by linarith, ?_, ?_⟩
  · have : c * Real.exp (-t) ≤ c := mul_le_of_le_one_right hc (Real.exp_le_one_iff.2 (by linarith))
    rw [add_mul]
    linarith
  · have : c ≤ c * Real.exp t := le_mul_of_one_le_right hc (Real.one_le_exp ht)
    rw [add_mul]
    linarith

theorem Near.const_mul {t y x c : ℝ} (h : Near t y x) (hc : 0 < c) : Near t (c * y) (c * x) := by
  obtain ⟨h1, h2, h3⟩ := h
  refine ⟨mul_pos hc h1, ?_, ?_⟩
  · rw [mul_assoc]
    exact mul_le_mul_of_nonneg_left h2 hc.le
  · rw [mul_assoc]
    exact mul_le_mul_of_nonneg_left h3 hc.le

theorem near_of_abs {η y x : ℝ} (h0 : 0 ≤ η) (h1 : η ≤ 1 / 16) (hx : 0 < x) (h : |y - x| ≤ η * x) : Near (2 * η) y x := by
  have e1 := exp_neg_two_le h0 h1
  have e2 := le_exp_two h0
  rw [abs_le] at h
  refine ⟨hx, ?_, ?_⟩
  · have := mul_le_mul_of_nonneg_left e1 hx.le
    linarith
  · have := mul_le_mul_of_nonneg_left e2 hx.le
    linarith

/-- Small natural numbers are added exactly. -/
def Counts (R : Arith) (B : ℕ) : Prop := ∀ a b : ℕ, a + b ≤ B → R.add a b = a + b

/-- A `SAD` after `m` updates of weight 1; the rounded and the exact state are the same. -/
structure SadSim (A : List α) (m : ℕ) (s' s : SAD α) : Prop where
  eq : s' = s
  over : s.Over A
  sum : s.sumCounts = m
  nat : ∀ p ∈ s.counts, ∃ k : ℕ, 1 ≤ k ∧ k ≤ m ∧ p.2 = k
  len : s.counts.length ≤ m
  some : 1 ≤ m → 1 ≤ s.counts.length

theorem SadSim.init (A : List α) : SadSim A 0 (SAD.init A.length) (SAD.init A.length) :=
  ⟨rfl, SAD.over_init A, by simp [SAD.init], by simp [SAD.init], by simp [SAD.init], by simp⟩

/-- The logarithm in `beta`. -/
theorem sad_log {k N : ℕ} (hk : 1 ≤ k) (hkN : k ≤ N) :
    1 / ((N : ℝ) + 1) ≤ Real.log (((N : ℝ) + 1) / k) ∧ Real.log (((N : ℝ) + 1) / k) ≤ N := by
  have h1 : (1 : ℝ) ≤ k := by exact_mod_cast hk
  have h2 : (k : ℝ) ≤ N := by exact_mod_cast hkN
  have hq : 0 < ((N : ℝ) + 1) / k := by positivity
  constructor
  · refine le_trans ?_ (Real.one_sub_inv_le_log_of_pos hq)
    rw [inv_div, le_sub_iff_add_le, ← add_div, div_le_one (by linarith)]
    linarith
  · refine le_trans (Real.log_le_sub_one_of_pos hq) ?_
    have : ((N : ℝ) + 1) / k ≤ (N + 1) / 1 := div_le_div_of_nonneg_left (by linarith) one_pos h1
    linarith

theorem SadSim.betaVal {A : List α} {m : ℕ} {s' s : SAD α} (h : SadSim A m s' s) (hm : 1 ≤ m) :
    SAD.betaVal s.counts.length s.sumCounts = s.counts.length / (2 * Real.log (((m : ℝ) + 1) / s.counts.length)) := by
  have h1 : (s.counts.length : ℝ) ≤ m := by exact_mod_cast h.len
  have h2 : (1 : ℝ) ≤ m := by exact_mod_cast hm
  rw [SAD.betaVal, h.sum, if_pos (by linarith), min_eq_left h1]

theorem SadSim.beta (hR : R.Accurate ε) {B : ℕ} (hC : R.Counts B) {A : List α} {m : ℕ} {s' s : SAD α} (h : SadSim A m s' s) (hm : m + 1 ≤ B)
    (hε : 64 * ε * (m + 1) ≤ 1) :
    ∃ b, R.sadBeta s = .ok b ∧ Near (12 * ε * (m + 1)) b (SAD.betaVal s.counts.length s.sumCounts) := by
  have e0 := hR.nonneg
  have e1 := hR.small
  rcases Nat.eq_zero_or_pos m with rfl | hm1
  · have hs : s.sumCounts = 0 := by simpa using h.sum
    refine ⟨1, ?_, ?_⟩
    · simp [sadBeta, hs]
    · rw [SAD.betaVal, hs, if_neg (lt_irrefl _)]
      exact (Near.refl one_pos).mono (by positivity)
  · rw [h.betaVal hm1]
    have hk := h.some hm1
    obtain ⟨l1, l2⟩ := sad_log hk h.len
    have hkm : (s.counts.length : ℝ) ≤ m := by exact_mod_cast h.len
    have hk1 : (1 : ℝ) ≤ s.counts.length := by exact_mod_cast hk
    have hm0 : (1 : ℝ) ≤ m := by exact_mod_cast hm1
    have hadd : R.add (m : ℝ) 1 = m + 1 := by
      have := hC m 1 hm
      push_cast at this
      exact this
    set k : ℝ := (s.counts.length : ℝ) with hkd
    have hq : Near (2 * ε) (R.div (m + 1) k) ((m + 1) / k) := by
      have := (Near.refl (by positivity : (0 : ℝ) < ((m : ℝ) + 1) / k)).round hR (hR.div (m + 1) k (by linarith))
      simpa using this
    obtain ⟨g1, g2⟩ := hq.log_round hR (by linarith)
    set L := Real.log (((m : ℝ) + 1) / k) with hL
    have hL0 : 0 < L := lt_of_lt_of_le (by positivity) l1
    have hl : Near (2 * (4 * ε * (m + 1))) (R.log (R.div (m + 1) k)) L := by
      refine near_of_abs (by positivity) (by linarith) hL0 (le_trans g2 ?_)
      rw [abs_of_pos hL0]
      have h3 : 1 ≤ (m + 1) * L := by
        rwa [div_le_iff₀ (by linarith), mul_comm] at l1
      have h4 : 0 ≤ m * L := by positivity
      have := mul_le_mul_of_nonneg_left (by linarith : L + 17 / 8 ≤ 4 * ((m + 1) * L)) e0
      linarith
    have hl2 := (hl.const_mul two_pos).round hR (hR.mul 2 (R.log (R.div (m + 1) k)))
    have hb := ((Near.refl (by linarith : 0 < k)).div hl2).round hR (hR.div k _ hl2.pos.ne')
    refine ⟨_, ?_, hb.mono (by nlinarith)⟩
    rw [sadBeta]
    simp only [h.sum]
    rw [if_pos (by linarith), ← hkd, min_eq_left hkm, hadd, Arith.pyDiv, if_neg (by linarith : k ≠ 0), ok_bind, g1, ok_bind, Arith.pyDiv,
      if_neg hl2.pos.ne']

theorem SadSim.predict (hR : R.Accurate ε) {B : ℕ} (hC : R.Counts B) {A : List α} {m : ℕ} {s' s : SAD α} (h : SadSim A m s' s) (hm : m + 1 ≤ B)
    (hε : 64 * ε * (m + 1) ≤ 1) {a : α} (ha : a ∈ A) :
    ∃ r' r, R.sadLogPredict s a = .ok r' ∧ s.logPredict a = .ok r ∧ |r' - r| ≤ ε * |r| + 32 * ε * (m + 1) ∧
      |r| ≤ Real.log (3 * A.length * (m + 1) ^ 2) := by
  have e0 := hR.nonneg
  obtain ⟨b', hb', hb⟩ := h.beta hR hC hm hε
  have hb0 := hb.1
  have hm0 : (0 : ℝ) ≤ m := Nat.cast_nonneg m
  have hn : (1 : ℝ) ≤ A.length := by exact_mod_cast List.length_pos_of_mem ha
  have hbv : 1 ≤ m → 1 / (2 * (m : ℝ)) ≤ SAD.betaVal s.counts.length s.sumCounts ∧
      SAD.betaVal s.counts.length s.sumCounts ≤ m * (m + 1) / 2 := by
    intro hm1
    obtain ⟨l1, l2⟩ := sad_log (h.some hm1) h.len
    have hkm : (s.counts.length : ℝ) ≤ m := by exact_mod_cast h.len
    have hk1 : (1 : ℝ) ≤ s.counts.length := by exact_mod_cast h.some hm1
    have hm0 : (1 : ℝ) ≤ m := by exact_mod_cast hm1
    rw [h.betaVal hm1]
    generalize Real.log (((m : ℝ) + 1) / s.counts.length) = L at *
    have hL0 : 0 < L := lt_of_lt_of_le (by positivity) l1
    rw [div_le_iff₀ (by positivity)] at l1
    constructor
    · rw [div_le_div_iff₀ (by positivity) (by positivity)]
      nlinarith
    · rw [div_le_iff₀ (by positivity)]
      nlinarith
  have hD := (hb.nonneg_add (c := (m : ℝ)) (by positivity) hm0).round hR (hR.add m b')
  cases hc : s.counts.get? a with
  | some c =>
    obtain ⟨k, k1, k2, k3⟩ := h.nat _ (PyDict.mem_of_get? hc)
    simp only at k3
    subst k3
    have hk1 : (1 : ℝ) ≤ k := by exact_mod_cast k1
    have hkm : (k : ℝ) ≤ m := by exact_mod_cast k2
    have hq := ((Near.refl (by linarith : (0 : ℝ) < k)).div hD).round hR (hR.div k _ hD.pos.ne')
    obtain ⟨g1, g2⟩ := hq.log_round hR (by positivity)
    refine ⟨_, _, ?_, by rw [h.over.logPredict_seen hc, h.sum], le_trans g2 ?_, ?_⟩
    · rw [sadLogPredict, hb', ok_bind]
      simp only [hc, h.sum]
      rw [Arith.pyDiv, if_neg hD.pos.ne', ok_bind, g1]
    · have : 0 ≤ ε * m := by positivity
      linarith
    · obtain ⟨b1, b2⟩ := hbv (by omega)
      rw [h.sum] at *
      generalize SAD.betaVal s.counts.length (m : ℝ) = b at *
      have hle : (k : ℝ) / (m + b) ≤ 1 := (div_le_one (by linarith)).mpr (by linarith)
      have hpos : 0 < (k : ℝ) / (m + b) := by positivity
      rw [abs_of_nonpos (Real.log_nonpos hpos.le hle), ← Real.log_inv, inv_div]
      apply Real.log_le_log (by positivity)
      rw [div_le_iff₀ (by linarith)]
      have h1 : (m : ℝ) + b ≤ (m + 1) ^ 2 := by nlinarith
      have h2 : ((m : ℝ) + 1) ^ 2 ≤ 3 * A.length * (m + 1) ^ 2 := le_mul_of_one_le_left (by positivity) (by linarith)
      have h3 : 3 * A.length * ((m : ℝ) + 1) ^ 2 ≤ 3 * A.length * (m + 1) ^ 2 * k := le_mul_of_one_le_right (by positivity) hk1
      linarith
  | none =>
    have hlt := h.over.len_lt ha (PyDict.get?_eq_none.mp hc)
    have hlt' : (s.counts.length : ℝ) + 1 ≤ A.length := by exact_mod_cast hlt
    have hk0 : (0 : ℝ) ≤ s.counts.length := Nat.cast_nonneg _
    have hD2 := (hD.const_mul (by linarith : (0 : ℝ) < A.length - s.counts.length)).round hR (hR.mul (A.length - s.counts.length) (R.add m b'))
    have hq := (hb.div hD2).round hR (hR.div b' _ hD2.pos.ne')
    obtain ⟨g1, g2⟩ := hq.log_round hR (by positivity)
    have hsize : (s.n : ℝ) = A.length := by
      rw [h.over.size]
      simp
    refine ⟨_, _, ?_, by rw [h.over.logPredict_new hc (by rw [h.over.size]; exact_mod_cast hlt), h.sum, hsize], le_trans g2 ?_, ?_⟩
    · rw [sadLogPredict, hb', ok_bind]
      simp only [hc, h.sum, hsize]
      rw [Arith.pyDiv, if_neg hD2.pos.ne', ok_bind, g1]
    · have : 0 ≤ ε * m := by positivity
      linarith
    · rw [h.sum] at *
      generalize SAD.betaVal s.counts.length (m : ℝ) = b at *
      have hd1 : 1 ≤ (A.length : ℝ) - s.counts.length := by linarith
      have hDp : 0 < ((A.length : ℝ) - s.counts.length) * (m + b) := mul_pos (by linarith) (by linarith)
      have hle : b / (((A.length : ℝ) - s.counts.length) * (m + b)) ≤ 1 := by
        rw [div_le_one hDp]
        nlinarith
      have hpos : 0 < b / (((A.length : ℝ) - s.counts.length) * (m + b)) := div_pos hb0 hDp
      rw [abs_of_nonpos (Real.log_nonpos hpos.le hle), ← Real.log_inv, inv_div]
      apply Real.log_le_log (div_pos hDp hb0)
      rw [div_le_iff₀ hb0]
      have h1 : ((A.length : ℝ) - s.counts.length) * (m + b) ≤ A.length * (m + b) := mul_le_mul_of_nonneg_right (by linarith) (by linarith)
      have h2 : (m : ℝ) + b ≤ 3 * (m + 1) ^ 2 * b := by
        rcases Nat.eq_zero_or_pos m with rfl | hm1
        · simp only [Nat.cast_zero]
          linarith
        · obtain ⟨b1, -⟩ := hbv hm1
          have hm1' : (1 : ℝ) ≤ m := by exact_mod_cast hm1
          rw [div_le_iff₀ (by positivity)] at b1
          nlinarith [mul_nonneg hm0 hb0.le, mul_nonneg (mul_nonneg hm0 hm0) hb0.le]
      have h3 := mul_le_mul_of_nonneg_left h2 (by linarith : (0 : ℝ) ≤ A.length)
      linarith

theorem SadSim.step (hR : R.Accurate ε) {B : ℕ} (hC : R.Counts B) {A : List α} {m : ℕ} {s' s : SAD α} (h : SadSim A m s' s) (hm : m + 1 ≤ B)
    (hε : 64 * ε * (m + 1) ≤ 1) {a : α} (ha : a ∈ A) :
    ∃ r' t' r t, R.sadUpdate s' a 1 = .ok (r', t') ∧ s.update a 1 = .ok (r, t) ∧ SadSim A (m + 1) t' t ∧
      |r' - r| ≤ ε * |r| + 32 * ε * (m + 1) ∧ |r| ≤ Real.log (3 * A.length * (m + 1) ^ 2) := by
  obtain ⟨r', r, k1, k2, k3, k4⟩ := h.predict hR hC hm hε ha
  have hadd : ∀ k : ℕ, k ≤ m → R.add (k : ℝ) 1 = k + 1 := by
    intro k hk
    have := hC k 1 (by omega)
    push_cast at this
    exact this
  refine ⟨r', s.bump a 1, r, s.bump a 1, ?_, ?_, ⟨rfl, h.over.bump ha one_pos, ?_, ?_, ?_, ?_⟩, k3, k4⟩
  · rw [h.eq, sadUpdate, k1, ok_bind, SAD.bump]
    cases hc : s.counts.get? a with
    | some c =>
      obtain ⟨k, -, e2, e3⟩ := h.nat _ (PyDict.mem_of_get? hc)
      simp only at e3
      subst e3
      simp only [PyDict.getE_ok.mpr hc, ok_bind, pure_eq_ok, hadd k e2, h.sum, hadd m le_rfl]
    | none =>
      have h0 := hadd 0 (Nat.zero_le _)
      simp only [Nat.cast_zero, zero_add] at h0
      simp only [PyDict.getE_ok.mpr (PyDict.get?_set_self s.counts a 0), ok_bind, pure_eq_ok, h0, h.sum, hadd m le_rfl, PyDict.set_set]
  · rw [SAD.update_eq, k2]
    rfl
  · rw [SAD.bump_sum, h.sum]
    push_cast
    ring
  · rw [SAD.bump]
    cases hc : s.counts.get? a with
    | some c =>
      obtain ⟨k, e1, e2, e3⟩ := h.nat _ (PyDict.mem_of_get? hc)
      simp only at e3
      intro p hp
      rcases PyDict.mem_set hp with rfl | hp
      · exact ⟨k + 1, by omega, by omega, by simp [e3]⟩
      · obtain ⟨j, j1, j2, j3⟩ := h.nat p hp
        exact ⟨j, j1, by omega, j3⟩
    | none =>
      intro p hp
      rcases PyDict.mem_set hp with rfl | hp
      · exact ⟨1, le_rfl, by omega, by simp⟩
      · obtain ⟨j, j1, j2, j3⟩ := h.nat p hp
        exact ⟨j, j1, by omega, j3⟩
  · have hl := h.len
    rw [SAD.bump]
    cases hc : s.counts.get? a with
    | some c =>
      simp only
      rw [← PyDict.length_keys, PyDict.keys_set_of_mem _ (PyDict.get?_isSome.1 ⟨c, hc⟩), PyDict.length_keys]
      omega
    | none =>
      simp only
      rw [← PyDict.length_keys, PyDict.keys_set_of_not_mem _ (PyDict.get?_eq_none.1 hc), List.length_append, PyDict.length_keys, List.length_singleton]
      omega
  · intro _
    rw [← PyDict.length_keys]
    exact List.length_pos_of_mem ((SAD.mem_keys_bump s a a 1).2 (.inl rfl))

/-- The states of `SAD` keep no error of the sum. -/
def sadRel (A : List α) : Rel (SAD α) (SAD α) := ⟨SadSim A, fun _ _ => 0, 0⟩

theorem sadBase (hR : R.Accurate ε) (A : List α) (T : ℕ) (hC : R.Counts T) (hε : 64 * ε * T ≤ 1) :
    BaseSim (R.sadPredictor) (SAD.predictor (α := α)) (fun o => o.sym ∈ A ∧ o.weight = 1) T
      (ε * (Real.log (3 * A.length * T ^ 2) + 32 * T)) (Real.log (3 * A.length * T ^ 2)) (sadRel A) := by
  have e0 := hR.nonneg
  refine ⟨fun m s' s o hm hs ho => ?_, fun m s' s _ => by simp [sadRel]⟩
  obtain ⟨ha, hw⟩ := ho
  have hmT : (m : ℝ) + 1 ≤ T := by exact_mod_cast hm
  have hm0 : (0 : ℝ) ≤ m := Nat.cast_nonneg m
  obtain ⟨r', t', r, t, k1, k2, k3, k4, k5⟩ := SadSim.step hR hC hs (by omega)
    (by have := mul_le_mul_of_nonneg_left hmT e0; linarith) ha
  have hn : (0 : ℝ) < A.length := by exact_mod_cast List.length_pos_of_mem ha
  have hρ : |r| ≤ Real.log (3 * A.length * T ^ 2) := by
    refine le_trans k5 (Real.log_le_log (by positivity) ?_)
    exact mul_le_mul_of_nonneg_left (pow_le_pow_left₀ (by linarith) hmT 2) (by linarith)
  refine ⟨r', t', r, t, by rw [hw]; exact k1, by rw [hw]; exact k2, k3, ?_, hρ⟩
  simp only [sadRel, sub_zero]
  refine le_trans k4 ?_
  have h1 := mul_le_mul_of_nonneg_left hρ e0
  have h2 := mul_le_mul_of_nonneg_left hmT e0
  linarith

end Arith

end Verif
