import Verif.Spec.Prunings
import Verif.Props.CTW
import Verif.Props.PTW
import Verif.Props.Following
import Verif.Props.Learners
import Mathlib.Algebra.BigOperators.Ring.Finset
import Mathlib.Data.Fintype.BigOperators

/-!
# C171: context trees and partition trees are Bayesian mixtures

What `CTW` and `PTWFixedLength` compute with one number per node is the sum over all prunings, or all partitions, weighted by a prior that sums to one.
-/

namespace Verif

namespace Mixed

variable {κ β : Type} [Fintype κ] [DecidableEq κ]

/-- A sum over all prunings is the leaf plus a sum over choices. -/
theorem sum_succ (d : ℕ) (f : Pruning κ (d + 1) → ℝ) : ∑ T, f T = f .leaf + ∑ g : κ → Pruning κ d, f (.split g) := by
  rw [← (Pruning.succEquiv d).symm.sum_comp f, Fintype.sum_option]
  rfl

theorem sum_zero (f : Pruning κ 0 → ℝ) : ∑ T, f T = f .leaf := by
  rw [← Pruning.zeroEquiv.symm.sum_comp f]
  simp
  rfl

theorem tsum_succ (k : ℕ) (f : TPart (k + 1) → ℝ) : ∑ T, f T = f .whole + ∑ p : TPart k × TPart k, f (.split p.1 p.2) := by
  rw [← (TPart.succEquiv k).symm.sum_comp f, Fintype.sum_option]
  rfl

theorem tsum_zero (f : TPart 0 → ℝ) : ∑ T, f T = f .whole := by
  rw [← TPart.zeroEquiv.symm.sum_comp f]
  simp
  rfl

theorem ctwProb_eq {base : List β → ℝ} (h1 : base [] = 1) (d : ℕ) (S : List (List κ × β)) :
    ctwProb base d S = ∑ T : Pruning κ d, (1 / 2 : ℝ) ^ T.cost * T.prob base S := by
  induction d generalizing S with
  | zero => rw [sum_zero]; simp [ctwProb, Pruning.cost, Pruning.prob]
  | succ d ih =>
    rw [sum_succ, ctwProb, prod_heads_subset h1 d S (Finset.subset_univ _)]
    congr 1
    · simp [Pruning.cost, Pruning.prob]
    · simp only [ih]
      rw [Finset.prod_univ_sum, Fintype.piFinset_univ, Finset.mul_sum]
      refine Finset.sum_congr rfl fun g _ => ?_
      rw [Finset.prod_mul_distrib, Pruning.cost, Pruning.prob, pow_add, pow_one, Finset.prod_pow_eq_pow_sum, mul_assoc]

theorem ptwProb_eq (p : ℕ → List β → ℝ) (m k t : ℕ) (xs : List β) :
    ptwProb p m k t xs = ∑ T : TPart k, (1 / 2 : ℝ) ^ T.cost * ((T.segments m t xs).map fun g => p g.1 g.2).prod := by
  induction k generalizing t xs with
  | zero => rw [tsum_zero]; simp [ptwProb, TPart.cost, TPart.segments]
  | succ k ih =>
    rw [tsum_succ, ptwProb]
    congr 1
    · simp [TPart.cost, TPart.segments]
    · rw [ih, ih, Finset.sum_mul_sum, ← Finset.sum_product', Finset.univ_product_univ, Finset.mul_sum]
      refine Finset.sum_congr rfl fun q _ => ?_
      simp only [TPart.cost, TPart.segments, List.map_append, List.prod_append, pow_add, pow_one]
      ring

end Mixed

open Mixed

variable {σ κ α : Type} [Fintype κ] [DecidableEq κ]

/-- **C171 (prior).** Two to the minus the description length is a probability distribution, over the prunings of a context tree and over the partitions in
time. -/
theorem C171_prior (d : ℕ) : ∑ T : Pruning κ d, (1 / 2 : ℝ) ^ T.cost = 1 ∧ ∑ T : TPart d, (1 / 2 : ℝ) ^ T.cost = 1 := by
  constructor
  · induction d with
    | zero => rw [sum_zero]; simp [Pruning.cost]
    | succ d ih =>
      rw [sum_succ]
      have : ∑ g : κ → Pruning κ d, (1 / 2 : ℝ) ^ (Pruning.split g).cost = 1 / 2 * ∏ _c : κ, ∑ T : Pruning κ d, (1 / 2 : ℝ) ^ T.cost := by
        rw [Finset.prod_univ_sum, Fintype.piFinset_univ, Finset.mul_sum]
        refine Finset.sum_congr rfl fun g _ => ?_
        rw [Pruning.cost, pow_add, pow_one, Finset.prod_pow_eq_pow_sum]
      rw [this, ih]
      simp [Pruning.cost]
      norm_num
  · induction d with
    | zero => rw [tsum_zero]; simp [TPart.cost]
    | succ d ih =>
      rw [tsum_succ]
      have : ∑ p : TPart d × TPart d, (1 / 2 : ℝ) ^ (TPart.split p.1 p.2).cost =
          1 / 2 * ((∑ T : TPart d, (1 / 2 : ℝ) ^ T.cost) * ∑ T : TPart d, (1 / 2 : ℝ) ^ T.cost) := by
        rw [Finset.sum_mul_sum, ← Finset.sum_product', Finset.univ_product_univ, Finset.mul_sum]
        refine Finset.sum_congr rfl fun p _ => ?_
        simp only [TPart.cost, pow_add, pow_one, mul_assoc]
      rw [this, ih]
      simp [TPart.cost]
      norm_num

/-- **C171 (CTW).** The probability that `CTW` reports for a sequence is the sum over all prunings of the context tree, each with its prior and with one
base model at each leaf. -/
theorem C171_CTW (P : Predictor σ α) (fresh : σ) (ctx : List α → List κ) (d : ℕ) (xs : List (Obs α)) (hc : ∀ o ∈ xs, (ctx o.hist).length = d)
    (r : ℝ) (n : CTWNode σ κ) (hr : (CTW.predictor P fresh ctx).run (CTW.init fresh) xs = .ok (r, n)) :
    Real.exp r = ∑ T : Pruning κ d, (1 / 2 : ℝ) ^ T.cost * T.prob (P.seqProb fresh) (withCtx ctx xs) := by
  rw [C13_CTW_closed_form P fresh ctx d xs hc r n hr]
  exact ctwProb_eq (by simp [Predictor.seqProb, Predictor.run, Predictor.probOf]) d _

/-- **C171 (PTWFixedLength).** The probability that `PTWFixedLength` reports for a sequence is the sum over all binary partitions in time, each with its
prior and with a new base model in each segment. -/
theorem C171_PTWFixedLength (P : Predictor σ α) (fresh : σ) (m height : ℕ) (xs : List (Obs α)) (hl : xs.length ≤ 2 ^ max m height) (r : ℝ) (s : PTW σ)
    (hr : (PTWFixedLength.predictor P fresh m height).run (PTW.init fresh m) xs = .ok (r, s)) :
    Real.exp r = ∑ T : TPart (height - m), (1 / 2 : ℝ) ^ T.cost * ((T.segments m 0 xs).map fun g => P.seqProb fresh g.2).prod := by
  rw [C24_PTWFixedLength_closed_form P fresh m height xs hl r s hr]
  exact ptwProb_eq (fun _ => P.seqProb fresh) m (height - m) 0 xs

/-- **C171 (learners.PTW).** So is the probability of `learners.PTW`, over all partitions of its depth. -/
theorem C171_learners_PTW (P : Predictor σ α) (fresh : σ) (depth : ℕ) (s0 : LPTW σ) (h0 : LPTW.init fresh depth = .ok s0) (xs : List α) (r : ℝ) (s : LPTW σ)
    (hr : (LPTW.predictor P fresh).run s0 (xs.map LPTW.obs) = .ok (r, s)) :
    Real.exp r = ∑ T : TPart depth, (1 / 2 : ℝ) ^ T.cost * ((T.segments 0 0 (xs.map LPTW.obs)).map fun g => P.seqProb fresh g.2).prod := by
  obtain ⟨-, -, h1, h2⟩ := C36_learners_PTW_closed_form P fresh depth s0 h0 xs r s hr
  rw [h2, h1]
  exact ptwProb_eq (fun _ => P.seqProb fresh) 0 depth 0 _

/-- **C171 (posterior of CTW).** What `CTW` reports for the next symbol is the average of what the prunings predict, each weighted by its posterior
probability; the posterior probabilities sum to one. -/
theorem C171_CTW_posterior (P : Predictor σ α) (fresh : σ) (I : σ → Prop) (A : List α) (W : ℝ → Prop) (hP : P.UpdateLawful I A W) (hf : I fresh) (d : ℕ)
    (ctx : List α → List κ) (hc : ∀ h, (ctx h).length = d) (xs : List (Obs α)) (hx : ∀ o ∈ xs, o.sym ∈ A ∧ W o.weight) (r : ℝ) (n : CTWNode σ κ)
    (hr : (CTW.predictor P fresh ctx).run (CTW.init fresh) xs = .ok (r, n)) (a : α) (ha : a ∈ A) (h : List α) (w : ℝ) (hw : W w) :
    let post := fun T : Pruning κ d => (1 / 2 : ℝ) ^ T.cost * T.prob (P.seqProb fresh) (withCtx ctx xs) / Real.exp r
    ∑ T, post T = 1 ∧ Predictor.probOf ((CTW.predictor P fresh ctx).update n a h w) =
      ∑ T, post T * (T.prob (P.seqProb fresh) (withCtx ctx (xs ++ [⟨a, h, w⟩])) / T.prob (P.seqProb fresh) (withCtx ctx xs)) := by
  intro post
  have hL := CTWNode.updateLawful (κ := κ) (fresh := fresh) hP hc
  have hi : CTWNode.WF fresh I d (CTW.init fresh : CTWNode σ κ) := CTWNode.WF.new hf d
  have hn : CTWNode.WF fresh I d n := by
    obtain ⟨_, _, h1, h2⟩ := hL.run_ok hi hx
    rw [h1] at hr
    cases hr
    exact h2
  have hx' : ∀ o ∈ xs ++ [(⟨a, h, w⟩ : Obs α)], o.sym ∈ A ∧ W o.weight := by
    intro o ho
    rcases List.mem_append.mp ho with g | g
    · exact hx o g
    · rw [List.mem_singleton.mp g]; exact ⟨ha, hw⟩
  obtain ⟨r2, n2, hr2, -⟩ := hL.run_ok hi hx'
  have e1 := C171_CTW P fresh ctx d xs (fun o _ => hc _) r n hr
  have e2 := C171_CTW P fresh ctx d _ (fun o _ => hc _) r2 n2 hr2
  have hwc : ∀ ys : List (Obs α), (withCtx ctx ys).map Prod.snd = ys := by
    intro ys
    simp only [withCtx, List.map_map]
    exact List.map_id ys
  have hb : ∀ ys : List (Obs α), GoodObs A W ys → 0 < P.seqProb fresh ys := by
    intro ys hy
    obtain ⟨q, s', h1, -⟩ := hP.run_ok hf hy
    rw [Predictor.seqProb_of_run h1]
    exact Real.exp_pos _
  have hpos : ∀ T : Pruning κ d, T.prob (P.seqProb fresh) (withCtx ctx xs) ≠ 0 := fun T =>
    (Pruning.prob_pos (GoodObs A W) subCtx_good hb T _ (by rw [hwc]; exact hx)).ne'
  constructor
  · rw [← Finset.sum_div, ← e1, div_self (Real.exp_pos r).ne']
  · rw [Following.probOf_eq_div hL hn hr ha h hw, Predictor.seqProb_of_run hr2, Predictor.seqProb_of_run hr, e2, Finset.sum_div]
    refine Finset.sum_congr rfl fun T _ => ?_
    have := hpos T
    simp only [post]
    field_simp

/-- **C171 (posterior of PTWFixedLength).** The same for the partitions in time, as long as the announced length is not used up. -/
theorem C171_PTWFixedLength_posterior (P : Predictor σ α) (fresh : σ) (I : σ → Prop) (A : List α) (W : ℝ → Prop) (hP : P.UpdateLawful I A W) (hf : I fresh)
    (m height : ℕ) (xs : List (Obs α)) (hx : ∀ o ∈ xs, o.sym ∈ A ∧ W o.weight) (hl : xs.length < 2 ^ max m height) (r r' : ℝ) (s s' : PTW σ)
    (hr : (PTWFixedLength.predictor P fresh m height).run (PTW.init fresh m) xs = .ok (r, s)) (a : α) (h : List α) (w : ℝ)
    (hu : (PTWFixedLength.predictor P fresh m height).update s a h w = .ok (r', s')) :
    let prob := fun (T : TPart (height - m)) ys => ((T.segments m 0 ys).map fun g => P.seqProb fresh g.2).prod
    let post := fun T => (1 / 2 : ℝ) ^ T.cost * prob T xs / Real.exp r
    ∑ T, post T = 1 ∧ Real.exp r' = ∑ T, post T * (prob T (xs ++ [⟨a, h, w⟩]) / prob T xs) := by
  intro prob post
  have hr2 : (PTWFixedLength.predictor P fresh m height).run (PTW.init fresh m) (xs ++ [⟨a, h, w⟩]) = .ok (r + r', s') :=
    Predictor.run_append_ok.mpr ⟨_, _, _, hr, Predictor.run_cons_ok.mpr ⟨_, _, _, hu, rfl, by simp⟩, rfl⟩
  have e1 := C171_PTWFixedLength P fresh m height xs hl.le r s hr
  have e2 := C171_PTWFixedLength P fresh m height _ (by rw [List.length_append, List.length_singleton]; omega) _ _ hr2
  have hpos : ∀ T : TPart (height - m), prob T xs ≠ 0 := fun T => (partProb_pos hP hf m T 0 xs hx).ne'
  constructor
  · rw [← Finset.sum_div, ← e1, div_self (Real.exp_pos r).ne']
  · rw [Real.exp_add] at e2
    have : Real.exp r' = (∑ T : TPart (height - m), (1 / 2 : ℝ) ^ T.cost * prob T (xs ++ [⟨a, h, w⟩])) / Real.exp r := by
      rw [← e2, mul_div_cancel_left₀ _ (Real.exp_pos r).ne']
    rw [this, Finset.sum_div]
    refine Finset.sum_congr rfl fun T _ => ?_
    have := hpos T
    simp only [post]
    field_simp

/-- **C171 (posterior of PTW).** What `PTW` reports for the next symbol is the average of what the partitions of the smallest tree that has room for it
predict, weighted by their posterior probabilities. -/
theorem C171_PTW_posterior (P : Predictor σ α) (fresh : σ) (I : σ → Prop) (A : List α) (W : ℝ → Prop) (hP : P.UpdateLawful I A W) (hf : I fresh)
    (m : ℕ) (xs : List (Obs α)) (hx : ∀ o ∈ xs, o.sym ∈ A ∧ W o.weight) (r r' : ℝ) (s s' : PTW σ)
    (hr : (PTW.predictor P fresh m).run (PTW.init fresh m) xs = .ok (r, s)) (a : α) (h : List α) (w : ℝ)
    (hu : (PTW.predictor P fresh m).update s a h w = .ok (r', s')) :
    let prob := fun (T : TPart (levelsFor m (xs.length + 1))) ys => ((T.segments m 0 ys).map fun g => P.seqProb fresh g.2).prod
    let total := ∑ T, (1 / 2 : ℝ) ^ T.cost * prob T xs
    0 < total ∧ Real.exp r' = ∑ T, (1 / 2 : ℝ) ^ T.cost * prob T xs / total * (prob T (xs ++ [⟨a, h, w⟩]) / prob T xs) := by
  intro prob total
  have hpos : ∀ T : TPart (levelsFor m (xs.length + 1)), 0 < prob T xs := fun T => partProb_pos hP hf m T 0 xs hx
  have ht : 0 < total := Finset.sum_pos (fun T _ => mul_pos (by positivity) (hpos T)) ⟨.whole, Finset.mem_univ _⟩
  refine ⟨ht, ?_⟩
  rw [C25_PTW_ratio P fresh m xs ⟨a, h, w⟩ r r' s s' hr hu, ptwProb_eq, ptwProb_eq]
  change (∑ T : TPart (levelsFor m (xs.length + 1)), (1 / 2 : ℝ) ^ T.cost * prob T (xs ++ [⟨a, h, w⟩])) / total = _
  rw [Finset.sum_div]
  refine Finset.sum_congr rfl fun T _ => ?_
  have := (hpos T).ne'
  field_simp

/-- **C171 (how many).** The number of prunings that `CTW` of depth `d + 1` averages over is at least `2 ^ k ^ d` for contexts of `k` symbols, and that of
partitions at least `2 ^ 2 ^ d`. -/
theorem C171_count (d : ℕ) : 2 ^ Fintype.card κ ^ d ≤ Fintype.card (Pruning κ (d + 1)) ∧ 2 ^ 2 ^ d ≤ Fintype.card (TPart (d + 1)) := by
  have hs : ∀ d, Fintype.card (Pruning κ (d + 1)) = Fintype.card (Pruning κ d) ^ Fintype.card κ + 1 := by
    intro d
    rw [Fintype.card_congr (Pruning.succEquiv d), Fintype.card_option, Fintype.card_fun]
  have ht : ∀ d, Fintype.card (TPart (d + 1)) = Fintype.card (TPart d) ^ 2 + 1 := by
    intro d
    rw [Fintype.card_congr (TPart.succEquiv d), Fintype.card_option, Fintype.card_prod, sq]
  constructor
  · induction d with
    | zero => rw [hs, Fintype.card_congr Pruning.zeroEquiv]; simp
    | succ d ih =>
      rw [hs, pow_succ, pow_mul]
      exact (Nat.pow_le_pow_left ih _).trans (Nat.le_succ _)
  · induction d with
    | zero => rw [ht, Fintype.card_congr TPart.zeroEquiv]; simp
    | succ d ih =>
      rw [ht, pow_succ, pow_mul]
      exact (Nat.pow_le_pow_left ih _).trans (Nat.le_succ _)

/-- For `CTW(1)` over bits there are two prunings, each of prior one half; for depth 2 there are five. -/
example : Fintype.card (Pruning Bool 1) = 2 ∧ Fintype.card (Pruning Bool 2) = 5 := by
  have h1 : Fintype.card (Pruning Bool 1) = 2 := by
    rw [Fintype.card_congr (Pruning.succEquiv 0), Fintype.card_option, Fintype.card_fun, Fintype.card_congr Pruning.zeroEquiv]; rfl
  exact ⟨h1, by rw [Fintype.card_congr (Pruning.succEquiv 1), Fintype.card_option, Fintype.card_fun, h1]; rfl⟩

/-- The posterior of the default `CTW(3)` after two bits. -/
example (h : List Bool) : ∃ r n, (CTW.predictor KTBinary.predictor (KTBinary.init none) (CTW.mkcontext 3 false)).run (CTW.init (KTBinary.init none))
    [⟨true, [], 1⟩, ⟨false, [true], 1⟩] = .ok (r, n) ∧
    ∑ T : Pruning Bool 3, (1 / 2 : ℝ) ^ T.cost * T.prob (KTBinary.predictor.seqProb (KTBinary.init none))
      (withCtx (CTW.mkcontext 3 false) [⟨true, [], 1⟩, ⟨false, [true], 1⟩]) / Real.exp r = 1 := by
  obtain ⟨r, n, hr, -⟩ := C13_CTW_default 3 (by norm_num) [⟨true, [], 1⟩, ⟨false, [true], 1⟩] (by simp) h
  refine ⟨r, n, hr, ?_⟩
  rw [← Finset.sum_div, ← C171_CTW _ _ _ 3 _ (fun o _ => (C18_mkcontext_partial 3 (by norm_num) false _).1) r n hr, div_self (Real.exp_pos r).ne']

end Verif
