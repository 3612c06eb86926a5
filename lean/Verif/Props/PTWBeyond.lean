import Verif.Proofs.PTWBeyond
import Verif.Proofs.KTRedundancy

/-!
# C130: sequences longer than announced
-/

namespace Verif

open Predictor PTWNode PTWFixedLength

variable {σ α : Type} {P : Predictor σ α} {fresh : σ}

/-- **C130 (closed form).** For sequences of any length, the probability `PTWFixedLength` reports is the partition-tree mixture with the levels of the
announced length or of the smallest tree that covers the sequence, whichever is larger.  No error is raised beyond the announced length. -/
theorem C130_closed_form (m height : ℕ) (xs : List (Obs α)) (r : ℝ) (s : PTW σ)
    (hr : (PTWFixedLength.predictor P fresh m height).run (PTW.init fresh m) xs = .ok (r, s)) :
    Real.exp r = ptwProb (fun _ => P.seqProb fresh) m (max (height - m) (levelsFor m xs.length)) 0 xs := by
  obtain ⟨h1, h2⟩ := (beyond_init (height := height)).run hr
  rw [List.nil_append] at h1
  rw [h2, show (PTW.init fresh m).logProb = 0 from rfl, sub_zero]
  exact h1.lp

/-- **C130 (regret).** So the bound of C28 holds for every length, for partitions of this tree. -/
theorem C130_regret (m height : ℕ) (xs : List (Obs α)) (r : ℝ) (s : PTW σ)
    (hr : (PTWFixedLength.predictor P fresh m height).run (PTW.init fresh m) xs = .ok (r, s))
    (T : TPart (max (height - m) (levelsFor m xs.length))) :
    (1/2 : ℝ) ^ T.cost * ((T.segments m 0 xs).map fun g => P.seqProb fresh g.2).prod ≤ Real.exp r := by
  rw [C130_closed_form m height xs r s hr]
  exact TPart.ptwProb_ge (p := fun _ => P.seqProb fresh) (fun _ xs => P.seqProb_nonneg _ xs) T 0 xs

/-- **C130 (normalisation).** Runs of any length succeed, and the probabilities of the next symbol sum to one unless the number of symbols so far is a power
of two that is not less than the announced length and the minimum block. -/
theorem C130_normalised (I : σ → Prop) (A : List α) (W : ℝ → Prop) (hP : P.UpdateLawful I A W) (hf : I fresh) (m height : ℕ) (xs : List (Obs α))
    (hx : ∀ o ∈ xs, o.sym ∈ A ∧ W o.weight) (hl : ∀ k, max m height ≤ k → xs.length ≠ 2 ^ k) (h : List α) (w : ℝ) (hw : W w) :
    ∃ r s, (PTWFixedLength.predictor P fresh m height).run (PTW.init fresh m) xs = .ok (r, s) ∧
      (A.map fun a => probOf ((PTWFixedLength.predictor P fresh m height).update s a h w)).sum = 1 := by
  obtain ⟨r, s, h1, h2⟩ := all_run (m := m) (height := height) hP hf xs (PTW.init fresh m) hf hx
  refine ⟨r, s, h1, ?_⟩
  obtain ⟨h3, _⟩ := (beyond_init (height := height)).run h1
  rw [List.nil_append] at h3
  rw [h3.sum hP hf h2 hx h hw, levels_next, if_neg, div_self (PTW.ptwProb_pos hP (fun _ => hf) hx _ _).ne']
  rintro ⟨h4, h5⟩
  exact hl _ (by omega) h5

/-- Three bits where two were announced: the next probabilities sum to one again. -/
example : ∃ r s, (PTWFixedLength.predictor KTBinary.predictor (KTBinary.init none) 0 1).run (PTW.init (KTBinary.init none) 0)
      [⟨false, [], 1⟩, ⟨true, [], 1⟩, ⟨true, [], 1⟩] = .ok (r, s) ∧
    ([false, true].map fun a => probOf ((PTWFixedLength.predictor KTBinary.predictor (KTBinary.init none) 0 1).update s a [] 1)).sum = 1 :=
  C130_normalised _ _ _ KTBinary.lawful.updateLawful (by norm_num [KTBinary.init]) 0 1 _ (by simp)
    (fun k hk h => by
      obtain ⟨j, rfl⟩ : ∃ j, k = j + 1 := ⟨k - 1, by simp at hk; omega⟩
      rw [pow_succ] at h
      simp at h
      omega) [] 1 (by norm_num)

/-- **C130 (at the end of the announced length).** When the length, or later a power of two, is used up, the probabilities of the next symbol sum to
`(1 + b / p) / 2`, where `b` is the probability of the sequence for one base model and `p` that of the mixture. -/
theorem C130_crossing (I : σ → Prop) (A : List α) (W : ℝ → Prop) (hP : P.UpdateLawful I A W) (hf : I fresh) (m height k : ℕ) (xs : List (Obs α))
    (hx : ∀ o ∈ xs, o.sym ∈ A ∧ W o.weight) (hk : max m height ≤ k) (hl : xs.length = 2 ^ k) (h : List α) (w : ℝ) (hw : W w) :
    ∃ r s, (PTWFixedLength.predictor P fresh m height).run (PTW.init fresh m) xs = .ok (r, s) ∧
      (A.map fun a => probOf ((PTWFixedLength.predictor P fresh m height).update s a h w)).sum = (1 + P.seqProb fresh xs / Real.exp r) / 2 := by
  obtain ⟨r, s, h1, h2⟩ := all_run (m := m) (height := height) hP hf xs (PTW.init fresh m) hf hx
  refine ⟨r, s, h1, ?_⟩
  obtain ⟨h3, _⟩ := (beyond_init (height := height)).run h1
  rw [List.nil_append] at h3
  have hlev : levelsFor m xs.length = k - m := by
    obtain ⟨j, rfl⟩ : ∃ j, k = m + j := ⟨k - m, by omega⟩
    rw [hl, Nat.add_sub_cancel_left]
    refine le_antisymm (levelsFor_min le_rfl) ?_
    have := levelsFor_spec m (2 ^ (m + j))
    rw [Nat.pow_le_pow_iff_right (by norm_num)] at this
    omega
  have hp := PTW.ptwProb_pos (m := m) hP (fun _ => hf) hx (k - m) 0
  have e : levels m height xs.length = k - m := by rw [levels, hlev]; omega
  have e2 : max (height - m) (levelsFor m xs.length) = k - m := e
  rw [h3.sum hP hf h2 hx h hw, levels_next, if_pos ⟨by rw [hlev]; omega, by rw [hlev, hl]; congr 1; omega⟩, e, C130_closed_form m height xs r s h1, e2,
    ptwProb, show m + (k - m) = k by omega, ← hl, List.take_length, List.drop_length, ptwProb_nil (blockProb_nil P _), mul_one]
  change _ = (1 + blockProb P (fun _ => fresh) 0 xs / ptwProb (blockProb P fun _ => fresh) m (k - m) 0 xs) / 2
  field_simp
  ring

/-- **C130 (how far from one).** This sum is more than one half and at most three halves; it is one exactly if the mixture and the one base model have given
the sequence the same probability. -/
theorem C130_bounds (I : σ → Prop) (A : List α) (W : ℝ → Prop) (hP : P.UpdateLawful I A W) (hf : I fresh) (m height k : ℕ) (xs : List (Obs α))
    (hx : ∀ o ∈ xs, o.sym ∈ A ∧ W o.weight) (hk : max m height ≤ k) (hl : xs.length = 2 ^ k) (h : List α) (w : ℝ) (hw : W w) (r : ℝ) (s : PTW σ)
    (hr : (PTWFixedLength.predictor P fresh m height).run (PTW.init fresh m) xs = .ok (r, s)) :
    1 / 2 < (A.map fun a => probOf ((PTWFixedLength.predictor P fresh m height).update s a h w)).sum ∧
    (A.map fun a => probOf ((PTWFixedLength.predictor P fresh m height).update s a h w)).sum ≤ 3 / 2 ∧
    ((A.map fun a => probOf ((PTWFixedLength.predictor P fresh m height).update s a h w)).sum = 1 ↔ P.seqProb fresh xs = Real.exp r) := by
  obtain ⟨r', s', h1, h2⟩ := C130_crossing I A W hP hf m height k xs hx hk hl h w hw
  rw [hr] at h1
  cases h1
  rw [h2]
  have hb : 0 < P.seqProb fresh xs := seqProb_pos hP hf hx
  have hge : 1 / 2 * P.seqProb fresh xs ≤ Real.exp r := by
    rw [C130_closed_form m height xs r s hr]
    exact ptwProb_ge_half (p := fun _ => P.seqProb fresh) (fun _ xs => P.seqProb_nonneg _ xs) _ 0 xs
  have hpos := Real.exp_pos r
  have hq : 0 < P.seqProb fresh xs / Real.exp r := div_pos hb hpos
  have hq2 : P.seqProb fresh xs / Real.exp r ≤ 2 := by rw [div_le_iff₀ hpos]; linarith
  refine ⟨by linarith, by linarith, ?_⟩
  constructor
  · intro h
    have : P.seqProb fresh xs / Real.exp r = 1 := by linarith
    rwa [div_eq_one_iff_eq hpos.ne'] at this
  · intro h
    rw [h, div_self hpos.ne']
    norm_num

/-- **C130, counterexample.** Announce two symbols and feed the bits 0, 1: the probabilities of the third bit sum to 5/6, although the minimum block is one
symbol and every base model is a fresh `KTBinary`. -/
theorem C130_defect : PTWFixedLength.heightOf 2 = .ok 1 ∧
    ∃ r s, (PTWFixedLength.predictor KTBinary.predictor (KTBinary.init none) 0 1).run (PTW.init (KTBinary.init none) 0) [⟨false, [], 1⟩, ⟨true, [], 1⟩] =
        .ok (r, s) ∧
      ([false, true].map fun a => probOf ((PTWFixedLength.predictor KTBinary.predictor (KTBinary.init none) 0 1).update s a [] 1)).sum = 5 / 6 := by
  refine ⟨by decide, ?_⟩
  obtain ⟨r, s, h1, h2⟩ := C130_crossing _ _ _ KTBinary.lawful.updateLawful (fresh := KTBinary.init none) (by norm_num [KTBinary.init]) 0 1 1
    [⟨false, [], 1⟩, ⟨true, [], 1⟩] (by simp) le_rfl rfl [] 1 (by norm_num)
  refine ⟨r, s, h1, ?_⟩
  have s1 : ∀ x, KTBinary.predictor.seqProb (KTBinary.init none) [⟨x, [], 1⟩] = 1/2 := by
    intro x
    rw [Redundancy.seqProb_ktP (by simp)]
    cases x <;> norm_num [Redundancy.zeros, Redundancy.ones, Redundancy.ktP, Redundancy.rise]
  have s2 : KTBinary.predictor.seqProb (KTBinary.init none) [⟨false, [], 1⟩, ⟨true, [], 1⟩] = 1/8 := by
    rw [Redundancy.seqProb_ktP (by simp)]
    norm_num [Redundancy.zeros, Redundancy.ones, Redundancy.ktP, Redundancy.rise]
  have hl : max (1 - 0) (levelsFor 0 2) = 1 := by rw [levelsFor_succ (m := 0) (k := 0) (by norm_num) (by norm_num)]; rfl
  have h3 := C130_closed_form 0 1 _ r s h1
  rw [show ([⟨false, [], 1⟩, ⟨true, [], 1⟩] : List (Obs Bool)).length = 2 from rfl, hl] at h3
  simp only [ptwProb, List.take, List.drop, zero_add, pow_zero, s1, s2] at h3
  rw [h2, s2, h3]
  norm_num

end Verif
