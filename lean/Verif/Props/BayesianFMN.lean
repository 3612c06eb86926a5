import Verif.Props.BayesianMixtures
import Verif.Props.FMN

/-!
# C171 for `FMN`

The mixture over partitions in time in which a segment is predicted by the models that the store holds when it starts.
-/

namespace Verif

variable {S σ α : Type} (St : Store S σ) (add : S → σ → S) (Keep : S → σ → Prop) (P : Predictor σ α)

/-- **C171 (FMN).** What `FMN` reports for the next symbol is the probability of the sequence with it, divided by that of the sequence without it, under
the sum over all binary partitions in time, each with its prior. A segment that starts at time `t` has the mean of the probabilities that the models stored
at that time give to it. -/
theorem C171_FMN (hSt : St.Lawful add Keep) (I : σ → Prop) (A : List α) (W : ℝ → Prop)
    (hP : P.UpdateLawful I A W) (hC : P.Copyable I) (f : σ) (hf : I f) (m : ℕ) (xs : List (Obs α)) (o : Obs α)
    (hx : ∀ x ∈ xs ++ [o], x.sym ∈ A ∧ W x.weight) :
    ∃ s0 r s q s', FMN.init St P f m = .ok s0 ∧ (FMN.predictor St P m).run s0 xs = .ok (r, s) ∧
      (FMN.predictor St P m).update s o.sym o.hist o.weight = .ok (q, s') ∧
      ∃ stores : ℕ → List σ,
        (∀ t ≤ xs.length, ∃ r' s', (FMN.predictor St P m).run s0 (xs.take t) = .ok (r', s') ∧ stores t = St.items s'.store) ∧
        let prob := fun (T : TPart (levelsFor m (xs.length + 1))) ys =>
          ((T.segments m 0 ys).map fun g => ((stores g.1).map fun v => P.seqProb v g.2).sum / (stores g.1).length).prod
        let total := ∑ T, (1 / 2 : ℝ) ^ T.cost * prob T xs
        0 < total ∧ Real.exp q = (∑ T, (1 / 2 : ℝ) ^ T.cost * prob T (xs ++ [o])) / total := by
  obtain ⟨s0, r, s, q, s', h1, h2, h3, stores, h4, h5⟩ := C34_FMN_closed_form St add Keep P hSt I A W hP hC f hf m xs o hx
  refine ⟨s0, r, s, q, s', h1, h2, h3, stores, h4, ?_⟩
  intro prob total
  rw [Mixed.ptwProb_eq, Mixed.ptwProb_eq] at h5
  change Real.exp q = (∑ T : TPart (levelsFor m (xs.length + 1)), (1 / 2 : ℝ) ^ T.cost * prob T (xs ++ [o])) / total at h5
  refine ⟨lt_of_le_of_ne ?_ ?_, h5⟩
  · refine Finset.sum_nonneg fun T _ => mul_nonneg (by positivity) (List.prod_nonneg fun x hx => ?_)
    obtain ⟨g, -, rfl⟩ := List.mem_map.mp hx
    refine div_nonneg (List.sum_nonneg fun y hy => ?_) (Nat.cast_nonneg _)
    obtain ⟨v, -, rfl⟩ := List.mem_map.mp hy
    unfold Predictor.seqProb Predictor.probOf
    split <;> positivity
  · intro h0
    rw [← h0, div_zero] at h5
    exact (Real.exp_pos q).ne' h5

/-- The hypotheses hold for `FMN` over binary estimators with the default store, on the bits 1, 0 and then 1. -/
example : ∃ s0 r s q s', FMN.init (LogStore.store KTBinary) KTBinary.predictor (KTBinary.init none) 0 = .ok s0 ∧
    (FMN.predictor (LogStore.store KTBinary) KTBinary.predictor 0).run s0 [⟨true, [], 1⟩, ⟨false, [true], 1⟩] = .ok (r, s) ∧
    (FMN.predictor (LogStore.store KTBinary) KTBinary.predictor 0).update s true [true, false] 1 = .ok (q, s') := by
  obtain ⟨s0, r, s, q, s', h1, h2, h3, -⟩ := C171_FMN (LogStore.store KTBinary) LogStore.add _ KTBinary.predictor (LogStore.lawful _)
    (fun s => 0 < s.c0 ∧ 0 < s.c1) [false, true] (fun w => 0 ≤ w) KTBinary.lawful.updateLawful (fun s hs => ⟨s, rfl, hs, fun _ => rfl⟩)
    (KTBinary.init none) ⟨by norm_num [KTBinary.init], by norm_num [KTBinary.init]⟩ 0 [⟨true, [], 1⟩, ⟨false, [true], 1⟩] ⟨true, [true, false], 1⟩
    (by simp)
  exact ⟨s0, r, s, q, s', h1, h2, h3⟩

end Verif
