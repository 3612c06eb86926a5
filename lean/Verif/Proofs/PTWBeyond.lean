import Verif.Proofs.PTWPredict
import Verif.Proofs.PTWRegret

/-! `PTWFixedLength` on sequences of any length. -/

namespace Verif

open Predictor PTWNode

namespace PTWFixedLength

variable {σ α : Type} {P : Predictor σ α} {fresh : σ} {m height : ℕ}

/-- The levels of the tree after `n` observations. -/
def levels (m height n : ℕ) : ℕ := max (height - m) (levelsFor m n)

theorem levels_next (m height n : ℕ) : levels m height (n + 1) =
    if height ≤ m + levelsFor m n ∧ n = 2 ^ (m + levelsFor m n) then levels m height n + 1 else levels m height n := by
  rw [levels, levels, levelsFor_next]
  split_ifs with h1 h2 h2 <;> omega

/-- The state after `xs`. -/
structure Beyond (P : Predictor σ α) (fresh : σ) (m height : ℕ) (s : PTW σ) (xs : List (Obs α)) : Prop where
  rep : Rep P (fun _ => fresh) m 0 s.tree xs
  lp : Real.exp s.logProb = ptwProb (blockProb P fun _ => fresh) m (levels m height xs.length) 0 xs

theorem beyond_init : Beyond P fresh m height (PTW.init fresh m) [] :=
  ⟨rep_new 0, by rw [ptwProb_nil (blockProb_nil P _)]; simp [PTW.init]⟩

theorem Beyond.update {s s' : PTW σ} {xs : List (Obs α)} (hi : Beyond P fresh m height s xs) {o : Obs α} {r : ℝ}
    (hu : PTWFixedLength.update P (.ok fresh) m height s o.sym o.hist o.weight = .ok (r, s')) :
    Beyond P fresh m height s' (xs ++ [o]) ∧ r = s'.logProb - s.logProb := by
  simp only [PTWFixedLength.update, bind_eq_ok, pure_eq_ok, Except.ok.injEq, Prod.mk.injEq] at hu
  obtain ⟨n, hn, rfl, rfl⟩ := hu
  have hrep : Rep P (fun _ => fresh) m 0 n (xs ++ [o]) := hi.rep.update hn
  refine ⟨⟨hrep, ?_⟩, rfl⟩
  have hh := hrep.height
  rw [levels]
  rcases Nat.le_total (height - m) (levelsFor m (xs ++ [o]).length) with h | h
  · rw [max_eq_right h, ← hrep.exp_lp, show height - n.data.height = 0 by omega]
    rfl
  · rw [max_eq_left h, ← hrep.correct h, show height - n.data.height = m + (height - m) - n.data.height by omega]

theorem Beyond.run {ys : List (Obs α)} : ∀ {s s' : PTW σ} {xs : List (Obs α)} {r : ℝ}, Beyond P fresh m height s xs →
    (predictor P fresh m height).run s ys = .ok (r, s') → Beyond P fresh m height s' (xs ++ ys) ∧ r = s'.logProb - s.logProb := by
  induction ys with
  | nil =>
    intro s s' xs r hi hr
    cases hr
    simpa using hi
  | cons o ys ih =>
    intro s s' xs r hi hr
    obtain ⟨r1, s1, r2, h1, h2, rfl⟩ := run_cons_ok.mp hr
    obtain ⟨k1, k2⟩ := hi.update (o := o) h1
    obtain ⟨k3, k4⟩ := ih k1 h2
    rw [List.append_assoc, List.singleton_append] at k3
    exact ⟨k3, by rw [k2, k4]; ring⟩

theorem all_run {I : σ → Prop} {A : List α} {W : ℝ → Prop} (hP : P.UpdateLawful I A W) (hf : I fresh) (xs : List (Obs α)) : ∀ (s : PTW σ), All I s.tree →
    (∀ o ∈ xs, o.sym ∈ A ∧ W o.weight) → ∃ r s', (predictor P fresh m height).run s xs = .ok (r, s') ∧ All I s'.tree := by
  induction xs with
  | nil => exact fun s hs _ => ⟨0, s, rfl, hs⟩
  | cons o xs ih =>
    intro s hs hx
    obtain ⟨n, h1, h2⟩ := hs.update (m := m) hP.total hf (hx o (by simp)).1 o.hist (hx o (by simp)).2
    obtain ⟨r2, s2, h3, h4⟩ := ih ⟨n, PTWData.correct n.data.baseLP (height - n.data.height) n.data.lp, s.adj⟩ h2 (fun o ho => hx o (by simp [ho]))
    refine ⟨PTWData.correct n.data.baseLP (height - n.data.height) n.data.lp - s.logProb + r2, s2, run_cons_ok.mpr ⟨_, _, r2, ?_, h3, rfl⟩, h4⟩
    simp only [predictor, PTWFixedLength.update, h1, ok_bind, pure_eq_ok]

theorem Beyond.sum {I : σ → Prop} {A : List α} {W : ℝ → Prop} (hP : P.UpdateLawful I A W) (hf : I fresh) {s : PTW σ} {xs : List (Obs α)}
    (hi : Beyond P fresh m height s xs) (hs : All I s.tree) (hx : GoodObs A W xs) (h : List α) {w : ℝ} (hw : W w) :
    (A.map fun a => probOf ((predictor P fresh m height).update s a h w)).sum =
      ptwProb (blockProb P fun _ => fresh) m (levels m height (xs.length + 1)) 0 xs /
        ptwProb (blockProb P fun _ => fresh) m (levels m height xs.length) 0 xs := by
  have key : ∀ a ∈ A, probOf ((predictor P fresh m height).update s a h w) =
      ptwProb (blockProb P fun _ => fresh) m (levels m height (xs.length + 1)) 0 (xs ++ [⟨a, h, w⟩]) * (Real.exp s.logProb)⁻¹ := by
    intro a ha
    obtain ⟨n, h1, h2⟩ := hs.update (m := m) hP.total hf ha h hw
    have hu : (predictor P fresh m height).update s a h w = .ok (PTWData.correct n.data.baseLP (height - n.data.height) n.data.lp - s.logProb,
        ⟨n, PTWData.correct n.data.baseLP (height - n.data.height) n.data.lp, s.adj⟩) := by
      simp only [predictor, PTWFixedLength.update, h1, ok_bind, pure_eq_ok]
    obtain ⟨k1, k2⟩ := hi.update (o := ⟨a, h, w⟩) hu
    have k3 := k1.lp
    rw [List.length_append, List.length_singleton] at k3
    rw [hu, probOf_ok, Real.exp_sub, ← k3, div_eq_mul_inv]
  rw [List.map_congr_left key, List.sum_map_mul_right, PTW.blockProb_sum hP (fun _ => hf) hx h hw, hi.lp, div_eq_mul_inv]
  have h1 := levelsFor_spec m (xs.length + 1)
  have : 2 ^ (m + levelsFor m (xs.length + 1)) ≤ 2 ^ (m + levels m height (xs.length + 1)) :=
    Nat.pow_le_pow_right (by norm_num) (by rw [levels]; omega)
  omega

end PTWFixedLength

end Verif
