import Verif.Proofs.PTWRun

/-! Redundancy of partition tree weighting. -/

namespace Verif

open Predictor

section Spec

variable {β : Type} {p : ℕ → List β → ℝ} {m : ℕ}

theorem ptwProb_ge_half (hp : ∀ t xs, 0 ≤ p t xs) (k t : ℕ) (xs : List β) :
    1/2 * p t xs ≤ ptwProb p m k t xs := by
  cases k with
  | zero => simp only [ptwProb]; linarith [hp t xs]
  | succ k =>
    simp only [ptwProb]
    have := mul_nonneg (ptwProb_nonneg (m := m) hp k t (xs.take (2 ^ (m + k))))
      (ptwProb_nonneg (m := m) hp k (t + 2 ^ (m + k)) (xs.drop (2 ^ (m + k))))
    linarith

namespace TPart

theorem prod_nonneg (hp : ∀ t xs, 0 ≤ p t xs) (l : List (ℕ × List β)) :
    0 ≤ (l.map fun s => p s.1 s.2).prod := by
  apply List.prod_nonneg
  intro x hx
  simp only [List.mem_map] at hx
  obtain ⟨s, _, rfl⟩ := hx
  exact hp _ _

theorem ptwProb_ge (hp : ∀ t xs, 0 ≤ p t xs) {k : ℕ} (T : TPart k) (t : ℕ) (xs : List β) :
    (1/2 : ℝ) ^ T.cost * ((T.segments m t xs).map fun s => p s.1 s.2).prod ≤ ptwProb p m k t xs := by
  induction T generalizing t xs with
  | @whole k =>
    cases k with
    | zero => simp [cost, segments, ptwProb]
    | succ k =>
      simp only [cost, segments, List.map_cons, List.map_nil, List.prod_cons, List.prod_nil, mul_one, pow_one]
      exact ptwProb_ge_half hp _ _ _
  | @split k l r ihl ihr =>
    simp only [cost, segments, ptwProb, List.map_append, List.prod_append]
    have h1 := ihl t (xs.take (2 ^ (m + k)))
    have h2 := ihr (t + 2 ^ (m + k)) (xs.drop (2 ^ (m + k)))
    have h3 := mul_le_mul h1 h2 (mul_nonneg (by positivity) (prod_nonneg hp _)) (ptwProb_nonneg hp _ _ _)
    have h4 := hp t xs
    rw [pow_add, pow_add, pow_one]
    nlinarith [h3, h4]

theorem cost_lt {k : ℕ} (T : TPart k) : T.cost + 1 ≤ 2 * T.size := by
  induction T with
  | @whole k => cases k <;> simp [cost, size]
  | split l r ihl ihr =>
    simp only [cost, size]
    omega

theorem segments_length {k : ℕ} (T : TPart k) (t : ℕ) (xs : List β) : (T.segments m t xs).length = T.size := by
  induction T generalizing t xs with
  | whole => rfl
  | split l r ihl ihr => simp [segments, size, ihl, ihr]

theorem segments_flatten {k : ℕ} (T : TPart k) (t : ℕ) (xs : List β) :
    ((T.segments m t xs).map Prod.snd).flatten = xs := by
  induction T generalizing t xs with
  | whole => simp [segments]
  | split l r ihl ihr => simp [segments, ihl, ihr]

end TPart

end Spec

namespace PTW

open PTWNode

variable {σ α : Type} {P : Predictor σ α} {fr : ℕ → σ} {m : ℕ}

theorem exp_adjusted_ge {s : PTW σ} {xs : List (Obs α)} (hi : Inv P fr m s xs)
    (ha : (2/3 : ℝ) ^ levelsFor m xs.length ≤ Real.exp s.adj) :
    (2/3 : ℝ) ^ levelsFor m (xs.length + 1) ≤ Real.exp s.adjusted := by
  have hnext := levelsFor_next m xs.length
  have hh := hi.rep.height
  have hcount := hi.rep.core.count
  simp only [adjusted]
  split_ifs with hc
  · rw [PTWData.complete_iff, hcount, hh] at hc
    have heq : xs.length = 2 ^ (m + levelsFor m xs.length) := le_antisymm (levelsFor_spec m xs.length) hc
    rw [if_pos heq] at hnext
    rw [hnext, pow_succ, Real.exp_add]
    refine mul_le_mul ha ?_ (by norm_num) (Real.exp_pos _).le
    rw [Real.exp_sub, exp_half_lse2, le_div_iff₀ (by positivity)]
    have h1 : 1/2 * Real.exp s.tree.data.baseLP ≤ Real.exp s.tree.data.lp := by
      rw [hi.rep.exp_lp, hi.rep.core.exp_base]
      exact ptwProb_ge_half (p := blockProb P fr) (fun t xs => P.seqProb_nonneg _ _) _ 0 xs
    linarith
  · rw [PTWData.complete_iff, hcount, hh, not_le] at hc
    rw [if_neg (by omega)] at hnext
    rw [hnext]
    exact ha

theorem run_adj {fresh : σ} {xs ys : List (Obs α)} {s s' : PTW σ} {r : ℝ} (hi : Inv P (fun _ => fresh) m s xs)
    (ha : (2/3 : ℝ) ^ levelsFor m xs.length ≤ Real.exp s.adj)
    (hr : (predictor P fresh m).run s ys = .ok (r, s')) :
    (2/3 : ℝ) ^ levelsFor m (xs ++ ys).length ≤ Real.exp s'.adj ∧ r = s'.logProb - s.logProb := by
  induction ys generalizing xs s r with
  | nil =>
    simp only [Predictor.run, pure_eq_ok, Except.ok.injEq, Prod.mk.injEq] at hr
    obtain ⟨rfl, rfl⟩ := hr
    rw [List.append_nil]
    exact ⟨ha, by ring⟩
  | cons o ys ih =>
    rw [run_cons_ok] at hr
    obtain ⟨r1, s1, r2, h1, h2, rfl⟩ := hr
    have hi' := (hi.update (o := o) h1).1
    have hadj := exp_adjusted_ge hi ha
    simp only [predictor, PTW.update, bind_eq_ok, pure_eq_ok, Except.ok.injEq, Prod.mk.injEq] at h1
    obtain ⟨n, hn, rfl, rfl⟩ := h1
    have := ih hi' (by simpa using hadj) h2
    rw [List.append_assoc, List.singleton_append] at this
    refine ⟨this.1, ?_⟩
    rw [this.2]
    ring

end PTW

end Verif
