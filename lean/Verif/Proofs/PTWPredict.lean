import Verif.Proofs.PTWRun

/-! `log_predict` of `PTW` compared with `update`. -/

namespace Verif

open Predictor

theorem half_lse2_lt {a b b' : ℝ} (h : b < b') : log05 + logsumexp2 a b < log05 + logsumexp2 a b' := by
  apply Real.exp_lt_exp.mp
  rw [exp_half_lse2, exp_half_lse2]
  have := Real.exp_lt_exp.mpr h
  linarith

namespace PTWData

theorem correct_lt {b x y : ℝ} (h : x < y) (j : ℕ) : correct b j x < correct b j y := by
  induction j generalizing x y with
  | zero => exact h
  | succ j ih => exact ih (half_lse2_lt h)

theorem correct_self (x : ℝ) (j : ℕ) : correct x j x = x := by
  induction j with
  | zero => rfl
  | succ j ih => rw [correct, logsumexp2_self, ih]

end PTWData

namespace PTWNode

open PTWData

variable {σ α : Type} {P : Predictor σ α} {m : ℕ} {fr : ℕ → σ}

/-- No node of the chain is complete. -/
def Open : PTWNode σ → Prop
  | leaf d => d.complete = false
  | inner d r => d.complete = false ∧ Open r

/-- Base models predict what they would report on update. -/
def CohAt (P : Predictor σ α) (a : α) (h : List α) (w : ℝ) (s : σ) : Prop :=
  ∀ r s', P.update s a h w = .ok (r, s') → ∃ t, P.logPredict s a h = .ok (r, t)

theorem baseStep_coh {d d' : PTWData σ} {a : α} {h : List α} {w : ℝ} (hc : CohAt P a h w d.base)
    (hs : d.baseStep P a h w = .ok d') :
    ∃ q t, P.logPredict d.base a h = .ok (q, t) ∧ d'.baseLP = d.baseLP + q ∧ d'.height = d.height ∧
      d'.leftLP = d.leftLP ∧ d'.lp = d.lp := by
  simp only [baseStep, bind_eq_ok, pure_eq_ok, Except.ok.injEq, Prod.exists] at hs
  obtain ⟨r, b, hb, rfl⟩ := hs
  obtain ⟨t, ht⟩ := hc r b hb
  exact ⟨r, t, ht, rfl, rfl, rfl, rfl⟩

/-- While no node is complete, `log_predict` computes what `update` will. -/
theorem logPredict_open {n n' : PTWNode σ} {a : α} {h : List α} {w : ℝ} {f : Py σ} (hc : All (CohAt P a h w) n)
    (ho : Open n) (hu : n.update P f m a h w = .ok n') :
    ∃ t, n.logPredict P a h = .ok ((n'.data.lp, n'.data.baseLP, n'.data.height), t) := by
  induction n generalizing n' with
  | leaf d =>
    simp only [Open] at ho
    simp only [update, ho, leafUpdate, bind_eq_ok, pure_eq_ok, Except.ok.injEq, Bool.false_eq_true, if_false] at hu
    obtain ⟨d1, hd, rfl⟩ := hu
    obtain ⟨q, t, h1, h2, h3, h4, h5⟩ := baseStep_coh hc hd
    refine ⟨leaf { d with base := t }, ?_⟩
    simp [logPredict, h1, ho, h2, h3]
  | inner d r ih =>
    simp only [Open] at ho
    simp only [update, ho.1, bind_eq_ok, pure_eq_ok, Except.ok.injEq, Bool.false_eq_true, if_false] at hu
    obtain ⟨d1, hd, r', hr, rfl⟩ := hu
    obtain ⟨q, t, h1, h2, h3, h4, h5⟩ := baseStep_coh hc.1 hd
    obtain ⟨t', ht⟩ := ih hc.2 ho.2 hr
    refine ⟨inner { d with base := t } t', ?_⟩
    simp [logPredict, h1, ho.1, h2, h3, h4, ht, combine]

theorem promoted_lt {d : PTWData σ} {n' : PTWNode σ} {a : α} {h : List α} {w q : ℝ} {f s1 : σ}
    (hc : CohAt P a h w d.base) (hq : P.update f a h w = .ok (q, s1)) (hneg : q < 0)
    (hu : promoted P (.ok f) m d a h w = .ok n') :
    ∃ q' t, P.logPredict d.base a h = .ok (q', t) ∧ n'.data.baseLP = d.baseLP + q' ∧
      n'.data.height = d.height + 1 ∧ n'.data.lp < log05 + logsumexp2 (d.baseLP + q') d.lp := by
  simp only [promoted, ok_bind, bind_eq_ok, pure_eq_ok, Except.ok.injEq] at hu
  obtain ⟨d1, hd, r, hr, rfl⟩ := hu
  obtain ⟨q', t, h1, h2, h3, h4, h5⟩ := baseStep_coh (d := { d with leftLP := d.lp, height := d.height + 1 }) hc hd
  refine ⟨q', t, h1, h2, h3, ?_⟩
  simp only [leafUpdate, baseStep, new_base, hq, ok_bind, pure_eq_ok, Except.ok.injEq] at hr
  subst hr
  simp only [combine, data_leaf, data_inner, PTWData.new, zero_add, correct_self, h2, h4]
  exact half_lse2_lt (by linarith)

/-- When some node is complete, `log_predict` overestimates. -/
theorem logPredict_closed {n n' : PTWNode σ} {a : α} {h : List α} {w q : ℝ} {f s1 : σ}
    (hc : All (CohAt P a h w) n) (ho : ¬ Open n) (hq : P.update f a h w = .ok (q, s1)) (hneg : q < 0)
    (hu : n.update P (.ok f) m a h w = .ok n') :
    ∃ l t, n.logPredict P a h = .ok ((l, n'.data.baseLP, n'.data.height), t) ∧ n'.data.lp < l := by
  induction n generalizing n' with
  | leaf d =>
    simp only [Open, Bool.not_eq_false] at ho
    simp only [update, ho, if_true] at hu
    obtain ⟨q', t, h1, h2, h3, h4⟩ := promoted_lt (d := d) hc hq hneg hu
    exact ⟨_, leaf { d with base := t }, by simp [logPredict, h1, ho, h2, h3], h4⟩
  | inner d r ih =>
    by_cases hd : d.complete = true
    · simp only [update, hd, if_true] at hu
      obtain ⟨q', t, h1, h2, h3, h4⟩ := promoted_lt (d := d) hc.1 hq hneg hu
      exact ⟨_, inner { d with base := t } r, by simp [logPredict, h1, hd, h2, h3], h4⟩
    · rw [Bool.not_eq_true] at hd
      simp only [Open, hd, true_and] at ho
      simp only [update, hd, bind_eq_ok, pure_eq_ok, Except.ok.injEq, Bool.false_eq_true, if_false] at hu
      obtain ⟨d1, hd1, r', hr, rfl⟩ := hu
      obtain ⟨q', t, h1, h2, h3, h4, h5⟩ := baseStep_coh hc.1 hd1
      obtain ⟨l, t', ht, hl⟩ := ih hc.2 ho hr
      refine ⟨log05 + logsumexp2 (d.baseLP + q') (d.leftLP + correct r'.data.baseLP (d.height - r'.data.height - 1) l),
        inner { d with base := t } t', ?_, ?_⟩
      · simp [logPredict, h1, hd, h2, h3, ht, combine]
      · simp only [combine, data_inner, h2, h3, h4]
        apply half_lse2_lt
        have := correct_lt (b := r'.data.baseLP) hl (d.height - r'.data.height - 1)
        linarith

/-- No node is complete exactly when the current minimum-length block is unfinished, or nothing has been seen. -/
theorem Rep.open_iff {t : ℕ} {n : PTWNode σ} {xs : List (Obs α)} (h : Rep P fr m t n xs) :
    Open n ↔ xs = [] ∨ ¬ 2 ^ m ∣ xs.length := by
  induction h with
  | @leaf t d xs h1 h2 h3 h4 =>
    simp only [Open, ← Bool.not_eq_true, complete_iff, h1.count, h2]
    constructor
    · intro hlt
      by_cases hx : xs = []
      · exact .inl hx
      · right
        intro hd
        have := Nat.le_of_dvd (List.length_pos_iff.mpr hx) hd
        omega
    · rintro (rfl | hnd) hle
      · simp at hle
      · exact hnd (by rw [le_antisymm h3 hle])
  | @inner t k d r xs h1 h2 h3 h4 h5 h6 h7 ih =>
    have hne : xs ≠ [] := by
      rintro rfl
      simp at h3
    have hdr : xs.drop (2 ^ (m + k)) ≠ [] := by
      intro h
      have := congrArg List.length h
      simp at this
      omega
    have hdvd : 2 ^ m ∣ 2 ^ (m + k) := pow_dvd_pow 2 (by omega)
    have hdvd' : 2 ^ m ∣ 2 ^ (m + (k + 1)) := pow_dvd_pow 2 (by omega)
    simp only [Open, ih, hne, hdr, false_or, List.length_drop]
    have hiff : 2 ^ m ∣ xs.length - 2 ^ (m + k) ↔ 2 ^ m ∣ xs.length := by
      rw [Nat.dvd_sub_iff_left h3.le hdvd]
    rw [hiff]
    constructor
    · exact fun h => h.2
    · intro h
      refine ⟨?_, h⟩
      rw [← Bool.not_eq_true, complete_iff, h1.count, h2]
      intro hle
      apply h
      rw [le_antisymm h4 hle]
      exact hdvd'

/-- The number of base models. -/
theorem Rep.bases_le {t : ℕ} {n : PTWNode σ} {xs : List (Obs α)} (h : Rep P fr m t n xs) (hne : xs ≠ []) :
    n.bases.length ≤ Nat.log 2 xs.length + 1 := by
  induction h with
  | leaf h1 h2 h3 h4 => simp [bases]
  | @inner t k d r xs h1 h2 h3 h4 h5 h6 h7 ih =>
    have hdr : xs.drop (2 ^ (m + k)) ≠ [] := by
      intro h
      have := congrArg List.length h
      simp at this
      omega
    have hih := ih hdr
    rw [List.length_drop] at hih
    simp only [bases, List.length_cons]
    have hpow : 2 ^ (m + (k + 1)) = 2 ^ (m + k) + 2 ^ (m + k) := by
      rw [show m + (k + 1) = m + k + 1 by omega, pow_succ]; ring
    have hlog : m + k ≤ Nat.log 2 xs.length := Nat.le_log_of_pow_le (by norm_num) h3.le
    by_cases hfull : xs.length = 2 ^ (m + (k + 1))
    · have e1 : xs.length - 2 ^ (m + k) = 2 ^ (m + k) := by omega
      rw [e1, Nat.log_pow (by norm_num)] at hih
      rw [hfull, Nat.log_pow (by norm_num)]
      omega
    · have h8 : xs.length - 2 ^ (m + k) < 2 ^ (m + k) := by omega
      have h9 : Nat.log 2 (xs.length - 2 ^ (m + k)) < m + k := Nat.log_lt_of_lt_pow (by omega) h8
      omega

end PTWNode

end Verif
