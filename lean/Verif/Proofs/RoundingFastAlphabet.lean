import Verif.Proofs.RoundingFast
import Verif.Proofs.RoundingAlphabets

/-! Rounding errors of the counts in the C code, for any alphabet. -/

namespace Verif

open Predictor

namespace Arith

variable {R : Arith} {ε : ℝ} {k : ℕ}

/-- The counts of a C node as a base model (modelfast.py:94-100, 128-132). -/
noncomputable def ckt (R : Arith) (k : ℕ) : Predictor (Fin k → ℝ) (Fin k) where
  update s a _ w := .ok (R.cRatio s a, Function.update s a (R.add (s a) w))
  logPredict s a _ := .ok (R.cRatio s a, s)
  copy s := .ok s

theorem cUpdate_eq (hR : R.Accurate ε) (hadd : ∀ x y, R.add x y = R.add y x) (fresh : Fin k → ℝ) (a : Fin k) (h : List (Fin k)) (w : ℝ) (ctx : List (Fin k))
    (n : CTWNode (Fin k → ℝ) (Fin k)) : Except.ok (R.cUpdate fresh a w ctx n) = R.ctwUpdate (R.ckt k) fresh a h w ctx n := by
  have hu : ∀ s, (R.ckt k).update s a h w = .ok (R.cRatio s a, Function.update s a (R.add (s a) w)) := fun _ => rfl
  induction ctx generalizing n with
  | nil =>
    rw [cUpdate, ctwUpdate, hu]
    rfl
  | cons c cs ih =>
    rw [cUpdate, ctwUpdate]
    simp only [hu, ok_bind, ← ih, Fast.lse_eq hR hadd]
    rfl

theorem cLogPredict_eq (hR : R.Accurate ε) (hadd : ∀ x y, R.add x y = R.add y x) (fresh : Fin k → ℝ) (a : Fin k) (h : List (Fin k)) (ctx : List (Fin k))
    (n : CTWNode (Fin k → ℝ) (Fin k)) : Except.ok (R.cLogPredict fresh a ctx n) = R.ctwLogPredict (R.ckt k) fresh a h ctx n := by
  have hp : ∀ s, (R.ckt k).logPredict s a h = .ok (R.cRatio s a, s) := fun _ => rfl
  induction ctx generalizing n with
  | nil =>
    cases n
    rw [cLogPredict, ctwLogPredict, hp]
    rfl
  | cons c cs ih =>
    rw [cLogPredict, ctwLogPredict]
    simp only [hp, ok_bind, ← ih, Fast.lse_eq hR hadd]
    rfl

theorem outputs_congr {σ α : Type} {P Q : Predictor σ α} (hu : P.update = Q.update) (hp : P.logPredict = Q.logPredict) (s : σ) (cs : List (Call α)) :
    P.outputs s cs = Q.outputs s cs := by
  induction cs generalizing s with
  | nil => rfl
  | cons c cs ih =>
    have : P.step s c = Q.step s c := by
      cases c
      · rw [step, step, hu]
      · rw [step, step, hp]
    simp only [outputs, this]
    cases Q.step s c with
    | error e => rfl
    | ok p => simp only [ih]

/-- Rounded and exact counts after the same `m` updates of weight 1. -/
structure CSim (k : ℕ) (ε : ℝ) (m : ℕ) (s' s : Fin k → ℝ) : Prop where
  near : ∀ i, Near (2 * ε * (m + 1)) (s' i) (s i)
  least : ∀ i, 1 / (k : ℝ) ≤ s i
  sum : ((List.finRange k).map s).sum = 1 + m

theorem foldl_counts_near (hR : R.Accurate ε) {ι : Type} {f' f : ι → ℝ} {t : ℝ} (hf : ∀ i, Near t (f' i) (f i)) (l : List ι) {x' x s : ℝ} (hx : Near s x' x) (hs : t ≤ s) :
    Near (s + 2 * ε * l.length) (l.foldl (fun y i => R.add y (f' i)) x') (x + (l.map f).sum) := by
  have e0 := hR.nonneg
  induction l generalizing x' x s with
  | nil => simpa using hx
  | cons i l ih =>
    have h := ih ((hx.add ((hf i).mono hs)).round hR (hR.add x' (f' i))) (by linarith)
    rw [List.foldl_cons, List.map_cons, List.sum_cons, List.length_cons]
    push_cast
    rw [show s + 2 * ε * ((l.length : ℝ) + 1) = s + 2 * ε + 2 * ε * l.length by ring, show x + (f i + (l.map f).sum) = x + f i + (l.map f).sum by ring]
    exact h

theorem CSim.total (hR : R.Accurate ε) [NeZero k] {m : ℕ} {s' s : Fin k → ℝ} (h : CSim k ε m s' s) : Near (2 * ε * (m + k + 1)) (R.cSum s') (1 + m) := by
  have e0 := hR.nonneg
  rw [cSum, ← h.sum]
  obtain ⟨i, l, hl⟩ := List.exists_cons_of_ne_nil (l := List.finRange k) (by simpa using NeZero.ne k)
  have hlen : k = l.length + 1 := by
    have := congrArg List.length hl
    simpa using this
  rw [hl, List.foldl_cons, List.map_cons, List.sum_cons]
  have h1 := (h.near i).round hR (z := R.add 0 (s' i)) (by simpa using hR.add 0 (s' i))
  refine (foldl_counts_near hR h.near l h1 (by linarith)).mono (le_of_eq ?_)
  have : (k : ℝ) = l.length + 1 := by exact_mod_cast hlen
  rw [this]
  ring

theorem sum_replicate_div [NeZero k] : ((List.finRange k).map (Fast.fresh k)).sum = 1 := by
  have hk : (k : ℝ) ≠ 0 := by exact_mod_cast NeZero.ne k
  have : (List.finRange k).map (Fast.fresh k) = List.replicate k (1 / (k : ℝ)) := by
    rw [show Fast.fresh k = fun _ => 1 / (k : ℝ) from rfl, List.map_const', List.length_finRange]
  rw [this, List.sum_replicate, nsmul_eq_mul]
  field_simp

theorem CSim.init (hR : R.Accurate ε) [NeZero k] : CSim k ε 0 (R.cFresh k) (Fast.fresh k) := by
  have hk : (0 : ℝ) < k := by exact_mod_cast Nat.pos_of_ne_zero (NeZero.ne k)
  refine ⟨fun i => ?_, fun i => le_rfl, ?_⟩
  · have := (Near.refl (by positivity : (0 : ℝ) < 1 / k)).round hR (hR.div 1 k hk.ne')
    simpa [cFresh, Fast.fresh] using this
  · rw [sum_replicate_div]
    simp

theorem sum_update (s : Fin k → ℝ) (a : Fin k) (x : ℝ) :
    ((List.finRange k).map (Function.update s a (s a + x))).sum = ((List.finRange k).map s).sum + x := by
  rw [← List.ofFn_eq_map, ← List.ofFn_eq_map, List.sum_ofFn, List.sum_ofFn, Finset.sum_update_of_mem (Finset.mem_univ a),
    ← Finset.add_sum_erase Finset.univ s (Finset.mem_univ a), Finset.sdiff_singleton_eq_erase]
  ring

theorem le_list_sum {s : Fin k → ℝ} (h : ∀ i, 0 ≤ s i) (a : Fin k) : s a ≤ ((List.finRange k).map s).sum := by
  rw [← List.ofFn_eq_map, List.sum_ofFn]
  exact Finset.single_le_sum (fun i _ => h i) (Finset.mem_univ a)

theorem cktBase (hR : R.Accurate ε) [NeZero k] (T : ℕ) :
    BaseSim (R.ckt k) (Fast.kt k) (fun o => o.sym ∈ List.finRange k ∧ o.weight = 1) T
      (ε * (Real.log (k * (T + 1)) + 3 * (2 * T + k + 1))) (Real.log (k * (T + 1))) ⟨CSim k ε, fun _ _ => 0, 0⟩ := by
  have e0 := hR.nonneg
  have hk : (0 : ℝ) < k := by exact_mod_cast Nat.pos_of_ne_zero (NeZero.ne k)
  refine ⟨fun m s' s o hm hs ho => ?_, fun m s' s _ => by simp⟩
  obtain ⟨-, hw⟩ := ho
  have hs : CSim k ε m s' s := hs
  have hmT : (m : ℝ) + 1 ≤ T := by exact_mod_cast hm
  have hm0 : (0 : ℝ) ≤ m := Nat.cast_nonneg m
  have hpos : ∀ i, 0 < s i := fun i => (hs.near i).1
  have ht := hs.total hR
  have hq := ((hs.near o.sym).div ht).round hR (hR.div (s' o.sym) (R.cSum s') ht.pos.ne')
  obtain ⟨-, k2⟩ := hq.log_round hR (by positivity)
  have hle : s o.sym / (1 + m) ≤ 1 := (div_le_one (by linarith)).2 (hs.sum ▸ le_list_sum (fun i => (hpos i).le) o.sym)
  have hqp : 0 < s o.sym / (1 + m) := div_pos (hpos _) (by linarith)
  have hρ : |Real.log (s o.sym / (1 + m))| ≤ Real.log (k * (T + 1)) := by
    rw [abs_of_nonpos (Real.log_nonpos hqp.le hle), ← Real.log_inv, inv_div]
    apply Real.log_le_log (div_pos (by linarith) (hpos _))
    rw [div_le_iff₀ (hpos _)]
    have h1 : 1 ≤ k * s o.sym := by
      have := hs.least o.sym
      rwa [div_le_iff₀ hk, mul_comm] at this
    calc (1 + m : ℝ) ≤ 1 * (T + 1) := by linarith
      _ ≤ k * s o.sym * (T + 1) := mul_le_mul_of_nonneg_right h1 (by linarith)
      _ = _ := by ring
  refine ⟨R.cRatio s' o.sym, Function.update s' o.sym (R.add (s' o.sym) 1), Real.log (s o.sym / (1 + m)), Function.update s o.sym (s o.sym + 1), ?_, ?_, ?_, ?_, hρ⟩
  · rw [hw]
    rfl
  · rw [hw]
    show Except.ok (Fast.logRatio s o.sym, _) = _
    rw [Fast.logRatio, hs.sum]
  · refine ⟨fun i => ?_, fun i => ?_, ?_⟩
    · by_cases hi : i = o.sym
      · subst hi
        simp only [Function.update_self]
        refine (((hs.near o.sym).add ((Near.refl one_pos).mono (by positivity))).round hR (hR.add _ 1)).mono (le_of_eq ?_)
        push_cast
        ring
      · simp only [Function.update_of_ne hi]
        refine (hs.near i).mono ?_
        push_cast
        nlinarith
    · by_cases hi : i = o.sym
      · subst hi
        simp only [Function.update_self]
        linarith [hs.least o.sym]
      · simp only [Function.update_of_ne hi]
        exact hs.least i
    · rw [sum_update, hs.sum]
      push_cast
      ring
  · simp only [sub_zero]
    refine le_trans k2 ?_
    have h1 := mul_le_mul_of_nonneg_left hρ e0
    have h2 : ε * (3 * (2 * m + k + 3)) ≤ ε * (3 * (2 * T + k + 1)) := mul_le_mul_of_nonneg_left (by linarith) e0
    have h3 : 0 ≤ ε * (2 * m + k + 3) := by positivity
    nlinarith

end Arith

end Verif
