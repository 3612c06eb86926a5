import Verif.Spec.PTWMap
import Verif.Proofs.PTW
import Verif.Proofs.Averager

/-! The keys of `PTW.map` against the posterior weights of start times. -/

namespace Verif

open Predictor

namespace TPart

variable {β : Type} {p : ℕ → List β → ℝ} {m : ℕ}

theorem mem_all {k : ℕ} (T : TPart k) : T ∈ all k := by
  induction T with
  | @whole k => cases k <;> simp [all]
  | split l r hl hr =>
    simp only [all, List.mem_cons, List.mem_flatMap, List.mem_map]
    exact Or.inr ⟨l, hl, r, hr, rfl⟩

theorem nodup_all (k : ℕ) : (all k).Nodup := by
  induction k with
  | zero => simp [all]
  | succ k ih =>
    rw [all, List.nodup_cons]
    constructor
    · simp
    · rw [List.nodup_flatMap]
      constructor
      · intro l _
        exact ih.map fun a b h => by simpa using h
      · refine ih.imp ?_
        intro a b hab x hx hy
        simp only [List.mem_map] at hx hy
        obtain ⟨r, _, rfl⟩ := hx
        obtain ⟨r', _, h⟩ := hy
        simp only [split.injEq] at h
        exact hab h.1.symm

theorem sum_all_succ (k : ℕ) (f : TPart (k + 1) → ℝ) :
    ((all (k + 1)).map f).sum = f whole + ((all k).map fun l => ((all k).map fun r => f (split l r)).sum).sum := by
  have h : ∀ L M : List (TPart k), ((L.flatMap fun l => M.map fun r => split l r).map f).sum =
      (L.map fun l => (M.map fun r => f (split l r)).sum).sum := by
    intro L M
    induction L with
    | nil => simp
    | cons a L ih => simp [ih, Function.comp_def]
  rw [all, List.map_cons, List.sum_cons, h]

theorem weight_split (t : ℕ) (xs : List β) {k : ℕ} (l r : TPart k) : (split l r).weight p m t xs =
    1/2 * (l.weight p m t (xs.take (2 ^ (m + k))) * r.weight p m (t + 2 ^ (m + k)) (xs.drop (2 ^ (m + k)))) := by
  simp only [weight, segments, cost, List.map_append, List.prod_append, pow_add, pow_one]
  ring

theorem sum_weight (k t : ℕ) (xs : List β) : ((all k).map fun T => T.weight p m t xs).sum = ptwProb p m k t xs := by
  induction k generalizing t xs with
  | zero => simp [all, weight, segments, cost, ptwProb]
  | succ k ih =>
    rw [sum_all_succ]
    simp only [weight_split, ptwProb, List.sum_map_mul_left, ih, List.sum_map_mul_right]
    simp [weight, segments, cost]

theorem flatten_segments (t : ℕ) (xs : List β) {k : ℕ} (T : TPart k) :
    ((T.segments m t xs).map Prod.snd).flatten = xs := by
  induction T generalizing t xs with
  | whole => simp [segments]
  | split l r hl hr => simp [segments, hl, hr]

theorem lastStart_whole (t : ℕ) {xs : List β} (hx : xs ≠ []) {k : ℕ} :
    (whole : TPart k).lastStart m t xs = some t := by
  cases xs with
  | nil => exact absurd rfl hx
  | cons x xs => simp [lastStart, segments]

theorem filter_nil (t : ℕ) {k : ℕ} (T : TPart k) :
    ((T.segments m t ([] : List β)).filter fun g => !g.2.isEmpty) = [] := by
  rw [List.filter_eq_nil_iff]
  intro g hg
  have h := flatten_segments (m := m) t ([] : List β) T
  rw [List.flatten_eq_nil_iff] at h
  have := h g.2 (List.mem_map_of_mem hg)
  simp [this]

theorem filter_ne_nil (t : ℕ) {xs : List β} (hx : xs ≠ []) {k : ℕ} (T : TPart k) :
    ((T.segments m t xs).filter fun g => !g.2.isEmpty) ≠ [] := by
  intro h
  rw [List.filter_eq_nil_iff] at h
  apply hx
  rw [← flatten_segments (m := m) t xs T, List.flatten_eq_nil_iff]
  intro l hl
  obtain ⟨g, hg, rfl⟩ := List.mem_map.mp hl
  simpa using h g hg

theorem lastStart_left (t : ℕ) {xs : List β} {k : ℕ} (h : xs.length ≤ 2 ^ (m + k)) (l r : TPart k) :
    (split l r).lastStart m t xs = l.lastStart m t xs := by
  simp only [lastStart, segments, List.filter_append]
  rw [List.take_of_length_le h, List.drop_of_length_le h, filter_nil, List.append_nil]

theorem lastStart_right (t : ℕ) {xs : List β} {k : ℕ} (h : 2 ^ (m + k) < xs.length) (l r : TPart k) :
    (split l r).lastStart m t xs = r.lastStart m (t + 2 ^ (m + k)) (xs.drop (2 ^ (m + k))) := by
  simp only [lastStart, segments, List.filter_append]
  rw [List.getLast?_append_of_ne_nil]
  apply filter_ne_nil
  simpa using h

end TPart

section

variable {β : Type} {p : ℕ → List β → ℝ} {m : ℕ}

theorem startWeight_zero (t : ℕ) {xs : List β} (hx : xs ≠ []) (s : ℕ) :
    startWeight p m 0 t xs s = if s = t then p t xs else 0 := by
  simp [startWeight, TPart.all, TPart.lastStart_whole t hx, TPart.weight, TPart.segments, TPart.cost, eq_comm]

theorem startWeight_left (hp : ∀ t, p t [] = 1) (k t : ℕ) {xs : List β} (hx : xs ≠ []) (s : ℕ)
    (h : xs.length ≤ 2 ^ (m + k)) : startWeight p m (k + 1) t xs s =
      1/2 * (if s = t then p t xs else 0) + 1/2 * startWeight p m k t xs s := by
  rw [startWeight, TPart.sum_all_succ]
  congr 1
  · simp only [TPart.lastStart_whole t hx, TPart.weight, TPart.segments, TPart.cost, Option.some.injEq]
    simp [eq_comm]
  · rw [startWeight, ← List.sum_map_mul_left]
    congr 1
    apply List.map_congr_left
    intro l _
    simp only [TPart.lastStart_left t h, TPart.weight_split, List.take_of_length_le h, List.drop_of_length_le h]
    split_ifs
    · simp only [List.sum_map_mul_left, TPart.sum_weight, ptwProb_nil hp, mul_one]
    · simp

theorem startWeight_right (k t : ℕ) {xs : List β} (s : ℕ) (h : 2 ^ (m + k) < xs.length) :
    startWeight p m (k + 1) t xs s = 1/2 * (if s = t then p t xs else 0) + 1/2 *
      (ptwProb p m k t (xs.take (2 ^ (m + k))) * startWeight p m k (t + 2 ^ (m + k)) (xs.drop (2 ^ (m + k))) s) := by
  have hx : xs ≠ [] := by rintro rfl; simp at h
  rw [startWeight, TPart.sum_all_succ]
  congr 1
  · simp only [TPart.lastStart_whole t hx, TPart.weight, TPart.segments, TPart.cost, Option.some.injEq]
    simp [eq_comm]
  · simp only [TPart.lastStart_right t h, TPart.weight_split]
    have : ∀ l : TPart k, (fun r : TPart k => if r.lastStart m (t + 2 ^ (m + k)) (xs.drop (2 ^ (m + k))) = some s then
        1/2 * (l.weight p m t (xs.take (2 ^ (m + k))) * r.weight p m (t + 2 ^ (m + k)) (xs.drop (2 ^ (m + k)))) else 0) =
        fun r => 1/2 * (l.weight p m t (xs.take (2 ^ (m + k))) *
          if r.lastStart m (t + 2 ^ (m + k)) (xs.drop (2 ^ (m + k))) = some s then
            r.weight p m (t + 2 ^ (m + k)) (xs.drop (2 ^ (m + k))) else 0) := by
      intro l
      funext r
      split_ifs <;> simp
    simp only [this, List.sum_map_mul_left, List.sum_map_mul_right, TPart.sum_weight]
    rfl

theorem startWeight_gap (hp : ∀ t, p t [] = 1) (k j t : ℕ) {xs : List β} (hx : xs ≠ []) (s : ℕ)
    (h : xs.length ≤ 2 ^ (m + k)) : startWeight p m (k + j) t xs s =
      (1 - (1/2) ^ j) * (if s = t then p t xs else 0) + (1/2) ^ j * startWeight p m k t xs s := by
  induction j with
  | zero => simp
  | succ j ih =>
    have h' : xs.length ≤ 2 ^ (m + (k + j)) := h.trans (Nat.pow_le_pow_right (by norm_num) (by omega))
    rw [← add_assoc, startWeight_left hp _ t hx s h', ih, pow_succ]
    ring

end

namespace PTWNode

variable {σ α : Type} {P : Predictor σ α} {fr : ℕ → σ} {m : ℕ}

theorem startWeight_ne {β : Type} {p : ℕ → List β → ℝ} (hp : ∀ t, p t [] = 1) {k j t : ℕ} {xs : List β}
    (h1 : 2 ^ (m + k) < xs.length) (h2 : xs.length ≤ 2 ^ (m + (k + 1))) {s : ℕ} (hs : s ≠ t) :
    startWeight p m (k + 1 + j) t xs s = (1/2) ^ j * (1/2 *
      (ptwProb p m k t (xs.take (2 ^ (m + k))) * startWeight p m k (t + 2 ^ (m + k)) (xs.drop (2 ^ (m + k))) s)) := by
  have hx : xs ≠ [] := by rintro rfl; simp at h1
  rw [startWeight_gap hp (k + 1) j t hx s h2, startWeight_right k t s h1]
  simp [hs]

/-- No start time before the block has weight. -/
theorem startWeight_lt {β : Type} {p : ℕ → List β → ℝ} (hp : ∀ t, p t [] = 1) (k : ℕ) {t s : ℕ} {xs : List β}
    (hx : xs ≠ []) (h : s < t) : startWeight p m k t xs s = 0 := by
  induction k generalizing t xs with
  | zero => rw [startWeight_zero t hx, if_neg (by omega)]
  | succ k ih =>
    by_cases hl : xs.length ≤ 2 ^ (m + k)
    · rw [startWeight_left hp k t hx s hl, ih hx h, if_neg (by omega)]
      simp
    · rw [not_le] at hl
      rw [startWeight_right k t s hl, ih (by simpa using hl) (Nat.lt_add_right _ h), if_neg (by omega)]
      simp

/-- The start of the block itself has at least half of the base probability when there are levels left, and all of it
when the block does not exceed the minimum. -/
theorem startWeight_self {β : Type} {p : ℕ → List β → ℝ} (hp : ∀ t, p t [] = 1) (h0 : ∀ t xs, 0 ≤ p t xs)
    (k : ℕ) {t : ℕ} {xs : List β} (hx : xs ≠ []) :
    startWeight p m k t xs t ≤ p t xs ∧ p t xs ≤ 2 ^ k * startWeight p m k t xs t := by
  have hpt := h0 t xs
  have key : ∀ k, startWeight p m k t xs t ≤ p t xs ∧
      (1/2 : ℝ) * p t xs ≤ startWeight p m k t xs t := by
    intro k
    induction k with
    | zero => rw [startWeight_zero t hx, if_pos rfl]; constructor <;> linarith
    | succ k ih =>
      by_cases hl : xs.length ≤ 2 ^ (m + k)
      · rw [startWeight_left hp k t hx t hl, if_pos rfl]
        constructor <;> linarith [ih.1, ih.2]
      · rw [not_le] at hl
        rw [startWeight_right k t t hl, startWeight_lt hp k (by simpa using hl)
          (show t < t + 2 ^ (m + k) from Nat.lt_add_of_pos_right (by positivity)), if_pos rfl]
        constructor <;> linarith
  refine ⟨(key k).1, ?_⟩
  cases k with
  | zero => rw [startWeight_zero t hx, if_pos rfl]; simp
  | succ k =>
    have h1 : (1 : ℝ) ≤ 2 ^ k := one_le_pow₀ (by norm_num)
    have h2 := (key (k + 1)).2
    rw [pow_succ]
    nlinarith

/-- Every candidate of `map` is the model of some start time, and its key is at least the posterior weight of that start
time and at most `2 ^ k` times it. -/
theorem mapNodes_spec {t : ℕ} {n : PTWNode σ} {xs : List (Obs α)} (hr : Rep P fr m t n xs) (hx : xs ≠ []) (k : ℕ)
    (hk : xs.length ≤ 2 ^ (m + k)) (left : ℝ) (c : σ × ℝ) (hc : c ∈ mapNodes left n) :
    ∃ s r, t ≤ s ∧ s < t + xs.length ∧ P.run (fr s) (xs.drop (s - t)) = .ok (r, c.1) ∧
      Real.exp left * startWeight (blockProb P fr) m k t xs s ≤ Real.exp c.2 ∧
      Real.exp c.2 ≤ 2 ^ k * (Real.exp left * startWeight (blockProb P fr) m k t xs s) := by
  have hself : ∀ {t : ℕ} {d : PTWData σ} {xs : List (Obs α)} {left : ℝ} {k : ℕ}, Core P (fr t) d xs → xs ≠ [] →
      c = (d.base, d.baseLP + left) → ∃ s r, t ≤ s ∧ s < t + xs.length ∧
      P.run (fr s) (xs.drop (s - t)) = .ok (r, c.1) ∧
      Real.exp left * startWeight (blockProb P fr) m k t xs s ≤ Real.exp c.2 ∧
      Real.exp c.2 ≤ 2 ^ k * (Real.exp left * startWeight (blockProb P fr) m k t xs s) := by
    intro t d xs left k hcore hx hc
    subst hc
    have hb : Real.exp d.baseLP = blockProb P fr t xs := hcore.exp_base
    obtain ⟨h1, h2⟩ := startWeight_self (m := m) (blockProb_nil P fr) (fun t xs => P.seqProb_nonneg _ xs) k
      (t := t) hx
    have h3 := Real.exp_pos left
    refine ⟨t, d.baseLP, le_rfl, Nat.lt_add_of_pos_right (List.length_pos_iff.mpr hx), by simpa using hcore.run,
      ?_, ?_⟩
    · simp only [Real.exp_add, hb]
      nlinarith
    · simp only [Real.exp_add, hb]
      nlinarith
  induction hr generalizing k left with
  | leaf h1 h2 h3 h4 =>
    simp only [mapNodes, List.mem_singleton] at hc
    exact hself h1 hx hc
  | @inner t l d r xs h1 h2 h3 h4 h5 h6 h7 ih =>
    simp only [mapNodes, List.mem_cons] at hc
    rcases hc with hc | hc
    · exact hself h1 hx hc
    · have hlk : l + 1 ≤ k := by
        by_contra hcon
        have : 2 ^ (m + k) ≤ 2 ^ (m + l) := Nat.pow_le_pow_right (by norm_num) (by omega)
        omega
      obtain ⟨j, rfl⟩ := Nat.exists_eq_add_of_le hlk
      have hdrop : (xs.drop (2 ^ (m + l))).length = xs.length - 2 ^ (m + l) := List.length_drop
      obtain ⟨s, q, ha, hb, hc1, hc2, hc3⟩ := ih (by simpa using h3) l (by
        rw [hdrop]
        have : 2 ^ (m + (l + 1)) = 2 ^ (m + l) + 2 ^ (m + l) := by rw [← add_assoc, pow_succ]; ring
        omega) _ hc
      have hpos : 0 < 2 ^ (m + l) := by positivity
      refine ⟨s, q, by omega, by omega, ?_, ?_, ?_⟩
      · rw [List.drop_drop] at hc1
        rw [← hc1]
        congr 2
        omega
      all_goals
        rw [startWeight_ne (blockProb_nil P fr) h3 h4 (by omega)]
        rw [Real.exp_add, Real.exp_add, exp_log05, h5] at hc2 hc3
        generalize startWeight (blockProb P fr) m l (t + 2 ^ (m + l)) (xs.drop (2 ^ (m + l))) s = W at *
        generalize ptwProb (blockProb P fr) m l t (xs.take (2 ^ (m + l))) = V at *
        have hj1 : (1/2 : ℝ) ^ j ≤ 1 := pow_le_one₀ (by norm_num) (by norm_num)
        have hj2 : (2 : ℝ) ^ j * (1/2) ^ j = 1 := by rw [← mul_pow]; norm_num
        have hj3 : (0 : ℝ) < (1/2) ^ j := by positivity
        have hl1 : (1 : ℝ) ≤ 2 ^ l := one_le_pow₀ (by norm_num)
        have hy : 0 ≤ Real.exp left * (V * (1/2)) * W := by
          by_contra hneg
          have := Real.exp_pos c.2
          rw [not_le] at hneg
          nlinarith
      · calc Real.exp left * ((1/2) ^ j * (1/2 * (V * W))) = (1/2) ^ j * (Real.exp left * (V * (1/2)) * W) := by ring
          _ ≤ 1 * (Real.exp left * (V * (1/2)) * W) := by gcongr
          _ ≤ Real.exp c.2 := by rw [one_mul]; exact hc2
      · calc Real.exp c.2 ≤ 2 ^ l * (Real.exp left * (V * (1/2)) * W) := hc3
          _ ≤ 2 * (2 ^ l * (Real.exp left * (V * (1/2)) * W)) := by nlinarith [mul_nonneg (le_trans zero_le_one hl1) hy]
          _ = 2 * (2 ^ l * (Real.exp left * (V * (1/2)) * W)) * (2 ^ j * (1/2) ^ j) := by rw [hj2, mul_one]
          _ = 2 ^ (l + 1 + j) * (Real.exp left * ((1/2) ^ j * (1/2 * (V * W)))) := by
            rw [pow_add, pow_succ]; ring

/-- Every start time has a candidate whose key is at least its posterior weight, unless the weight is zero. -/
theorem mapNodes_complete {t : ℕ} {n : PTWNode σ} {xs : List (Obs α)} (hr : Rep P fr m t n xs) (hx : xs ≠ []) (k : ℕ)
    (hk : xs.length ≤ 2 ^ (m + k)) (left : ℝ) (s : ℕ) : ∃ c ∈ mapNodes left n,
      Real.exp left * startWeight (blockProb P fr) m k t xs s ≤ Real.exp c.2 := by
  have hself : ∀ {t : ℕ} {d : PTWData σ} {xs : List (Obs α)} {left : ℝ} {k : ℕ}, Core P (fr t) d xs → xs ≠ [] →
      Real.exp left * startWeight (blockProb P fr) m k t xs t ≤ Real.exp (d.baseLP + left) := by
    intro t d xs left k hcore hx
    have hb : Real.exp d.baseLP = blockProb P fr t xs := hcore.exp_base
    obtain ⟨h1, h2⟩ := startWeight_self (m := m) (blockProb_nil P fr) (fun t xs => P.seqProb_nonneg _ xs) k
      (t := t) hx
    have h3 := Real.exp_pos left
    rw [Real.exp_add, hb]
    nlinarith
  induction hr generalizing k left with
  | @leaf t d xs h1 h2 h3 h4 =>
    refine ⟨_, List.mem_singleton.mpr rfl, ?_⟩
    by_cases hs : s = t
    · subst hs; exact hself h1 hx
    · obtain rfl | ⟨k, rfl⟩ : k = 0 ∨ ∃ j, k = 0 + j := ⟨k, by simp⟩ |> Or.inr
      · rw [startWeight_zero t hx, if_neg hs, mul_zero]; exact (Real.exp_pos _).le
      · rw [startWeight_gap (blockProb_nil P fr) 0 k t hx s h3, startWeight_zero t hx, if_neg hs]
        simpa using (Real.exp_pos _).le
  | @inner t l d r xs h1 h2 h3 h4 h5 h6 h7 ih =>
    by_cases hs : s = t
    · subst hs; exact ⟨_, List.mem_cons_self, hself h1 hx⟩
    · have hlk : l + 1 ≤ k := by
        by_contra hcon
        have : 2 ^ (m + k) ≤ 2 ^ (m + l) := Nat.pow_le_pow_right (by norm_num) (by omega)
        omega
      obtain ⟨j, rfl⟩ := Nat.exists_eq_add_of_le hlk
      have hdrop : (xs.drop (2 ^ (m + l))).length = xs.length - 2 ^ (m + l) := List.length_drop
      obtain ⟨c, hc, hle⟩ := ih (by simpa using h3) l (by
        rw [hdrop]
        have : 2 ^ (m + (l + 1)) = 2 ^ (m + l) + 2 ^ (m + l) := by rw [← add_assoc, pow_succ]; ring
        omega) (left + (d.leftLP + log05))
      refine ⟨c, List.mem_cons_of_mem _ hc, ?_⟩
      rw [startWeight_ne (blockProb_nil P fr) h3 h4 hs]
      rw [Real.exp_add, Real.exp_add, exp_log05, h5] at hle
      generalize startWeight (blockProb P fr) m l (t + 2 ^ (m + l)) (xs.drop (2 ^ (m + l))) s = W at *
      generalize ptwProb (blockProb P fr) m l t (xs.take (2 ^ (m + l))) = V at *
      have hj1 : (1/2 : ℝ) ^ j ≤ 1 := pow_le_one₀ (by norm_num) (by norm_num)
      have hj3 : (0 : ℝ) < (1/2) ^ j := by positivity
      have hc := Real.exp_pos c.2
      calc Real.exp left * ((1/2) ^ j * (1/2 * (V * W))) = (1/2) ^ j * (Real.exp left * (V * (1/2)) * W) := by ring
        _ ≤ (1/2) ^ j * Real.exp c.2 := by gcongr
        _ ≤ 1 * Real.exp c.2 := by gcongr
        _ = Real.exp c.2 := one_mul _

/-- The weights of all start times add up to the mixture. -/
theorem sum_startWeight {β : Type} {p : ℕ → List β → ℝ} (hp : ∀ t, p t [] = 1) (k t N : ℕ) {xs : List β} (hx : xs ≠ [])
    (hN : t + xs.length ≤ N) :
    ∑ s ∈ Finset.range N, startWeight p m k t xs s = ptwProb p m k t xs := by
  have hpos : 0 < xs.length := List.length_pos_iff.mpr hx
  have hself : ∀ (xs : List β) (t : ℕ), t < N →
      ∑ s ∈ Finset.range N, (if s = t then p t xs else 0) = p t xs := by
    intro xs t ht
    rw [Finset.sum_ite_eq' (Finset.range N) t (fun _ => p t xs), if_pos (Finset.mem_range.mpr ht)]
  induction k generalizing t xs with
  | zero =>
    simp only [startWeight_zero t hx, ptwProb]
    exact hself xs t (by omega)
  | succ k ih =>
    by_cases hl : xs.length ≤ 2 ^ (m + k)
    · simp only [startWeight_left hp k t hx _ hl, Finset.sum_add_distrib, ← Finset.mul_sum]
      rw [hself xs t (by omega), ih t hx hN hpos, ptwProb_succ_of_le hp hl]
    · rw [not_le] at hl
      simp only [startWeight_right k t _ hl, Finset.sum_add_distrib, ← Finset.mul_sum]
      rw [hself xs t (by omega), ih _ (by simpa using hl) (by simp; omega) (by simpa using hl)]
      rfl

end PTWNode

end Verif
