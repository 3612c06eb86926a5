import Verif.Model.LogStore
import Verif.Proofs.Helpers
import Mathlib.Tactic.Linarith
import Mathlib.Data.List.Sort

/-! Closed forms of the model stores. -/

namespace Verif

namespace LogStore

variable {β : Type}

/-- The store after adding `g 0, ..., g (n - 1)`. -/
def form (n : ℕ) (g : ℕ → β) : LogStore β :=
  if n = 0 then [] else (g (n - 1), n % 2 == 1) :: form (n / 2) (fun i => g (2 * i))
termination_by n

theorem form_zero (g : ℕ → β) : form 0 g = [] := by
  rw [form]; simp

theorem form_pos {n : ℕ} (h : n ≠ 0) (g : ℕ → β) :
    form n g = (g (n - 1), n % 2 == 1) :: form (n / 2) (fun i => g (2 * i)) := by
  rw [form]; simp [h]

theorem add_form (n : ℕ) (g : ℕ → β) : add (form n g) (g n) = form (n + 1) g := by
  induction n using Nat.strong_induction_on generalizing g with
  | _ n ih =>
    by_cases h0 : n = 0
    · subst h0
      rw [form_zero, form_pos (by norm_num)]
      simp [add, form_zero]
    · rw [form_pos h0, form_pos (n := n + 1) (by omega)]
      rcases Nat.mod_two_eq_zero_or_one n with h | h
      · have e1 : (n % 2 == 1) = false := by simp [h]
        have e2 : ((n + 1) % 2 == 1) = true := by simp; omega
        have e3 : (n + 1) / 2 = n / 2 := by omega
        rw [e1, e2, e3, add, Nat.add_sub_cancel]
      · have e1 : (n % 2 == 1) = true := by simp [h]
        have e2 : ((n + 1) % 2 == 1) = false := by simp; omega
        have e3 : (n + 1) / 2 = n / 2 + 1 := by omega
        have e4 : n - 1 = 2 * (n / 2) := by omega
        rw [e1, e2, e3, add, Nat.add_sub_cancel, e4]
        rw [ih (n / 2) (by omega) (fun i => g (2 * i))]

theorem form_getElem (n : ℕ) (g : ℕ → β) (j : ℕ) :
    (form n g)[j]? = if 2 ^ j ≤ n then some (g (2 ^ j * (n / 2 ^ j - 1)), n / 2 ^ j % 2 == 1) else none := by
  induction j generalizing n g with
  | zero =>
    by_cases h0 : n = 0
    · simp [h0, form_zero]
    · rw [form_pos h0]
      simp; omega
  | succ j ih =>
    by_cases h0 : n = 0
    · simp [h0, form_zero]
    · rw [form_pos h0, List.getElem?_cons_succ, ih]
      have e1 : 2 ^ j ≤ n / 2 ↔ 2 ^ (j + 1) ≤ n := by
        rw [pow_succ, Nat.le_div_iff_mul_le (by norm_num)]
      have e2 : n / 2 / 2 ^ j = n / 2 ^ (j + 1) := by
        rw [Nat.div_div_eq_div_mul, pow_succ, mul_comm]
      simp only [e1, e2]
      congr 3
      rw [pow_succ]
      congr 1
      ring

theorem foldl_form (xs : List β) (g : ℕ → β) (hg : ∀ (i : ℕ) (h : i < xs.length), xs[i] = g i) :
    xs.foldl add [] = form xs.length g := by
  induction xs using List.reverseRecOn with
  | nil => simp [form_zero]
  | append_singleton xs x ih =>
    rw [List.foldl_append, List.foldl_cons, List.foldl_nil, ih]
    · have hx : x = g xs.length := by
        have := hg xs.length (by simp)
        simpa using this
      rw [hx, add_form, List.length_append, List.length_singleton]
    · intro i h
      rw [← hg i (by simp; omega), List.getElem_append_left h]

theorem form_length (n : ℕ) (g : ℕ → β) : (form n g).length = if n = 0 then 0 else Nat.log 2 n + 1 := by
  induction n using Nat.strong_induction_on generalizing g with
  | _ n ih =>
    by_cases h0 : n = 0
    · simp [h0, form_zero]
    · rw [form_pos h0, List.length_cons, ih (n / 2) (by omega), if_neg h0]
      by_cases h1 : n = 1
      · subst h1; simp
      · have h2 : n / 2 ≠ 0 := by omega
        rw [if_neg h2, Nat.log_of_one_lt_of_le (b := 2) (by norm_num) (by omega : 2 ≤ n)]

theorem add_eq_erase (n : ℕ) (g : ℕ → β) (x : β) :
    (add (form n g) x).items = x :: (form n g).items.eraseIdx (mscb n) := by
  induction n using Nat.strong_induction_on generalizing g x with
  | _ n ih =>
    by_cases h0 : n = 0
    · subst h0
      simp [form_zero, add, items]
    · rw [form_pos h0]
      rcases Nat.even_or_odd' n with ⟨m, rfl | rfl⟩
      · have e1 : (2 * m % 2 == 1) = false := by simp
        rw [e1, mscb_even, add]
        simp [items]
      · have e1 : ((2 * m + 1) % 2 == 1) = true := by simp
        have e2 : (2 * m + 1) / 2 = m := by omega
        rw [e1, e2, mscb_odd, add]
        have := ih m (by omega) (fun i => g (2 * i)) (g (2 * m + 1 - 1))
        simp only [items, List.map_cons, List.eraseIdx_cons_succ] at this ⊢
        rw [this]

end LogStore

namespace LearnersLogStore

variable {β : Type}

theorem foldl_eq (xs : List β) : (xs.foldl add init).items = (xs.foldl LogStore.add []).items ∧
    (xs.foldl add init).t = xs.length := by
  induction xs using List.reverseRecOn with
  | nil => exact ⟨rfl, rfl⟩
  | append_singleton xs x ih =>
    rw [List.foldl_append, List.foldl_append, List.foldl_cons, List.foldl_nil, List.foldl_cons, List.foldl_nil]
    constructor
    · rw [LogStore.foldl_form xs (fun i => xs.getD i x), LogStore.add_eq_erase, ← LogStore.foldl_form xs (fun i => xs.getD i x)]
      · simp only [add]
        rw [ih.1, ih.2]
      all_goals
        intro i h
        simp [h]
    · simp [add, ih.2]

end LearnersLogStore

namespace LogStoreUniform

variable {β : Type}

/-- Positions kept in phase `k` at stage `j`, in units of the gap `2 ^ k`. -/
def units (k j : ℕ) : List ℕ :=
  if j = 0 then List.range (k + 1)
  else (List.range j).map (2 * ·) ++ List.range' (2 * j - 1) (k + 2 - j)

theorem units_length {k j : ℕ} (h : j ≤ k + 1) : (units k j).length = if j = 0 then k + 1 else k + 2 := by
  unfold units
  split_ifs
  · simp
  · simp; omega

/-- The last position kept, in units of the gap. -/
def lastUnit (k j : ℕ) : ℕ := k + j

/-- One step within a phase: append the next unit, delete at `j` (not at stage 0). -/
theorem units_step_zero (k : ℕ) : units k 0 ++ [k + 1] = units k 1 := by
  simp only [units]
  norm_num
  apply List.ext_getElem
  · simp
  · intro i h1 h2
    simp only [List.getElem_append, List.getElem_range, List.getElem_cons, List.getElem_range']
    simp at h1 h2 ⊢
    split_ifs <;> omega

theorem units_step {k j : ℕ} (h1 : 1 ≤ j) (h2 : j ≤ k + 1) :
    (units k j ++ [k + j + 1]).eraseIdx j =
      if j = k + 1 then (List.range (k + 2)).map (2 * ·) else units k (j + 1) := by
  have hr : List.range' (2 * j - 1) (k + 2 - j) ++ [k + j + 1] = List.range' (2 * j - 1) (k + 3 - j) := by
    have : k + 3 - j = k + 2 - j + 1 := by omega
    rw [this, List.range'_concat]
    congr 2
    omega
  have hr2 : List.range' (2 * j - 1) (k + 3 - j) = (2 * j - 1) :: List.range' (2 * j) (k + 2 - j) := by
    have : k + 3 - j = k + 2 - j + 1 := by omega
    rw [this, List.range'_succ]
    congr 2
    omega
  have hr3 : List.range' (2 * j) (k + 2 - j) = (2 * j) :: List.range' (2 * j + 1) (k + 1 - j) := by
    have : k + 2 - j = k + 1 - j + 1 := by omega
    rw [this, List.range'_succ]
  unfold units
  rw [if_neg (by omega), List.append_assoc, hr, hr2, List.eraseIdx_append_of_length_le (by simp)]
  simp only [List.length_map, List.length_range, Nat.sub_self, List.eraseIdx_zero, List.tail_cons]
  rw [hr3]
  have hcons : (List.range j).map (2 * ·) ++ (2 * j) :: List.range' (2 * j + 1) (k + 1 - j) =
      (List.range (j + 1)).map (2 * ·) ++ List.range' (2 * j + 1) (k + 1 - j) := by
    rw [List.range_succ, List.map_append]
    simp
  rw [hcons]
  by_cases hj : j = k + 1
  · rw [if_pos hj]
    subst hj
    simp
  · rw [if_neg hj, if_neg (by omega)]
    rw [show 2 * (j + 1) - 1 = 2 * j + 1 by omega, show k + 2 - (j + 1) = k + 1 - j by omega]

/-- The state after adding `g 0, ..., g (n - 1)`: phase, stage and remaining skips. -/
structure Form (g : ℕ → β) (n : ℕ) (s : LogStoreUniform β) (k j : ℕ) : Prop where
  stage : j ≤ k + 1
  items : s.items = (units k j).map fun u => g (u * 2 ^ k)
  gap : s.gap = 2 ^ k
  idx : s.indexToRemove = j
  skip : s.numToSkip < 2 ^ k
  count : n + s.numToSkip = (lastUnit k j + 1) * 2 ^ k

theorem form_add {g : ℕ → β} {n : ℕ} {s : LogStoreUniform β} {k j : ℕ} (h : Form g n s k j) :
    ∃ k' j', Form g (n + 1) (add s (g n)) k' j' := by
  obtain ⟨h1, h2, h3, h4, h5, h6⟩ := h
  have hpos : 0 < 2 ^ k := by positivity
  by_cases hs : s.numToSkip = 0
  · rw [hs, add_zero] at h6
    have hg : g n = (fun u => g (u * 2 ^ k)) (k + j + 1) := by
      simp only [h6, lastUnit]
    by_cases hj : j = 0
    · subst hj
      refine ⟨k, 1, ?_⟩
      have hitems : s.items ++ [g n] = (units k 1).map fun u => g (u * 2 ^ k) := by
        rw [← units_step_zero, List.map_append, h2, List.map_singleton, hg]
      have hlen : ((s.items ++ [g n]).length : ℤ) = k + 2 := by
        rw [hitems, List.length_map, units_length (by omega)]
        simp
      have hadd : add s (g n) = ⟨s.items ++ [g n], s.gap, 1, s.gap - 1⟩ := by
        simp only [add, hs, ne_eq, not_true_eq_false, if_false, h4, Nat.cast_zero, lt_irrefl]
        rw [if_neg (by rw [hlen]; omega)]
        simp
      rw [hadd]
      refine ⟨by omega, hitems, h3, by simp, ?_, ?_⟩
      · simp only [h3]; omega
      · simp only [h3]
        have : n + 1 + (2 ^ k - 1) = n + 2 ^ k := by omega
        rw [this, h6]
        simp only [lastUnit]
        ring
    · have hstep := units_step (k := k) (j := j) (by omega) h1
      have hitems : (s.items ++ [g n]).eraseIdx j =
          ((units k j ++ [k + j + 1]).eraseIdx j).map fun u => g (u * 2 ^ k) := by
        rw [← List.eraseIdx_map, List.map_append, h2, List.map_singleton, hg]
      have hbase : add s (g n) = if (((s.items ++ [g n]).eraseIdx j).length : ℤ) ≤ j + 1 then
            ⟨(s.items ++ [g n]).eraseIdx j, s.gap * 2, 0, s.gap * 2 - 1⟩
          else ⟨(s.items ++ [g n]).eraseIdx j, s.gap, j + 1, s.gap - 1⟩ := by
        have hj' : (0 : ℤ) < j := by omega
        simp only [add, hs, ne_eq, not_true_eq_false, if_false, h4, hj', if_true, Int.toNat_natCast]
      rw [hbase, hitems, hstep]
      by_cases hk : j = k + 1
      · rw [if_pos hk]
        refine ⟨k + 1, 0, ?_⟩
        rw [if_pos (by simp [hk]; omega)]
        refine ⟨by omega, ?_, by simp [h3, pow_succ], by simp, ?_, ?_⟩
        · simp only [units, if_true, List.map_map]
          apply List.map_congr_left
          intro u _
          simp only [Function.comp]
          rw [pow_succ]
          congr 1
          ring
        · simp only [h3, pow_succ]; omega
        · simp only [h3, lastUnit]
          have e : n + 1 + (2 ^ k * 2 - 1) = n + 2 ^ k * 2 := by omega
          rw [e, h6, lastUnit, hk, pow_succ]
          ring
      · rw [if_neg hk]
        refine ⟨k, j + 1, ?_⟩
        have hlen : (units k (j + 1)).length = k + 2 := by
          rw [units_length (by omega)]; simp
        rw [if_neg (by rw [List.length_map, hlen]; push_cast; omega)]
        refine ⟨by omega, rfl, h3, by push_cast; rfl, ?_, ?_⟩
        · simp only [h3]; omega
        · simp only [h3]
          have e : n + 1 + (2 ^ k - 1) = n + 2 ^ k := by omega
          rw [e, h6]
          simp only [lastUnit]
          ring
  · refine ⟨k, j, ?_⟩
    have hadd : add s (g n) = { s with numToSkip := s.numToSkip - 1 } := by
      simp [add, hs]
    rw [hadd]
    refine ⟨h1, h2, h3, h4, ?_, ?_⟩
    · simp only; omega
    · simp only; omega

theorem form_one (g : ℕ → β) : Form g 1 (add init (g 0)) 0 0 := by
  have : add init (g 0) = ⟨[g 0], 1, 0, 0⟩ := by
    simp [add, init]
  rw [this]
  exact ⟨by omega, by simp [units], by simp, by simp, by simp, by simp [lastUnit]⟩

theorem foldl_form (xs : List β) (hne : xs ≠ []) (g : ℕ → β) (hg : ∀ (i : ℕ) (h : i < xs.length), xs[i] = g i) :
    ∃ k j, Form g xs.length (xs.foldl add init) k j := by
  induction xs using List.reverseRecOn with
  | nil => exact absurd rfl hne
  | append_singleton xs x ih =>
    rw [List.foldl_append, List.foldl_cons, List.foldl_nil]
    have hx : x = g xs.length := by
      have := hg xs.length (by simp)
      simpa using this
    by_cases h0 : xs = []
    · subst h0
      simp only [List.foldl_nil, hx, List.length_nil]
      exact ⟨0, 0, form_one g⟩
    · obtain ⟨k, j, h⟩ := ih h0 (fun i h => by rw [← hg i (by simp; omega), List.getElem_append_left h])
      rw [hx, List.length_append, List.length_singleton]
      exact form_add h

/-- Consecutive positions differ by one or two units. -/
theorem units_spacing {k j i a b : ℕ} (ha : (units k j)[i]? = some a)
    (hb : (units k j)[i + 1]? = some b) : b = a + 1 ∨ b = a + 2 := by
  unfold units at ha hb
  split_ifs at ha hb with h0
  · rw [List.getElem?_eq_some_iff] at ha hb
    obtain ⟨_, rfl⟩ := ha
    obtain ⟨_, rfl⟩ := hb
    simp
  · rw [List.getElem?_eq_some_iff] at ha hb
    obtain ⟨h1, rfl⟩ := ha
    obtain ⟨h2, rfl⟩ := hb
    simp only [List.getElem_append, List.length_map, List.length_range, List.getElem_map, List.getElem_range,
      List.getElem_range']
    split_ifs <;> omega

theorem units_head (k j : ℕ) : (units k j)[0]? = some 0 := by
  unfold units
  split_ifs with h
  · simp
  · obtain ⟨j, rfl⟩ := Nat.exists_eq_succ_of_ne_zero h
    simp [List.range_succ_eq_map]

theorem units_last {k j : ℕ} (h : j ≤ k + 1) : (units k j).getLast? = some (lastUnit k j) := by
  unfold units lastUnit
  split_ifs with h0
  · subst h0
    simp [List.range_succ]
  · have : k + 2 - j = (k + 1 - j) + 1 := by omega
    rw [this, List.range'_concat, ← List.append_assoc, List.getLast?_append]
    simp
    omega

end LogStoreUniform

end Verif
