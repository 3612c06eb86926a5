import Verif.Props.FMN
import Verif.Props.Stores

/-!
# C165: what the stores remember

For how long an item is held, and which items are held of each age.
-/

namespace Verif

open Predictor

namespace Remembering

variable {β : Type}

/-- Slot `j` of a `LogStore` holds an item whose age, counted from one, is from `2 ^ j` to less than twice that. -/
theorem slot_age {n j : ℕ} (h : 2 ^ j ≤ n) :
    2 ^ j * (n / 2 ^ j - 1) < n ∧ 2 ^ j ≤ n - 2 ^ j * (n / 2 ^ j - 1) ∧ n - 2 ^ j * (n / 2 ^ j - 1) < 2 ^ (j + 1) := by
  have hpos : 0 < 2 ^ j := by positivity
  have h1 := Nat.div_add_mod n (2 ^ j)
  have h2 := Nat.mod_lt n hpos
  have h3 : 0 < n / 2 ^ j := Nat.div_pos h hpos
  obtain ⟨q, hq⟩ := Nat.exists_eq_add_of_le' h3
  rw [Nat.succ_eq_add_one, zero_add] at hq
  rw [hq, mul_add, mul_one] at h1
  rw [hq, Nat.add_sub_cancel]
  rw [pow_succ]
  omega

theorem mem_range_items {n p : ℕ} :
    p ∈ ((List.range n).foldl LogStore.add []).items ↔ ∃ j, 2 ^ j ≤ n ∧ p = 2 ^ j * (n / 2 ^ j - 1) := by
  rw [List.mem_iff_getElem?]
  constructor
  · rintro ⟨j, hj⟩
    rw [C31_LogStore_contents, List.length_range] at hj
    split_ifs at hj with h
    rw [List.getElem?_range (slot_age h).1, Option.some.injEq] at hj
    exact ⟨j, h, hj.symm⟩
  · rintro ⟨j, h, rfl⟩
    refine ⟨j, ?_⟩
    rw [C31_LogStore_contents, List.length_range, if_pos h, List.getElem?_range (slot_age h).1]

end Remembering

open Remembering

section Stores

variable {β : Type}

/-- **C165 (positions).** Which items a `LogStore` holds depends on their positions only: it holds the items at the positions that it would hold
if the positions themselves were added. -/
theorem C165_positions (xs : List β) :
    (xs.foldl LogStore.add []).items.map some = ((List.range xs.length).foldl LogStore.add []).items.map fun p => xs[p]? := by
  apply List.ext_getElem?
  intro j
  rw [List.getElem?_map, List.getElem?_map, C31_LogStore_contents, C31_LogStore_contents, List.length_range]
  split_ifs with h
  · rw [List.getElem?_range (slot_age h).1, List.getElem?_eq_getElem (slot_age h).1]
    simp [(slot_age h).1]
  · rfl

/-- **C165 (for how long).** The first item is held for ever.  The item at the position `2 ^ v * (2 * u + 1)` is held from the time it is added
until, with it, `2 ^ (v + 1)` items have been added, and not from then on. -/
theorem C165_LogStore_held (n : ℕ) :
    (0 < n → 0 ∈ ((List.range n).foldl LogStore.add []).items) ∧
    ∀ v u, 2 ^ v * (2 * u + 1) ∈ ((List.range n).foldl LogStore.add []).items ↔
      2 ^ v * (2 * u + 1) < n ∧ n < 2 ^ v * (2 * u + 1) + 2 ^ (v + 1) := by
  constructor
  · intro hn
    rw [mem_range_items]
    have h1 : 2 ^ Nat.log 2 n ≤ n := Nat.pow_log_le_self 2 hn.ne'
    have h2 : n < 2 ^ (Nat.log 2 n + 1) := Nat.lt_pow_succ_log_self (by norm_num) _
    have h3 : n / 2 ^ Nat.log 2 n = 1 := Nat.div_eq_of_lt_le (by omega) (by rw [pow_succ] at h2; omega)
    exact ⟨_, h1, by rw [h3]; simp⟩
  · intro v u
    rw [mem_range_items]
    constructor
    · rintro ⟨j, hj, e⟩
      obtain ⟨a1, a2, a3⟩ := slot_age hj
      rw [← e] at a1 a2 a3
      have hjv : j ≤ v := by
        by_contra hn
        have hd : 2 ^ (v + 1) ∣ 2 ^ v * (2 * u + 1) := by
          rw [e]
          exact Dvd.dvd.mul_right (pow_dvd_pow 2 (by omega)) _
        rw [pow_succ] at hd
        have := Nat.dvd_of_mul_dvd_mul_left (by positivity) hd
        omega
      have : 2 ^ (j + 1) ≤ 2 ^ (v + 1) := Nat.pow_le_pow_right (by norm_num) (by omega)
      omega
    · rintro ⟨h1, h2⟩
      have hd : n - 2 ^ v * (2 * u + 1) ≠ 0 := by omega
      have h3 : 2 ^ Nat.log 2 (n - 2 ^ v * (2 * u + 1)) ≤ n - 2 ^ v * (2 * u + 1) := Nat.pow_log_le_self 2 hd
      have h4 : n - 2 ^ v * (2 * u + 1) < 2 ^ (Nat.log 2 (n - 2 ^ v * (2 * u + 1)) + 1) := Nat.lt_pow_succ_log_self (by norm_num) _
      set j := Nat.log 2 (n - 2 ^ v * (2 * u + 1)) with hj
      have hjv : j ≤ v := by
        by_contra hn
        have : 2 ^ (v + 1) ≤ 2 ^ j := Nat.pow_le_pow_right (by norm_num) (by omega)
        omega
      refine ⟨j, by omega, ?_⟩
      clear_value j
      obtain ⟨e, rfl⟩ := Nat.exists_eq_add_of_le hjv
      have hpos : 0 < 2 ^ j := by positivity
      have e1 : n = 2 ^ j * (2 ^ e * (2 * u + 1) + 1) + (n - 2 ^ (j + e) * (2 * u + 1) - 2 ^ j) := by
        rw [mul_add, mul_one, ← mul_assoc, ← pow_add]
        omega
      have e2 : n / 2 ^ j = 2 ^ e * (2 * u + 1) + 1 := by
        rw [e1, Nat.mul_add_div hpos, Nat.div_eq_of_lt (by rw [pow_succ] at h4; omega), add_zero]
      rw [e2, Nat.add_sub_cancel, ← mul_assoc, ← pow_add]

/-- **C165 (of every age).** Counting ages from one for the newest item, a `LogStore` holds exactly one item of the ages from `2 ^ j` to less than
`2 ^ (j + 1)`, for each `j` for which there are such items.  So near every item that was added there is one that is held, of at least half and
less than twice its age. -/
theorem C165_LogStore_ages (n j : ℕ) (h : 2 ^ j ≤ n) :
    ∃! p, p ∈ ((List.range n).foldl LogStore.add []).items ∧ 2 ^ j ≤ n - p ∧ n - p < 2 ^ (j + 1) := by
  obtain ⟨a1, a2, a3⟩ := slot_age h
  refine ⟨_, ⟨mem_range_items.mpr ⟨j, h, rfl⟩, a2, a3⟩, ?_⟩
  rintro p ⟨hp, b1, b2⟩
  obtain ⟨i, hi, rfl⟩ := mem_range_items.mp hp
  obtain ⟨c1, c2, c3⟩ := slot_age hi
  have : i = j := by
    by_contra hne
    rcases Nat.lt_or_gt_of_ne hne with hlt | hgt
    · have : 2 ^ (i + 1) ≤ 2 ^ j := Nat.pow_le_pow_right (by norm_num) (by omega)
      omega
    · have : 2 ^ (j + 1) ≤ 2 ^ i := Nat.pow_le_pow_right (by norm_num) (by omega)
      omega
  subst this
  rfl

/-- **C165 (at every distance).** A `LogStoreUniform` of gap `g` holds, for every item that was added, one that was added less than `2 * g` items before. -/
theorem C165_LogStoreUniform_near (xs : List β) (i : ℕ) (hi : i < xs.length) :
    ∃ p ≤ i, i < p + 2 * (xs.foldl LogStoreUniform.add LogStoreUniform.init).gap ∧
      ∃ x, xs[p]? = some x ∧ x ∈ (xs.foldl LogStoreUniform.add LogStoreUniform.init).items := by
  have hne : xs ≠ [] := by
    rintro rfl
    simp at hi
  obtain ⟨k, pos, h1, h2, h3, h4, h5, h6, -⟩ := C32_LogStoreUniform_contents xs hne
  rw [h1]
  have hmem : ∀ p ∈ pos, ∃ x, xs[p]? = some x ∧ x ∈ (xs.foldl LogStoreUniform.add LogStoreUniform.init).items := by
    intro p hp
    have : xs[p]? ∈ pos.map fun i => xs[i]? := List.mem_map.mpr ⟨p, hp, rfl⟩
    rw [← h2] at this
    obtain ⟨x, hx, e⟩ := List.mem_map.mp this
    exact ⟨x, e.symm, hx⟩
  suffices H : ∀ (l : List ℕ) (a : ℕ), l.head? = some a → a ≤ i →
      (∀ i a b, l[i]? = some a → l[i + 1]? = some b → b = a + 2 ^ k ∨ b = a + 2 * 2 ^ k) → (∃ z, l.getLast? = some z ∧ xs.length ≤ z + 2 ^ k) →
      ∃ p ∈ l, p ≤ i ∧ i < p + 2 * 2 ^ k by
    obtain ⟨p, hp, e1, e2⟩ := H pos 0 h4 (Nat.zero_le _) h5 h6
    exact ⟨p, e1, e2, hmem p hp⟩
  intro l
  induction l with
  | nil => intro a h; simp at h
  | cons b l ih =>
    intro a ha hai hstep hlast
    have hba : b = a := by simpa using ha
    subst hba
    have hpos : 0 < 2 ^ k := by positivity
    cases l with
    | nil =>
      obtain ⟨z, hz, hz2⟩ := hlast
      have : b = z := by simpa using hz
      exact ⟨b, by simp, hai, by omega⟩
    | cons c l =>
      by_cases hc : c ≤ i
      · obtain ⟨p, hp, e1, e2⟩ := ih c (by simp) hc (fun j x y hx hy => hstep (j + 1) x y (by simpa using hx) (by simpa using hy)) (by
          obtain ⟨z, hz, hz2⟩ := hlast
          exact ⟨z, by simpa using hz, hz2⟩)
        exact ⟨p, List.mem_cons_of_mem _ hp, e1, e2⟩
      · have := hstep 0 b c (by simp) (by simp)
        exact ⟨b, by simp, hai, by omega⟩

end Stores

/-- **C165 (forget-me-not).** After `n` observations, `b` periods of `2 ^ m` of them, `FMN` with `LogStore` holds for each `j` with `2 ^ j ≤ b + 1`
exactly one model, at place `j` of the store, from the end of a period `i` with `2 ^ j ≤ b - i + 1 < 2 ^ (j + 1)`; the model of period 0 is
the new one. -/
theorem C165_FMN {σ α : Type} (P : Predictor σ α) (I : σ → Prop) (A : List α) (W : ℝ → Prop) (hP : P.UpdateLawful I A W) (hC : P.Copyable I) (f : σ)
    (hf : I f) (m : ℕ) (xs : List (Obs α)) (hx : ∀ o ∈ xs, o.sym ∈ A ∧ W o.weight) :
    ∃ s0 r s, FMN.init (LogStore.store σ) P f m = .ok s0 ∧ (FMN.predictor (LogStore.store σ) P m).run s0 xs = .ok (r, s) ∧
      ∀ j, 2 ^ j ≤ xs.length / 2 ^ m + 1 → ∃ i ≤ xs.length / 2 ^ m,
        2 ^ j ≤ xs.length / 2 ^ m - i + 1 ∧ xs.length / 2 ^ m - i + 1 < 2 ^ (j + 1) ∧
        ∃ g, s.store.items[j]? = some g ∧ ((i = 0 ∧ g = f) ∨ ∃ r' s' a b,
          (FMN.predictor (LogStore.store σ) P m).run s0 (xs.take (i * 2 ^ m)) = .ok (r', s') ∧ s'.ptw.map = .ok a ∧ a.map = .ok b ∧
          P.copy b = .ok g) := by
  obtain ⟨s0, r, s, ms, h1, h2, h3, h4, h5⟩ := C34_FMN_schedule (LogStore.store σ) _ _ P (LogStore.lawful σ) I A W hP hC f hf m xs hx
  refine ⟨s0, r, s, h1, h2, fun j hj => ?_⟩
  have hlen : (f :: ms).length = xs.length / 2 ^ m + 1 := by rw [List.length_cons, h4]
  obtain ⟨a1, a2, a3⟩ := slot_age hj
  have hs : s.store.items[j]? = (f :: ms)[2 ^ j * ((xs.length / 2 ^ m + 1) / 2 ^ j - 1)]? := by
    rw [h3]
    have := C31_LogStore_contents (f :: ms) j
    rw [hlen, if_pos hj] at this
    exact this
  generalize 2 ^ j * ((xs.length / 2 ^ m + 1) / 2 ^ j - 1) = i at *
  refine ⟨i, by omega, by omega, by omega, ?_⟩
  rw [hs]
  cases i with
  | zero => exact ⟨f, by simp, .inl ⟨rfl, rfl⟩⟩
  | succ i =>
    have hi : i < ms.length := by omega
    obtain ⟨r', s', a, b, g1, g2, g3, g4⟩ := h5 i hi
    exact ⟨ms[i], by simp [hi], .inr ⟨r', s', a, b, g1, g2, g3, g4⟩⟩

/-- The item at position 12 is held until 20 items have been added. -/
example : (∀ n, 12 < n → n < 20 → 12 ∈ ((List.range n).foldl LogStore.add []).items) ∧ ∀ n, 20 ≤ n → 12 ∉ ((List.range n).foldl LogStore.add []).items := by
  refine ⟨fun n h1 h2 => ((C165_LogStore_held n).2 2 1).mpr ⟨by omega, by omega⟩, fun n h h' => ?_⟩
  have := ((C165_LogStore_held n).2 2 1).mp h'
  omega

end Verif
