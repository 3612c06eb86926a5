import Verif.Proofs.LogStore

/-!
# C31-C33, C40: model stores and the arithmetic of partitions
-/

namespace Verif

variable {β : Type}

/-- **C31.** After adding `xs`, index `j` of a `LogStore` holds the item added at position
`2 ^ j * (⌊n / 2 ^ j⌋ - 1)` if `2 ^ j ≤ n`, and nothing otherwise, where `n` is the number of items added. -/
theorem C31_LogStore_contents (xs : List β) (j : ℕ) :
    (xs.foldl LogStore.add []).items[j]? =
      if 2 ^ j ≤ xs.length then xs[2 ^ j * (xs.length / 2 ^ j - 1)]? else none := by
  rcases xs.eq_nil_or_concat with rfl | ⟨ys, y, hxs⟩
  · simp [LogStore.items]
  · have hg : ∀ (i : ℕ) (h : i < xs.length), xs[i] = (fun i => xs.getD i y) i := by
      intro i h
      simp [h]
    rw [LogStore.foldl_form xs _ hg, LogStore.items, List.getElem?_map, LogStore.form_getElem]
    split_ifs with h
    · have hpos : 0 < 2 ^ j := by positivity
      have hd : 0 < xs.length / 2 ^ j := Nat.div_pos h hpos
      have hlt : 2 ^ j * (xs.length / 2 ^ j - 1) < xs.length := by
        have h1 := Nat.div_mul_le_self xs.length (2 ^ j)
        have h2 : 2 ^ j * (xs.length / 2 ^ j - 1) < 2 ^ j * (xs.length / 2 ^ j) :=
          Nat.mul_lt_mul_of_pos_left (by omega) hpos
        rw [mul_comm] at h1
        omega
      simp [hlt]
    · rfl

/-- **C31 (size).** The number of items kept is `⌊log₂ n⌋ + 1`. -/
theorem C31_LogStore_length (xs : List β) (hne : xs ≠ []) :
    (xs.foldl LogStore.add []).items.length = Nat.log 2 xs.length + 1 := by
  obtain ⟨y, ys, rfl⟩ := List.exists_cons_of_ne_nil hne
  rw [LogStore.foldl_form (y :: ys) (fun i => (y :: ys).getD i y) (by intro i h; rw [List.getD_eq_getElem _ _ h]), LogStore.items, List.length_map,
    LogStore.form_length, if_neg (by simp)]

/-- **C31 (ends).** The newest item is first and the oldest is last. -/
theorem C31_LogStore_ends (xs : List β) :
    (xs.foldl LogStore.add []).items.head? = xs.getLast? ∧ (xs.foldl LogStore.add []).items.getLast? = xs.head? := by
  rcases xs.eq_nil_or_concat with rfl | ⟨ys, y, hxs⟩
  · simp [LogStore.items]
  · have hne : xs ≠ [] := by rw [hxs]; simp
    have hpos : 0 < xs.length := List.length_pos_iff.mpr hne
    constructor
    · rw [List.head?_eq_getElem?, C31_LogStore_contents, List.getLast?_eq_getElem?]
      simp only [pow_zero, Nat.div_one, one_mul]
      rw [if_pos (by omega)]
    · rw [List.getLast?_eq_getElem?, C31_LogStore_length xs hne, Nat.add_sub_cancel, C31_LogStore_contents]
      have h1 : 2 ^ Nat.log 2 xs.length ≤ xs.length := Nat.pow_log_le_self 2 hpos.ne'
      have h2 : xs.length < 2 ^ (Nat.log 2 xs.length + 1) := Nat.lt_pow_succ_log_self (by norm_num) _
      have h3 : xs.length / 2 ^ Nat.log 2 xs.length = 1 :=
        Nat.div_eq_of_lt_le (by omega) (by rw [pow_succ] at h2; omega)
      rw [if_pos h1, h3]
      simp [List.head?_eq_getElem?]

-- The documented case (model.py:699-702).
example : ((List.range 16).foldl LogStore.add []).items = [15, 14, 12, 8, 0] := by decide

/-- **C33.** `learners.LogStore` and `model.LogStore` hold the same items in the same order. -/
theorem C33_LogStores_agree (xs : List β) :
    (xs.foldl LearnersLogStore.add LearnersLogStore.init).items = (xs.foldl LogStore.add []).items :=
  (LearnersLogStore.foldl_eq xs).1

-- The documented case (learners.py:91-95).
example : ((List.range 12).foldl LogStore.add []).items = [11, 10, 8, 0] := by decide

/-- **C32.** After adding `n ≥ 1` items a `LogStoreUniform` holds, oldest first, the items at certain positions:
multiples of the gap, which is a power of two; beginning with position 0; each one or two gaps after the one before;
and the last less than one gap before the next position to be kept. -/
theorem C32_LogStoreUniform_contents (xs : List β) (hne : xs ≠ []) :
    ∃ (k : ℕ) (pos : List ℕ), (xs.foldl LogStoreUniform.add LogStoreUniform.init).gap = 2 ^ k ∧
      (xs.foldl LogStoreUniform.add LogStoreUniform.init).items.map some = pos.map (fun i => xs[i]?) ∧
      (∀ i ∈ pos, i < xs.length) ∧
      pos.head? = some 0 ∧
      (∀ i a b, pos[i]? = some a → pos[i + 1]? = some b → b = a + 2 ^ k ∨ b = a + 2 * 2 ^ k) ∧
      (∃ l, pos.getLast? = some l ∧ xs.length ≤ l + 2 ^ k) ∧
      (k + 1 ≤ pos.length ∧ pos.length ≤ k + 2) ∧ k * 2 ^ k < xs.length ∧ xs.length ≤ (2 * k + 2) * 2 ^ k := by
  obtain ⟨y, ys, hxs⟩ := List.exists_cons_of_ne_nil hne
  obtain ⟨k, j, h⟩ := LogStoreUniform.foldl_form xs hne (fun i => xs.getD i y) (by intro i h; simp [h])
  have hpos : 0 < 2 ^ k := by positivity
  have hcount := h.count
  have hskip := h.skip
  have hstage := h.stage
  have hlast : LogStoreUniform.lastUnit k j * 2 ^ k < xs.length := by
    have : (LogStoreUniform.lastUnit k j + 1) * 2 ^ k = LogStoreUniform.lastUnit k j * 2 ^ k + 2 ^ k := by ring
    omega
  have hmem : ∀ u ∈ LogStoreUniform.units k j, u ≤ LogStoreUniform.lastUnit k j := by
    intro u hu
    unfold LogStoreUniform.units at hu
    unfold LogStoreUniform.lastUnit
    split_ifs at hu
    · simp at hu; omega
    · simp only [List.mem_append, List.mem_map, List.mem_range, List.mem_range'_1] at hu
      rcases hu with ⟨a, ha, rfl⟩ | hu <;> omega
  have hbound : ∀ u ∈ LogStoreUniform.units k j, u * 2 ^ k < xs.length := fun u hu =>
    lt_of_le_of_lt (Nat.mul_le_mul_right _ (hmem u hu)) hlast
  refine ⟨k, (LogStoreUniform.units k j).map (· * 2 ^ k), h.gap, ?_, ?_, ?_, ?_, ?_, ?_, ?_, ?_⟩
  · rw [h.items, List.map_map, List.map_map]
    apply List.map_congr_left
    intro u hu
    simp [hbound u hu]
  · intro i hi
    obtain ⟨u, hu, rfl⟩ := List.mem_map.mp hi
    exact hbound u hu
  · rw [List.head?_map, List.head?_eq_getElem?, LogStoreUniform.units_head]
    simp
  · intro i a b ha hb
    rw [List.getElem?_map, Option.map_eq_some_iff] at ha hb
    obtain ⟨u, hu, rfl⟩ := ha
    obtain ⟨v, hv, rfl⟩ := hb
    rcases LogStoreUniform.units_spacing hu hv with rfl | rfl
    · left; ring
    · right; ring
  · refine ⟨LogStoreUniform.lastUnit k j * 2 ^ k, ?_, ?_⟩
    · rw [List.getLast?_map, LogStoreUniform.units_last hstage]
      rfl
    · have : (LogStoreUniform.lastUnit k j + 1) * 2 ^ k = LogStoreUniform.lastUnit k j * 2 ^ k + 2 ^ k := by ring
      omega
  · rw [List.length_map, LogStoreUniform.units_length hstage]
    split_ifs <;> omega
  · refine lt_of_le_of_lt (Nat.mul_le_mul_right _ ?_) hlast
    unfold LogStoreUniform.lastUnit
    omega
  · have : (LogStoreUniform.lastUnit k j + 1) * 2 ^ k ≤ (2 * k + 2) * 2 ^ k := by
      apply Nat.mul_le_mul_right
      unfold LogStoreUniform.lastUnit
      omega
    omega

/-- **C32 (size).** The number of items kept is logarithmic in the number added. -/
theorem C32_LogStoreUniform_size (xs : List β) (hne : xs ≠ []) :
    (xs.foldl LogStoreUniform.add LogStoreUniform.init).items.length ≤ Nat.log 2 xs.length + 2 := by
  obtain ⟨k, pos, _, h2, _, _, _, _, h7, h8, _⟩ := C32_LogStoreUniform_contents xs hne
  have hlen : (xs.foldl LogStoreUniform.add LogStoreUniform.init).items.length = pos.length := by
    simpa using congrArg List.length h2
  have : k ≤ Nat.log 2 xs.length := by
    rcases Nat.eq_zero_or_pos k with rfl | hk
    · omega
    · refine (Nat.le_log_iff_pow_le (by norm_num) (List.length_pos_iff.mpr hne).ne').mpr ?_
      have : 1 * 2 ^ k ≤ k * 2 ^ k := Nat.mul_le_mul_right _ hk
      omega
  omega

/-- **C32 (indexing).** `s[i]` for `0 ≤ i < len(s)` is the `i`-th newest item, and every negative index raises
`IndexError`, although the documentation has `s[-1]` be the oldest item.  An index past the end does not raise at first: for
`len(s) ≤ i < 2 * len(s)` the items are counted over again from the newest, and only from `2 * len(s)` on is there an
`IndexError`. -/
theorem C32_LogStoreUniform_index (s : LogStoreUniform β) (i : ℤ) :
    (i < 0 → s.getItem i = .error .indexError) ∧
    (∀ (n : ℕ) (h : n < s.list.length), i = n → s.getItem i = .ok s.list[n]) ∧
    (∀ (n : ℕ) (h : n < s.list.length), i = s.list.length + n → s.getItem i = .ok s.list[n]) ∧
    (2 * s.list.length ≤ i → s.getItem i = .error .indexError) := by
  refine ⟨?_, ?_, ?_, ?_⟩
  · intro h
    have h1 : (0 : ℤ) ≤ (s.items.length : ℤ) - i - 1 := by omega
    have h2 : s.items.length ≤ ((s.items.length : ℤ) - i - 1).toNat := by omega
    simp only [LogStoreUniform.getItem, LogStoreUniform.pyIndex, h1, if_true, pyGet]
    rw [List.getElem?_eq_none h2]
  · rintro n h rfl
    have hn : n < s.items.length := by simpa [LogStoreUniform.list] using h
    have h1 : (0 : ℤ) ≤ (s.items.length : ℤ) - n - 1 := by omega
    have h2 : ((s.items.length : ℤ) - n - 1).toNat = s.items.length - 1 - n := by omega
    simp only [LogStoreUniform.getItem, LogStoreUniform.pyIndex, h1, if_true, pyGet, h2]
    rw [List.getElem?_eq_getElem (by omega)]
    simp [LogStoreUniform.list, List.getElem_reverse]
  · rintro n h rfl
    have hl : s.list.length = s.items.length := by simp [LogStoreUniform.list]
    have hn : n < s.items.length := by omega
    have h1 : ¬ (0 : ℤ) ≤ (s.items.length : ℤ) - (s.list.length + n) - 1 := by omega
    have h2 : (0 : ℤ) ≤ (s.items.length : ℤ) - (s.list.length + n) - 1 + s.items.length := by omega
    have h3 : ((s.items.length : ℤ) - (s.list.length + n) - 1 + s.items.length).toNat = s.items.length - 1 - n := by omega
    simp only [LogStoreUniform.getItem, LogStoreUniform.pyIndex, h1, h2, if_true, if_false, pyGet, h3]
    rw [List.getElem?_eq_getElem (by omega)]
    simp [LogStoreUniform.list, List.getElem_reverse]
  · intro h
    have hl : s.list.length = s.items.length := by simp [LogStoreUniform.list]
    have h2 : ¬ (0 : ℤ) ≤ (s.items.length : ℤ) - i - 1 + s.items.length := by omega
    by_cases h0 : (0 : ℤ) ≤ (s.items.length : ℤ) - i - 1
    · have h4 : s.items.length = 0 := by omega
      omega
    · simp only [LogStoreUniform.getItem, LogStoreUniform.pyIndex, h0, h2, if_false]

-- The documented items, indexed past their end.
example : ((List.range 16).foldl LogStoreUniform.add LogStoreUniform.init).getItem 5 = .ok 8 := by rfl

-- The documented case (model.py:751-755).
example : ((List.range 16).foldl LogStoreUniform.add LogStoreUniform.init).list = [12, 8, 4, 0] := by decide

/-- **C40.** `binary_boundary(t, d)` is the largest multiple of `2 ^ d` not above `t`. -/
theorem C40_binaryBoundary (t d : ℕ) :
    2 ^ d ∣ binaryBoundary t d ∧ binaryBoundary t d ≤ t ∧ ∀ b, 2 ^ d ∣ b → b ≤ t → b ≤ binaryBoundary t d := by
  rw [binaryBoundary_eq]
  refine ⟨Dvd.intro _ rfl, Nat.mul_div_le _ _, ?_⟩
  rintro b ⟨c, rfl⟩ hb
  apply Nat.mul_le_mul_left
  rw [Nat.le_div_iff_mul_le (by positivity)]
  rwa [mul_comm]

/-- **C40.** `at_partition_start(t, d)` holds exactly for the multiples of `2 ^ d`. -/
theorem C40_atPartitionStart (t d : ℕ) : atPartitionStart t d = true ↔ 2 ^ d ∣ t := atPartitionStart_iff t d

/-- **C40.** `mscb(t)` is the exponent of the largest power of two dividing `t + 1`, which is the number of trailing
one bits of `t`. -/
theorem C40_mscb (t : ℕ) :
    (2 ^ mscb t ∣ t + 1 ∧ ∀ j, 2 ^ j ∣ t + 1 → j ≤ mscb t) ∧
    (∀ i < mscb t, t.testBit i = true) ∧ t.testBit (mscb t) = false := by
  refine ⟨⟨(mscb_spec t).1, ?_⟩, mscb_testBit t⟩
  intro j hj
  by_contra hlt
  exact (mscb_spec t).2 ((pow_dvd_pow 2 (by omega)).trans hj)

example : binaryBoundary 13 2 = 12 ∧ atPartitionStart 12 2 = true ∧ atPartitionStart 13 2 = false ∧ mscb 11 = 2 := by
  refine ⟨by decide, by decide, by decide, ?_⟩
  have h := C40_mscb 11
  have h1 := h.1.2 2 (by norm_num)
  have h2 : mscb 11 < 3 := by
    by_contra hlt
    have := h.2.1 2 (by omega)
    revert this
    decide
  omega

end Verif
