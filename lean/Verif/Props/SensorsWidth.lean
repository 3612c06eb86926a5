import Verif.Proofs.SensorsWidth

/-!
# C54: the widths for which tile coding works
-/

namespace Verif

open Sensors

/-- **C54 for every fitting width.** If the fractional part of `1/w` is below `1/n`, a coder of `n` tilings of width `w`
activates exactly one tile in each tiling for every signal in the unit cube: the `i`-th index lies in the `i`-th block of
`(⌊1/w⌋+1)^dim` feature indices. -/
theorem C54_one_tile_fitting_partial {n dim : ℕ} (hn : 1 ≤ n) {w : ℝ} (hw : 0 < w) (hf : Int.fract (1 / w) < 1 / n)
    (bias : Bool) (signal : List ℝ) (hl : signal.length = dim) (hs : ∀ x ∈ signal, 0 ≤ x ∧ x ≤ 1) :
    ∃ (t : TileCoder) (idx : List ℤ), TileCoder.init n dim (some w) bias = .ok t ∧
      t.getActiveTiles signal = .ok (idx ++ if bias then [0] else []) ∧
      t.coder signal = .ok ((if bias then [0] else []) ++ idx) ∧
      idx.length = n ∧ t.numFeatures = (if bias then 1 else 0) + n * (⌊1 / w⌋ + 1) ^ dim ∧
      ∀ (i : ℕ) (h : i < idx.length), (if bias then 1 else 0) + i * (⌊1 / w⌋ + 1) ^ dim ≤ idx[i] ∧
        idx[i] < (if bias then 1 else 0) + (i + 1) * (⌊1 / w⌋ + 1) ^ dim := by
  obtain ⟨t, h1, ht⟩ := init_madeW (dim := dim) (bias := bias) hn hw
  refine ⟨t, _, h1, getActiveTilesW_eq ht hl, coderW_eq hn ht hl, by simp, ht.features, ?_⟩
  intro i h
  simp only [List.length_map, List.length_range] at h
  simp only [List.getElem_map, List.getElem_range]
  have := digits_bounds (coordsW_mem hn hw hf hs h)
  have hlen : (activeTileCoords signal ((i : ℝ) * (w / n)) w).length = dim := by simp [activeTileCoords, hl]
  rw [hlen] at this
  constructor
  · linarith [this.1]
  · linarith [this.2]

/-- **C54, the exact criterion.** For a coder of at least one dimension and any width `w`, every index activated by a signal
in the unit cube is an index of a feature if and only if the fractional part of `1/w` is below `1/n`. -/
theorem C54_indices_valid_iff {n dim : ℕ} (hn : 1 ≤ n) (hdim : 1 ≤ dim) {w : ℝ} (hw : 0 < w) (bias : Bool) :
    (∀ signal : List ℝ, signal.length = dim → (∀ x ∈ signal, 0 ≤ x ∧ x ≤ 1) →
      ∃ (t : TileCoder) (out : List ℤ), TileCoder.init n dim (some w) bias = .ok t ∧ t.getActiveTiles signal = .ok out ∧
        out.length = t.numActive ∧ ∀ j ∈ out, 0 ≤ j ∧ j < t.numFeatures) ↔
      Int.fract (1 / w) < 1 / n := by
  have hB : 0 < ⌊1 / w⌋ + 1 := perAxis_pos hw
  constructor
  · intro h
    by_contra hf
    obtain ⟨t, out, h1, h2, -, h3⟩ := h (List.replicate dim 1) (by simp) (by
      intro x hx
      rw [List.eq_of_mem_replicate hx]
      norm_num)
    obtain ⟨t', g1, ht⟩ := init_madeW (dim := dim) (bias := bias) hn hw
    obtain rfl : t = t' := by rw [h1] at g1; simpa using g1
    rw [getActiveTilesW_eq ht (by simp)] at h2
    obtain rfl := Except.ok.inj h2
    have hc := digits_const_ge hB (l := activeTileCoords (List.replicate dim 1) (((n - 1 : ℕ) : ℝ) * (w / n)) w)
      (by simp [activeTileCoords]; omega)
      (coordsW_one hn hw (not_lt.mp hf) fun x hx => List.eq_of_mem_replicate hx)
    have hlen : (activeTileCoords (List.replicate dim 1) (((n - 1 : ℕ) : ℝ) * (w / n)) w).length = dim := by
      simp [activeTileCoords]
    rw [hlen] at hc
    have := (h3 _ (List.mem_append_left _ (List.mem_map.mpr ⟨n - 1, by simp; omega, rfl⟩))).2
    rw [ht.features] at this
    have e : ((n - 1 : ℕ) : ℤ) = n - 1 := by omega
    rw [e] at this
    linarith
  · intro hf signal hl hs
    obtain ⟨t, idx, h1, h2, -, h4, h5, h6⟩ := C54_one_tile_fitting_partial hn hw hf bias signal hl hs
    obtain ⟨t', g1, ht⟩ := init_madeW (dim := dim) (bias := bias) hn hw
    obtain rfl : t = t' := by rw [h1] at g1; simpa using g1
    refine ⟨t, _, h1, h2, ?_, ?_⟩
    · rw [ht.active, List.length_append, h4]
      cases bias <;> simp
    · have hBd : 0 < (⌊1 / w⌋ + 1) ^ dim := by positivity
      generalize (⌊1 / w⌋ + 1) ^ dim = B at h5 h6 hBd
      have hb0 : (0 : ℤ) ≤ if bias then 1 else 0 := by split_ifs <;> norm_num
      have hn0 : 0 < (n : ℤ) * B := mul_pos (by exact_mod_cast hn) hBd
      intro j hj
      rcases List.mem_append.mp hj with hj | hj
      · obtain ⟨i, hi, rfl⟩ := List.getElem_of_mem hj
        obtain ⟨a, b⟩ := h6 i hi
        have h7 : ((i : ℤ) + 1) * B ≤ n * B := mul_le_mul_of_nonneg_right (by rw [← h4]; exact_mod_cast hi) hBd.le
        have h8 : (0 : ℤ) ≤ i * B := by positivity
        constructor
        · linarith
        · rw [h5]; linarith
      · have : j = 0 := by
          cases bias <;> simpa using hj
        subst this
        exact ⟨le_rfl, by rw [h5]; linarith⟩

/-- A width that is not `1/k` but fits: `1/w = 5/2` with a single tiling. -/
example : (0 : ℝ) < 2 / 5 ∧ Int.fract (1 / (2 / 5 : ℝ)) < 1 / (1 : ℕ) := by
  refine ⟨by norm_num, ?_⟩
  simpa using Int.fract_lt_one _

/-- A width that does not fit: `1/w = 5/2` with two tilings. -/
example : ¬Int.fract (1 / (2 / 5 : ℝ)) < 1 / (2 : ℕ) := by
  have : ⌊(1 / (2 / 5) : ℝ)⌋ = 2 := by rw [Int.floor_eq_iff]; norm_num
  rw [Int.fract, this]
  norm_num

end Verif
