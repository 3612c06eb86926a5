import Verif.Proofs.Sensors

/-!
# C54-C56: tile coding
-/

namespace Verif

open Sensors

/-- **C54.** With the default width, or a width `1/k` for a natural number `k`, a coder of `n` tilings can be made, and for
every signal in the unit cube it activates exactly one tile in each tiling: the `i`-th index lies in the `i`-th block of
`(k+1)^dim` feature indices.  The bias index 0 comes last from `get_active_tiles` and first from `get_coder()`. -/
theorem C54_one_tile_per_tiling_partial {n dim k : ℕ} (hn : 1 ≤ n) (hk : 1 ≤ k) {width : Option ℝ}
    (hw : width = none ∧ k = n ∨ width = some (1 / (k : ℝ))) (bias : Bool) (signal : List ℝ) (hl : signal.length = dim)
    (hs : ∀ x ∈ signal, 0 ≤ x ∧ x ≤ 1) :
    ∃ (t : TileCoder) (idx : List ℤ), TileCoder.init n dim width bias = .ok t ∧
      t.getActiveTiles signal = .ok (idx ++ if bias then [0] else []) ∧
      t.coder signal = .ok ((if bias then [0] else []) ++ idx) ∧
      idx.length = n ∧ t.numFeatures = (if bias then 1 else 0) + n * ((k : ℤ) + 1) ^ dim ∧
      ∀ (i : ℕ) (h : i < idx.length), (if bias then 1 else 0) + i * ((k : ℤ) + 1) ^ dim ≤ idx[i] ∧
        idx[i] < (if bias then 1 else 0) + (i + 1) * ((k : ℤ) + 1) ^ dim := by
  obtain ⟨t, h1, ht⟩ := init_made (dim := dim) (bias := bias) hn hk hw
  refine ⟨t, _, h1, getActiveTiles_eq ht hl, coder_eq hn ht hl, by simp, ht.features, ?_⟩
  intro i h
  simp only [List.length_map, List.length_range] at h
  simp only [List.getElem_map, List.getElem_range]
  have := digits_bounds (coords_mem hn hk hs h)
  simp only [activeTileCoords, List.length_map, hl] at this
  simp only [tileNumber, activeTileCoords]
  constructor
  · linarith [this.1]
  · linarith [this.2]

/-- **C54 (consequence).** The active indices are distinct feature indices, as many as the coder announces. -/
theorem C54_indices_valid_partial {n dim k : ℕ} (hn : 1 ≤ n) (hk : 1 ≤ k) {width : Option ℝ}
    (hw : width = none ∧ k = n ∨ width = some (1 / (k : ℝ))) (bias : Bool) (signal : List ℝ) (hl : signal.length = dim)
    (hs : ∀ x ∈ signal, 0 ≤ x ∧ x ≤ 1) :
    ∃ (t : TileCoder) (out : List ℤ), TileCoder.init n dim width bias = .ok t ∧ t.getActiveTiles signal = .ok out ∧
      out.length = t.numActive ∧ out.Nodup ∧ ∀ j ∈ out, 0 ≤ j ∧ j < t.numFeatures := by
  obtain ⟨t, idx, h1, h2, _, h4, h5, h6⟩ := C54_one_tile_per_tiling_partial hn hk hw bias signal hl hs
  have hB : 0 < ((k : ℤ) + 1) ^ dim := by positivity
  set B := ((k : ℤ) + 1) ^ dim with hBdef
  obtain ⟨t', g1, ht⟩ := init_made (dim := dim) (bias := bias) hn hk hw
  have htt : t = t' := by rw [h1] at g1; simpa using g1
  have hb0 : (0 : ℤ) ≤ if bias then 1 else 0 := by split_ifs <;> norm_num
  have hnd : idx.Nodup := by
    rw [List.nodup_iff_pairwise_ne, List.pairwise_iff_getElem]
    intro i j hi hj hij
    have a := (h6 i hi).2
    have b := (h6 j hj).1
    have : ((i : ℤ) + 1) * B ≤ j * B := mul_le_mul_of_nonneg_right (by exact_mod_cast hij) hB.le
    omega
  have hr : ∀ j ∈ idx, (if bias then 1 else 0) ≤ j ∧ j < t.numFeatures := by
    intro j hj
    obtain ⟨i, hi, rfl⟩ := List.getElem_of_mem hj
    obtain ⟨a, b⟩ := h6 i hi
    have h7 : ((i : ℤ) + 1) * B ≤ n * B := mul_le_mul_of_nonneg_right (by rw [← h4]; exact_mod_cast hi) hB.le
    have h8 : (0 : ℤ) ≤ i * B := by positivity
    constructor
    · linarith
    · rw [h5]; linarith
  refine ⟨t, _, h1, h2, ?_, ?_, ?_⟩
  · rw [htt, ht.active, List.length_append, h4]
    cases bias <;> simp
  · cases bias with
    | false => simpa using hnd
    | true =>
      simp only [if_true] at hr ⊢
      rw [List.nodup_append]
      refine ⟨hnd, by simp, ?_⟩
      intro a ha b hb
      simp only [List.mem_singleton] at hb
      have := (hr a ha).1
      omega
  · intro j hj
    have hn0 : 0 < (n : ℤ) * B := mul_pos (by exact_mod_cast hn) hB
    simp only [List.mem_append] at hj
    rcases hj with hj | hj
    · exact ⟨hb0.trans (hr j hj).1, (hr j hj).2⟩
    · cases bias with
      | false => simp at hj
      | true =>
        simp only [if_true, List.mem_singleton] at hj h5
        subst hj
        constructor
        · rfl
        · rw [h5]; linarith

/-- **C54 fails for other widths.** `TileCoder(3, tile_width=.3)` has 13 features, but the signal `[1]` activates
index 13. -/
theorem C54_width_not_dividing :
    ∃ t, TileCoder.init 3 1 (some (3/10)) true = .ok t ∧ t.numFeatures = 13 ∧
      t.getActiveTiles [1] = .ok [4, 8, 13, 0] := by
  have hf : ⌊(1 : ℝ) / (3 / 10)⌋ = 3 := by rw [Int.floor_eq_iff]; norm_num
  have ha : TileCoder.axis 3 (some (3/10)) = .ok (4, 3/10) := by
    rw [TileCoder.axis, pyDiv_of_ne (by norm_num), ok_bind, hf]
    rfl
  have hr : pyRange 1 13 4 = .ok [1, 5, 9] := by decide
  have hc : ⌈(3/10 : ℝ) / (3 / 10 / (3 : ℕ))⌉ = 3 := by rw [Int.ceil_eq_iff]; norm_num
  have ho : TileCoder.arange (3/10) (3 / 10 / (3 : ℕ)) = [0, 1/10, 2/10] := by
    rw [TileCoder.arange, hc, show Int.toNat 3 = 3 from rfl]
    norm_num [List.range_succ]
  have hd : pyDiv (3/10) ((3 : ℕ) : ℝ) = .ok (3 / 10 / (3 : ℕ)) := pyDiv_of_ne (by norm_num)
  have f0 : ⌊((1 : ℝ) + 0) / (3 / 10)⌋ = 3 := by rw [Int.floor_eq_iff]; norm_num
  have f1 : ⌊((1 : ℝ) + 1/10) / (3 / 10)⌋ = 3 := by rw [Int.floor_eq_iff]; norm_num
  have f2 : ⌊((1 : ℝ) + 2/10) / (3 / 10)⌋ = 4 := by rw [Int.floor_eq_iff]; norm_num
  refine ⟨⟨3, 1, true, 4, 4, 3/10, 4, 12, 13, some 0, [1, 5, 9], [0, 1/10, 2/10], [1]⟩, ?_, rfl, ?_⟩
  · simp only [TileCoder.init, ha, ok_bind]
    norm_num only
    simp only [if_true, hr, ok_bind]
    rw [show ((3 : ℕ) : ℝ) = 3 by norm_num] at hd ho
    norm_num only at hd ho
    rw [hd, ok_bind, ho]
    rfl
  · simp only [TileCoder.getActiveTiles, activeTilingBits, tilingLoop, activeTileBit, activeTileCoords, npMul,
      List.map_cons, List.map_nil, f0, f1, f2, List.length_cons, List.length_nil, if_true, ok_bind, pure_eq_ok,
      List.zipWith_cons_cons, List.zipWith_nil_left, List.sum_cons, List.sum_nil]
    rfl

/-- The hypotheses of C54 are met by the coder of the docstring, `TileCoder(4, dimensionality=2)`. -/
example : (none : Option ℝ) = none ∧ 4 = 4 ∨ (none : Option ℝ) = some (1 / ((4 : ℕ) : ℝ)) := Or.inl ⟨rfl, rfl⟩

/-- **C55.** Two signals activate the same tile in the `i`-th tiling exactly if on every axis some interval
`[c/k, (c+1)/k)` contains both values shifted by `i/(n k)`: no two tiles share an index. -/
theorem C55_same_tile_iff {n dim k : ℕ} (hn : 1 ≤ n) (hk : 1 ≤ k) {width : Option ℝ}
    (hw : width = none ∧ k = n ∨ width = some (1 / (k : ℝ))) (bias : Bool) (x y : List ℝ) (hx : x.length = dim)
    (hy : y.length = dim) (hxs : ∀ v ∈ x, 0 ≤ v ∧ v ≤ 1) (hys : ∀ v ∈ y, 0 ≤ v ∧ v ≤ 1) :
    ∃ (t : TileCoder) (ix iy : List ℤ), TileCoder.init n dim width bias = .ok t ∧
      t.getActiveTiles x = .ok (ix ++ if bias then [0] else []) ∧
      t.getActiveTiles y = .ok (iy ++ if bias then [0] else []) ∧ ix.length = n ∧ iy.length = n ∧
      ∀ i < n, (ix[i]? = iy[i]? ↔ ∀ j (h1 : j < x.length) (h2 : j < y.length), ∃ c : ℤ,
        ((c : ℝ) / k ≤ x[j] + i / (n * k) ∧ x[j] + i / (n * k) < (c + 1) / k) ∧
        ((c : ℝ) / k ≤ y[j] + i / (n * k) ∧ y[j] + i / (n * k) < (c + 1) / k)) := by
  obtain ⟨t, h1, ht⟩ := init_made (dim := dim) (bias := bias) hn hk hw
  refine ⟨t, _, _, h1, getActiveTiles_eq ht hx, getActiveTiles_eq ht hy, by simp, by simp, ?_⟩
  intro i hi
  have hk' : (0 : ℝ) < k := by positivity
  have hn' : (0 : ℝ) < n := by positivity
  have e : ∀ v : ℝ, (v + (i : ℝ) * (1 / (k : ℝ) / n)) / (1 / (k : ℝ)) = (v + i / (n * k)) * k := by
    intro v
    field_simp
  simp only [List.getElem?_map, List.getElem?_range hi, Option.map_some, Option.some.injEq, add_left_inj]
  constructor
  · intro h j j1 j2
    have h2 := digits_inj (by simp [activeTileCoords, hx, hy]) (coords_mem hn hk hxs hi) (coords_mem hn hk hys hi) h
    have h3 := congrArg (fun l => l[j]?) h2
    simp only [activeTileCoords, List.getElem?_map, List.getElem?_eq_getElem j1, List.getElem?_eq_getElem j2,
      Option.map_some, Option.some.injEq, e] at h3
    refine ⟨⌊(x[j] + i / (n * k)) * k⌋, ⟨?_, ?_⟩, ?_, ?_⟩
    · rw [div_le_iff₀ hk']; exact Int.floor_le _
    · rw [lt_div_iff₀ hk']; exact Int.lt_floor_add_one _
    · rw [h3, div_le_iff₀ hk']; exact Int.floor_le _
    · rw [h3, lt_div_iff₀ hk']; exact Int.lt_floor_add_one _
  · intro h
    have : activeTileCoords x ((i : ℝ) * (1 / (k : ℝ) / n)) (1 / (k : ℝ)) =
        activeTileCoords y ((i : ℝ) * (1 / (k : ℝ) / n)) (1 / (k : ℝ)) := by
      apply List.ext_getElem (by simp [activeTileCoords, hx, hy])
      intro j j1 j2
      simp only [activeTileCoords, List.length_map] at j1 j2
      obtain ⟨c, ⟨a1, a2⟩, b1, b2⟩ := h j j1 j2
      simp only [activeTileCoords, List.getElem_map, e]
      have f1 : ⌊(x[j] + i / (n * k)) * k⌋ = c := by
        rw [Int.floor_eq_iff]
        exact ⟨by rwa [div_le_iff₀ hk'] at a1, by rwa [lt_div_iff₀ hk'] at a2⟩
      have f2 : ⌊(y[j] + i / (n * k)) * k⌋ = c := by
        rw [Int.floor_eq_iff]
        exact ⟨by rwa [div_le_iff₀ hk'] at b1, by rwa [lt_div_iff₀ hk'] at b2⟩
      rw [f1, f2]
    rw [tileNumber, tileNumber, this]

/-- **C56.** The resolution of the coder: two signals get the same indices exactly if on every axis they lie in the same
interval of length `1/(n k)`; and they differ in at most as many tilings as the intervals between them, added over the
axes. -/
theorem C56_resolution {n dim k : ℕ} (hn : 1 ≤ n) (hk : 1 ≤ k) {width : Option ℝ}
    (hw : width = none ∧ k = n ∨ width = some (1 / (k : ℝ))) (bias : Bool) (x y : Fin dim → ℝ)
    (hxs : ∀ j, 0 ≤ x j ∧ x j ≤ 1) (hys : ∀ j, 0 ≤ y j ∧ y j ≤ 1) :
    ∃ (t : TileCoder) (ix iy : List ℤ), TileCoder.init n dim width bias = .ok t ∧
      t.getActiveTiles (List.ofFn x) = .ok (ix ++ if bias then [0] else []) ∧
      t.getActiveTiles (List.ofFn y) = .ok (iy ++ if bias then [0] else []) ∧ ix.length = n ∧ iy.length = n ∧
      (ix = iy ↔ ∀ j, ⌊x j * k * n⌋ = ⌊y j * k * n⌋) ∧
      ((Finset.range n).filter fun i => ix[i]? ≠ iy[i]?).card ≤
        ∑ j, (⌊y j * k * n⌋ - ⌊x j * k * n⌋).natAbs := by
  obtain ⟨t, h1, ht⟩ := init_made (dim := dim) (bias := bias) hn hk hw
  refine ⟨t, _, _, h1, getActiveTiles_eq ht (by simp), getActiveTiles_eq ht (by simp), by simp, by simp, ?_⟩
  have key : ∀ i < n, (tileNumber n k (List.ofFn x) i = tileNumber n k (List.ofFn y) i ↔
      ∀ j, (⌊x j * k * n⌋ + (i : ℤ)) / (n : ℤ) = (⌊y j * k * n⌋ + (i : ℤ)) / (n : ℤ)) := by
    intro i hi
    have hm : ∀ z : Fin dim → ℝ, (∀ j, 0 ≤ z j ∧ z j ≤ 1) → ∀ v ∈ List.ofFn z, 0 ≤ v ∧ v ≤ 1 := by
      intro z hz v hv
      obtain ⟨j, rfl⟩ := (List.mem_ofFn' z v).mp hv
      exact hz j
    have e : ∀ z : Fin dim → ℝ, activeTileCoords (List.ofFn z) ((i : ℝ) * (1 / (k : ℝ) / n)) (1 / (k : ℝ)) =
        List.ofFn fun j => (⌊z j * k * n⌋ + (i : ℤ)) / (n : ℤ) := by
      intro z
      rw [activeTileCoords, List.map_ofFn]
      congr 1
      funext j
      exact coord_div hn hk (z j) i
    constructor
    · intro h
      have h2 := digits_inj (by simp [activeTileCoords]) (coords_mem hn hk (hm x hxs) hi) (coords_mem hn hk (hm y hys) hi) h
      rw [e, e] at h2
      exact congrFun (List.ofFn_injective h2)
    · intro h
      unfold tileNumber
      rw [e, e, funext h]
  constructor
  · constructor
    · intro h j
      apply eq_of_shifts n hn
      intro i hi
      refine (key i hi).mp ?_ j
      have := congrArg (fun l => l[i]?) h
      simpa [List.getElem?_range hi] using this
    · intro h
      apply List.map_congr_left
      intro i hi
      rw [(key i (List.mem_range.mp hi)).mpr fun j => by rw [h j]]
  · have hsub : ((Finset.range n).filter fun i =>
        ((List.range n).map fun i : ℕ => tileNumber n k (List.ofFn x) i +
          ((if bias then 1 else 0) + (i : ℤ) * ((k : ℤ) + 1) ^ dim))[i]? ≠
        ((List.range n).map fun i : ℕ => tileNumber n k (List.ofFn y) i +
          ((if bias then 1 else 0) + (i : ℤ) * ((k : ℤ) + 1) ^ dim))[i]?) ⊆
        Finset.univ.biUnion fun j => (Finset.range n).filter fun i : ℕ =>
          (⌊x j * k * n⌋ + (i : ℤ)) / (n : ℤ) ≠ (⌊y j * k * n⌋ + (i : ℤ)) / (n : ℤ) := by
      intro i hi
      simp only [Finset.mem_filter, Finset.mem_range] at hi
      obtain ⟨hi, hne⟩ := hi
      simp only [List.getElem?_map, List.getElem?_range hi, Option.map_some, ne_eq, Option.some.injEq, add_left_inj] at hne
      rw [key i hi] at hne
      push Not at hne
      obtain ⟨j, hj⟩ := hne
      simp only [Finset.mem_biUnion, Finset.mem_univ, true_and, Finset.mem_filter, Finset.mem_range]
      exact ⟨j, hi, hj⟩
    refine (Finset.card_le_card hsub).trans (Finset.card_biUnion_le.trans ?_)
    exact Finset.sum_le_sum fun j _ => count_le_abs n hn _ _

/-- Two values in neighbouring intervals of length `1/8`, with two tilings of width `1/4`, differ in one tiling. -/
example : ⌊(0.3 : ℝ) * (4 : ℕ) * (2 : ℕ)⌋ = 2 ∧ ⌊(0.4 : ℝ) * (4 : ℕ) * (2 : ℕ)⌋ = 3 := by
  constructor <;> rw [Int.floor_eq_iff] <;> norm_num

/-- **C56 (pairs).** `get_pairs(d)` lists every pair `i < j < d` once. -/
theorem C56_getPairs (d : ℕ) : (getPairs d).Nodup ∧ ∀ i j, (i, j) ∈ getPairs d ↔ i < j ∧ j < d := by
  constructor
  · rw [getPairs, List.nodup_flatMap]
    constructor
    · intro i _
      exact (List.nodup_range' ..).map fun a b h => (Prod.mk.inj h).2
    · refine List.nodup_range.imp ?_
      intro a b hab p h1 h2
      simp only [List.mem_map] at h1 h2
      obtain ⟨_, _, rfl⟩ := h1
      obtain ⟨_, _, h⟩ := h2
      exact hab (Prod.mk.inj h).1.symm
  · intro i j
    simp only [getPairs, List.mem_flatMap, List.mem_range, List.mem_map, List.mem_range'_1, Prod.mk.injEq]
    constructor
    · rintro ⟨a, ha, b, hb, rfl, rfl⟩
      omega
    · rintro ⟨h1, h2⟩
      exact ⟨i, by omega, j, by omega, rfl, rfl⟩

example : getPairs 4 = [(0, 1), (0, 2), (0, 3), (1, 2), (1, 3), (2, 3)] := by decide

/-- **C54 (concatenation).** If every coder returns on its selection of the signal, `concatenate_coders` returns, coder by
coder, the indices shifted by that coder's offset. -/
theorem C54_concatenate (signal : List ℝ) (coders : List (List ℝ → Py (List ℤ))) (inds : List (List ℕ))
    (outs : List (List ℤ)) (offs : List ℤ) (hlen : coders.length = inds.length) (hlen2 : coders.length = outs.length)
    (hlen3 : coders.length = offs.length)
    (h : ∀ i (h1 : i < coders.length) (h2 : i < inds.length) (h3 : i < outs.length),
      ∃ sig, inds[i].mapM (pyGet signal) = .ok sig ∧ coders[i] sig = .ok outs[i]) :
    concatenateCoders signal coders inds offs =
      .ok ((List.zipWith (fun o (l : List ℤ) => l.map (· + o)) offs outs).flatten) := by
  induction coders generalizing inds outs offs with
  | nil =>
    have : offs = [] := List.length_eq_zero_iff.mp (by simpa using hlen3.symm)
    subst this
    simp [concatenateCoders]
  | cons f fs ih =>
    match inds, outs, offs, hlen, hlen2, hlen3 with
    | ind :: inds, out :: outs, off :: offs, hlen, hlen2, hlen3 =>
      obtain ⟨sig, h1, h2⟩ := h 0 (by simp) (by simp) (by simp)
      simp only [List.getElem_cons_zero] at h1 h2
      have hi := ih inds outs offs (by simpa using hlen) (by simpa using hlen2) (by simpa using hlen3) (by
        intro i a b c
        have := h (i + 1) (by simpa using a) (by simpa using b) (by simpa using c)
        simpa using this)
      simp only [concatenateCoders, pyGet, List.getElem?_cons_zero, ok_bind, List.drop_one, List.tail_cons, hi,
        pure_eq_ok, List.zipWith_cons_cons, List.flatten_cons]
      rw [h1, ok_bind, h2, ok_bind]
      by_cases ho : out = []
      · simp [ho]
      · simp [ho]

/-- C54. Called directly with a bias index, `active_tiling_bits` puts that index in front of the tiles; when the bias index is
the first tile of the first tiling all tiles are shifted by one, so that tiles at or after it never coincide with it. -/
theorem C54_bias_first (signal offsets : List ℝ) (t0 : ℤ) (ts : List ℤ) (w : ℝ) (tb : List ℤ) (b : ℤ) {out : List ℤ}
    (h : activeTilingBits signal offsets (t0 :: ts) w tb none = .ok out) :
    activeTilingBits signal offsets (t0 :: ts) w tb (some b) = .ok (b :: if b = t0 then out.map (· + 1) else out) ∧
    ((∀ i ∈ out, t0 ≤ i) → b = t0 → b ∉ out.map (· + 1)) := by
  have key : ∀ (ts : List ℤ) (os : List ℝ) (out : List ℤ), tilingLoop signal w tb ts os = .ok out →
      tilingLoop signal w tb (ts.map (· + 1)) os = .ok (out.map (· + 1)) := by
    intro ts
    induction ts with
    | nil =>
      intro os out h
      simp only [tilingLoop, pure_eq_ok, Except.ok.injEq] at h ⊢
      simp [← h, tilingLoop, pure_eq_ok]
    | cons t ts ih =>
      intro os out h
      cases os with
      | nil => simp [tilingLoop] at h
      | cons o os =>
        simp only [tilingLoop, bind_eq_ok, pure_eq_ok, Except.ok.injEq] at h
        obtain ⟨x, h1, rest, h2, rfl⟩ := h
        simp only [List.map_cons, tilingLoop, h1, ih os rest h2, ok_bind, pure_eq_ok]
        congr 2
        ring
  constructor
  · simp only [activeTilingBits, pyGet, List.getElem?_cons_zero, ok_bind] at h ⊢
    by_cases hb : b = t0
    · rw [if_pos hb, if_pos hb, key _ _ _ h, ok_bind, pure_eq_ok]
    · rw [if_neg hb, if_neg hb, h, ok_bind, pure_eq_ok]
  · rintro ho rfl hm
    obtain ⟨i, hi, e⟩ := List.mem_map.1 hm
    have := ho i hi
    omega

example : ∃ out, activeTilingBits [1 / 100] [0, 124 / 1000] [0, 16] (1 / 4) [1] none = .ok out :=
  ⟨_, rfl⟩

namespace Sensors

theorem activeTileBit_single (x o w : ℝ) (tb : List ℤ) :
    activeTileBit [x] o w tb = activeTileBit (List.replicate tb.length x) o w tb := by
  have hz : ∀ (c : ℤ) (l : List ℤ), List.zipWith (· * ·) (List.replicate l.length c) l = l.map (c * ·) := by
    intro c l
    induction l with
    | nil => rfl
    | cons a l ih => simp [List.replicate_succ, ih]
  have h2 : npMul (activeTileCoords (List.replicate tb.length x) o w) tb = .ok (tb.map (⌊(x + o) / w⌋ * ·)) := by
    simp [npMul, activeTileCoords, hz]
  have h1 : npMul (activeTileCoords [x] o w) tb = .ok (tb.map (⌊(x + o) / w⌋ * ·)) := by
    unfold npMul
    split_ifs with h
    · obtain ⟨b, rfl⟩ := List.length_eq_one_iff.mp (by simpa [activeTileCoords] using h.symm)
      simp [activeTileCoords]
    · simp [activeTileCoords]
  simp only [activeTileBit, h1, h2]

theorem activeTileBit_mismatch {signal : List ℝ} {tb : List ℤ} (h : signal.length ≠ tb.length) (h1 : signal.length ≠ 1)
    (h2 : tb.length ≠ 1) (o w : ℝ) : activeTileBit signal o w tb = .error .valueError := by
  have : npMul (activeTileCoords signal o w) tb = .error .valueError := by
    unfold npMul
    rw [if_neg (by simpa [activeTileCoords] using h)]
    split
    · rename_i x hx
      exact absurd (by simpa [activeTileCoords] using congrArg List.length hx) h1
    · exact absurd rfl h2
    · rfl
  simp only [activeTileBit, this, error_bind]

theorem activeTileBit_one_base (signal : List ℝ) (o w : ℝ) (y : ℤ) :
    activeTileBit signal o w [y] = .ok ((signal.map fun x => ⌊(x + o) / w⌋).sum * y) := by
  unfold activeTileBit npMul
  by_cases h : (activeTileCoords signal o w).length = [y].length
  · obtain ⟨x, rfl⟩ := List.length_eq_one_iff.mp (by simpa [activeTileCoords] using h)
    simp [activeTileCoords]
  · rw [if_neg h]
    split
    · rename_i x hx
      exact absurd (by rw [hx]; rfl) h
    · rename_i y' hx _
      cases hx
      simp only [ok_bind, pure_eq_ok, activeTileCoords, List.sum_map_mul_right, List.map_id']
    · rename_i h3
      exact absurd rfl (h3 y)

end Sensors

/-- **C54 (signals of another length).** The coder does not check the length of the signal.  A single number stands for a signal with
this number in every dimension; a coder of one dimension adds up the coordinates of a longer signal; only the other mismatches
raise `ValueError`. -/
theorem C54_signal_length (offsets : List ℝ) (bases : List ℤ) (w : ℝ) :
    (∀ (x : ℝ) (tb : List ℤ) bias, activeTilingBits [x] offsets bases w tb bias =
      activeTilingBits (List.replicate tb.length x) offsets bases w tb bias) ∧
    (∀ (signal : List ℝ) (o : ℝ), activeTileBit signal o w [1] = .ok (signal.map fun x => ⌊(x + o) / w⌋).sum) ∧
    (∀ (signal : List ℝ) (tb : List ℤ), signal.length ≠ tb.length → signal.length ≠ 1 → tb.length ≠ 1 → bases ≠ [] →
      offsets ≠ [] → activeTilingBits signal offsets bases w tb none = .error .valueError) := by
  refine ⟨fun x tb bias => ?_, fun signal o => ?_, fun signal tb h h1 h2 hb ho => ?_⟩
  · have key : ∀ bs os, tilingLoop [x] w tb bs os = tilingLoop (List.replicate tb.length x) w tb bs os := by
      intro bs
      induction bs with
      | nil => intro os; cases os <;> rfl
      | cons b bs ih =>
        intro os
        cases os with
        | nil => rfl
        | cons o os => simp only [tilingLoop, ih, activeTileBit_single x o w tb]
    unfold activeTilingBits
    simp only [key]
  · rw [activeTileBit_one_base, mul_one]
  · cases bases with
    | nil => exact absurd rfl hb
    | cons b bs =>
      cases offsets with
      | nil => exact absurd rfl ho
      | cons o os => simp only [activeTilingBits, tilingLoop, activeTileBit_mismatch h h1 h2, error_bind]

/-- One of the coder's tiles for the signal `[1, 1]` in a coder of one dimension with four tiles to the unit: the tile 8, although
there are only five. -/
example : activeTileBit [1, 1] 0 (1 / 4) [1] = .ok 8 := by
  rw [(C54_signal_length [] [] (1 / 4)).2.1 [1, 1] 0]
  norm_num

end Verif
