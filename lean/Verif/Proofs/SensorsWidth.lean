import Verif.Proofs.Sensors
import Mathlib.Algebra.Order.Floor.Ring

/-! Lemmas about tile coding with an arbitrary width. -/

namespace Verif

namespace Sensors

variable {n dim : ℕ} {w : ℝ} {bias : Bool} {t : TileCoder}

/-- The attributes of a coder with the width `w`, where `B` is the number of tiles per axis. -/
structure MadeW (n dim : ℕ) (w : ℝ) (B : ℤ) (bias : Bool) (t : TileCoder) : Prop where
  width : t.tileWidth = w
  bias_eq : t.bias = bias
  biasIndex : t.biasIndex = if bias then some 0 else none
  features : t.numFeatures = (if bias then 1 else 0) + n * B ^ dim
  active : t.numActive = n + if bias then 1 else 0
  bases : t.tilingBases = (List.range n).map fun i : ℕ => (if bias then 1 else 0) + (i : ℤ) * B ^ dim
  offsets : t.offsets = (List.range n).map fun i : ℕ => (i : ℝ) * (w / n)
  tileBases : t.tileBases = (List.range dim).map fun i => B ^ i

theorem perAxis_pos (hw : 0 < w) : 0 < ⌊1 / w⌋ + 1 := by
  have : 0 ≤ ⌊1 / w⌋ := Int.floor_nonneg.mpr (by positivity)
  omega

theorem init_madeW (hn : 1 ≤ n) (hw : 0 < w) :
    ∃ t, TileCoder.init n dim (some w) bias = .ok t ∧ MadeW n dim w (⌊1 / w⌋ + 1) bias t := by
  have hn' : (n : ℝ) ≠ 0 := by positivity
  have ha : TileCoder.axis n (some w) = .ok (⌊1 / w⌋ + 1, w) := by
    simp only [TileCoder.axis, pyDiv_of_ne hw.ne', ok_bind, pure_eq_ok]
  have hB := perAxis_pos hw
  generalize ⌊1 / w⌋ + 1 = B at ha hB ⊢
  have hBd : 0 < B ^ dim := by positivity
  have hr : pyRange (if bias then 1 else 0) (if bias then B ^ dim * n + 1 else B ^ dim * n) (B ^ dim) =
      .ok ((List.range n).map fun i : ℕ => (if bias then 1 else 0) + (i : ℤ) * B ^ dim) := by
    rw [← pyRange_pos hBd]
    cases bias <;> simp [add_comm]
  have ho : TileCoder.arange w (w / n) = (List.range n).map fun i : ℕ => (i : ℝ) * (w / n) := by
    have : w / (w / n) = n := by field_simp
    rw [TileCoder.arange, this, Int.ceil_natCast, Int.toNat_natCast]
  refine ⟨_, by simp only [TileCoder.init, ha, ok_bind, hr, pyDiv_of_ne hn', pure_eq_ok]; rfl, ?_⟩
  constructor
  · rfl
  · rfl
  · rfl
  · cases bias <;> simp <;> ring
  · cases bias <;> rfl
  · rfl
  · exact ho
  · rfl

theorem coord_eq (hn : 1 ≤ n) (hw : 0 < w) (x : ℝ) (i : ℕ) : (x + (i : ℝ) * (w / n)) / w = x / w + i / n := by
  have hn' : (n : ℝ) ≠ 0 := by positivity
  field_simp

theorem tilesW_eq {B : ℤ} (ht : MadeW n dim w B bias t) {signal : List ℝ} (hl : signal.length = dim) :
    tilingLoop signal t.tileWidth t.tileBases t.tilingBases t.offsets =
      .ok ((List.range n).map fun i : ℕ => digits B (activeTileCoords signal ((i : ℝ) * (w / n)) w) +
        ((if bias then 1 else 0) + (i : ℤ) * B ^ dim)) := by
  have h := tilingLoop_eq (signal := signal) (w := w)
    (tb := (List.range signal.length).map fun i => B ^ i) _ (fun o => activeTileBit_eq _ signal o _)
    ((List.range n).map fun i : ℕ => (((if bias then 1 else 0) + (i : ℤ) * B ^ dim : ℤ), (i : ℝ) * (w / n)))
  simp only [List.map_map, Function.comp_def] at h
  rw [ht.width, ht.tileBases, ht.bases, ht.offsets, ← hl]
  rw [← hl] at h
  exact h

theorem getActiveTilesW_eq {B : ℤ} (ht : MadeW n dim w B bias t) {signal : List ℝ} (hl : signal.length = dim) :
    t.getActiveTiles signal = .ok (((List.range n).map fun i : ℕ =>
      digits B (activeTileCoords signal ((i : ℝ) * (w / n)) w) + ((if bias then 1 else 0) + (i : ℤ) * B ^ dim)) ++
        if bias then [0] else []) := by
  simp only [TileCoder.getActiveTiles, activeTilingBits, tilesW_eq ht hl, ok_bind, ht.bias_eq, ht.biasIndex]
  cases bias <;> simp

theorem coderW_eq (hn : 1 ≤ n) {B : ℤ} (ht : MadeW n dim w B bias t) {signal : List ℝ} (hl : signal.length = dim) :
    t.coder signal = .ok ((if bias then [0] else []) ++ (List.range n).map fun i : ℕ =>
      digits B (activeTileCoords signal ((i : ℝ) * (w / n)) w) + ((if bias then 1 else 0) + (i : ℤ) * B ^ dim)) := by
  have h := tilesW_eq ht hl
  cases bias with
  | false =>
    simp only [TileCoder.coder, ht.biasIndex, Bool.false_eq_true, if_false, activeTilingBits] at h ⊢
    simpa using h
  | true =>
    have h0 : pyGet t.tilingBases 0 = .ok 1 := by
      rw [ht.bases]
      simp [pyGet, List.getElem?_map, List.getElem?_range (show 0 < n by omega)]
    simp only [TileCoder.coder, ht.biasIndex, if_true, activeTilingBits, h0, ok_bind] at h ⊢
    rw [if_neg (by norm_num), h]
    rfl

theorem coordsW_mem (hn : 1 ≤ n) (hw : 0 < w) (hf : Int.fract (1 / w) < 1 / n) {signal : List ℝ}
    (hs : ∀ x ∈ signal, 0 ≤ x ∧ x ≤ 1) {i : ℕ} (hi : i < n) :
    ∀ c ∈ activeTileCoords signal ((i : ℝ) * (w / n)) w, 0 ≤ c ∧ c < ⌊1 / w⌋ + 1 := by
  intro c hc
  simp only [activeTileCoords, List.mem_map] at hc
  obtain ⟨x, hx, rfl⟩ := hc
  obtain ⟨h0, h1⟩ := hs x hx
  have hn' : (0 : ℝ) < n := by positivity
  rw [coord_eq hn hw]
  have hin : (i : ℝ) / n + 1 / n ≤ 1 := by
    rw [← add_div, div_le_one hn']
    exact_mod_cast hi
  have hx1 : x / w ≤ 1 / w := div_le_div_of_nonneg_right h1 hw.le
  have hfl := Int.floor_add_fract (1 / w)
  constructor
  · exact Int.floor_nonneg.mpr (by positivity)
  · rw [Int.floor_lt]
    push_cast
    linarith

theorem digits_const_ge {B : ℤ} (hB : 0 < B) : ∀ {l : List ℤ}, l ≠ [] → (∀ c ∈ l, c = B) → B ^ l.length ≤ digits B l
  | [], h, _ => absurd rfl h
  | [c], _, h => by
    have := h c (by simp)
    simp [digits, this]
  | c :: d :: l, _, h => by
    have h1 := h c (by simp)
    have h2 := digits_const_ge hB (l := d :: l) (by simp) (fun x hx => h x (by simp [hx]))
    rw [digits, List.length_cons, pow_succ]
    nlinarith

theorem coordsW_one (hn : 1 ≤ n) (hw : 0 < w) (hf : 1 / n ≤ Int.fract (1 / w)) {signal : List ℝ}
    (hs : ∀ x ∈ signal, x = 1) :
    ∀ c ∈ activeTileCoords signal (((n - 1 : ℕ) : ℝ) * (w / n)) w, c = ⌊1 / w⌋ + 1 := by
  intro c hc
  simp only [activeTileCoords, List.mem_map] at hc
  obtain ⟨x, hx, rfl⟩ := hc
  rw [hs x hx, coord_eq hn hw]
  have hn' : (0 : ℝ) < n := by positivity
  have e : (((n - 1 : ℕ) : ℝ)) / n = 1 - 1 / n := by
    rw [Nat.cast_sub hn, sub_div, div_self hn'.ne', Nat.cast_one]
  have h1 : (0 : ℝ) < 1 / n := by positivity
  have hfl := Int.floor_add_fract (1 / w)
  have hlt := Int.fract_lt_one (1 / w)
  rw [e, Int.floor_eq_iff]
  push_cast
  constructor <;> linarith

end Sensors

end Verif
