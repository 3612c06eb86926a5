import Verif.Model.Sensors
import Mathlib.Data.Int.NatAbs
import Mathlib.Algebra.Order.BigOperators.Group.Finset

/-! Lemmas about tile coding. -/

namespace Verif

namespace Sensors

/-- The number with the given digits, least significant first. -/
def digits (B : ℤ) : List ℤ → ℤ
  | [] => 0
  | c :: cs => c + B * digits B cs

theorem digits_bounds {B : ℤ} {l : List ℤ} (h : ∀ c ∈ l, 0 ≤ c ∧ c < B) :
    0 ≤ digits B l ∧ digits B l < B ^ l.length := by
  induction l with
  | nil => simp [digits]
  | cons c cs ih =>
    obtain ⟨i1, i2⟩ := ih fun x hx => h x (by simp [hx])
    obtain ⟨c1, c2⟩ := h c (by simp)
    simp only [digits, List.length_cons, pow_succ]
    constructor
    · exact add_nonneg c1 (mul_nonneg (by linarith) i1)
    · nlinarith

theorem digits_inj {B : ℤ} : ∀ {l m : List ℤ}, l.length = m.length → (∀ c ∈ l, 0 ≤ c ∧ c < B) →
    (∀ c ∈ m, 0 ≤ c ∧ c < B) → digits B l = digits B m → l = m
  | [], [], _, _, _, _ => rfl
  | [], _ :: _, h, _, _, _ => by simp at h
  | _ :: _, [], h, _, _, _ => by simp at h
  | c :: cs, e :: es, h, hl, hm, hd => by
    obtain ⟨c1, c2⟩ := hl c (by simp)
    obtain ⟨e1, e2⟩ := hm e (by simp)
    simp only [digits] at hd
    have hce : c = e := by
      have h1 : (c + B * digits B cs) % B = c := by rw [Int.add_mul_emod_self_left, Int.emod_eq_of_lt c1 c2]
      have h2 : (e + B * digits B es) % B = e := by rw [Int.add_mul_emod_self_left, Int.emod_eq_of_lt e1 e2]
      rw [← h1, ← h2, hd]
    subst hce
    have hB : B ≠ 0 := by omega
    have := digits_inj (B := B) (l := cs) (m := es) (by simpa using h) (fun x hx => hl x (by simp [hx]))
      (fun x hx => hm x (by simp [hx])) (mul_left_cancel₀ hB (add_left_cancel hd))
    rw [this]

theorem zipWith_digits (B : ℤ) (l : List ℤ) (s : ℕ) :
    (List.zipWith (· * ·) l ((List.range' s l.length).map fun i => B ^ i)).sum = B ^ s * digits B l := by
  induction l generalizing s with
  | nil => simp [digits]
  | cons c cs ih =>
    simp only [List.length_cons, List.range'_succ, List.map_cons, List.zipWith_cons_cons, List.sum_cons, ih, digits,
      pow_succ]
    ring

theorem activeTileBit_eq (B : ℤ) (signal : List ℝ) (o w : ℝ) :
    activeTileBit signal o w ((List.range signal.length).map fun i => B ^ i) =
      .ok (digits B (activeTileCoords signal o w)) := by
  have h := zipWith_digits B (activeTileCoords signal o w) 0
  have hl : (activeTileCoords signal o w).length = signal.length := by simp [activeTileCoords]
  rw [hl, ← List.range_eq_range', pow_zero, one_mul] at h
  simp only [activeTileBit, npMul, hl, List.length_map, List.length_range, if_true, ok_bind, pure_eq_ok]
  rw [h]

theorem tilingLoop_eq {signal : List ℝ} {w : ℝ} {tb : List ℤ} (f : ℝ → ℤ)
    (hf : ∀ o, activeTileBit signal o w tb = .ok (f o)) (l : List (ℤ × ℝ)) :
    tilingLoop signal w tb (l.map Prod.fst) (l.map Prod.snd) = .ok (l.map fun p => f p.2 + p.1) := by
  induction l with
  | nil => rfl
  | cons p l ih => simp only [List.map_cons, tilingLoop, hf, ih, ok_bind, pure_eq_ok]

theorem pyRange_pos {s : ℤ} (hs : 0 < s) (a : ℤ) (n : ℕ) :
    pyRange a (a + s * n) s = .ok ((List.range n).map fun i : ℕ => a + i * s) := by
  have e : (a + s * n - a + s - 1) / s = n := by
    rw [show a + s * n - a + s - 1 = (s - 1) + s * n by ring, Int.add_mul_ediv_left _ _ hs.ne',
      Int.ediv_eq_zero_of_lt (by omega) (by omega), zero_add]
  simp only [pyRange, hs.ne', hs, if_true, if_false, e, Int.toNat_natCast]

/-- The widths for which the tiles of a tiling fit: `1/k` for a natural number `k`, which is what the default gives. -/
def Width (n : ℕ) (width : Option ℝ) (k : ℕ) : Prop := width = none ∧ k = n ∨ width = some (1 / (k : ℝ))

variable {n dim k : ℕ} {width : Option ℝ} {bias : Bool} {t : TileCoder}

theorem axis_eq (hn : 1 ≤ n) (hk : 1 ≤ k) (hw : Width n width k) :
    TileCoder.axis n width = .ok ((k : ℤ) + 1, 1 / (k : ℝ)) := by
  have hk' : (k : ℝ) ≠ 0 := by positivity
  rcases hw with ⟨rfl, rfl⟩ | rfl
  · simp only [TileCoder.axis, pyDiv_of_ne hk', ok_bind, pure_eq_ok]
  · have h2 : (1 / (k : ℝ)) ≠ 0 := by positivity
    simp only [TileCoder.axis, pyDiv_of_ne h2, ok_bind, pure_eq_ok, one_div_one_div, Int.floor_natCast]

/-- The attributes of a coder with a fitting width. -/
structure Made (n dim k : ℕ) (bias : Bool) (t : TileCoder) : Prop where
  width : t.tileWidth = 1 / (k : ℝ)
  bias_eq : t.bias = bias
  biasIndex : t.biasIndex = if bias then some 0 else none
  features : t.numFeatures = (if bias then 1 else 0) + n * ((k : ℤ) + 1) ^ dim
  active : t.numActive = n + if bias then 1 else 0
  perTiling : t.tilesPerTiling = ((k : ℤ) + 1) ^ dim
  bases : t.tilingBases = (List.range n).map fun i : ℕ => (if bias then 1 else 0) + (i : ℤ) * ((k : ℤ) + 1) ^ dim
  offsets : t.offsets = (List.range n).map fun i : ℕ => (i : ℝ) * (1 / (k : ℝ) / n)
  tileBases : t.tileBases = (List.range dim).map fun i => ((k : ℤ) + 1) ^ i

theorem init_made (hn : 1 ≤ n) (hk : 1 ≤ k) (hw : Width n width k) :
    ∃ t, TileCoder.init n dim width bias = .ok t ∧ Made n dim k bias t := by
  have hk' : (k : ℝ) ≠ 0 := by positivity
  have hn' : (n : ℝ) ≠ 0 := by positivity
  have hB : 0 < ((k : ℤ) + 1) ^ dim := by positivity
  have hr : pyRange (if bias then 1 else 0) (if bias then ((k : ℤ) + 1) ^ dim * n + 1 else ((k : ℤ) + 1) ^ dim * n)
      (((k : ℤ) + 1) ^ dim) =
      .ok ((List.range n).map fun i : ℕ => (if bias then 1 else 0) + (i : ℤ) * ((k : ℤ) + 1) ^ dim) := by
    rw [← pyRange_pos hB]
    cases bias <;> simp [add_comm]
  have ha : TileCoder.arange (1 / (k : ℝ)) (1 / (k : ℝ) / n) =
      (List.range n).map fun i : ℕ => (i : ℝ) * (1 / (k : ℝ) / n) := by
    have : (1 / (k : ℝ)) / (1 / (k : ℝ) / n) = n := by field_simp
    rw [TileCoder.arange, this, Int.ceil_natCast, Int.toNat_natCast]
  refine ⟨_, by simp only [TileCoder.init, axis_eq hn hk hw, ok_bind, hr, pyDiv_of_ne hn', pure_eq_ok]; rfl, ?_⟩
  constructor
  · rfl
  · rfl
  · rfl
  · cases bias <;> simp <;> ring
  · cases bias <;> rfl
  · rfl
  · rfl
  · exact ha
  · rfl

theorem coords_bounds (hn : 1 ≤ n) (hk : 1 ≤ k) {x : ℝ} (h0 : 0 ≤ x) (h1 : x ≤ 1) {i : ℕ} (hi : i < n) :
    0 ≤ ⌊(x + (i : ℝ) * (1 / (k : ℝ) / n)) / (1 / (k : ℝ))⌋ ∧
      ⌊(x + (i : ℝ) * (1 / (k : ℝ) / n)) / (1 / (k : ℝ))⌋ < (k : ℤ) + 1 := by
  have hk' : (0 : ℝ) < k := by positivity
  have hn' : (0 : ℝ) < n := by positivity
  have e : (x + (i : ℝ) * (1 / (k : ℝ) / n)) / (1 / (k : ℝ)) = x * k + i / n := by field_simp
  rw [e]
  have hin : (i : ℝ) / n < 1 := (div_lt_one hn').mpr (by exact_mod_cast hi)
  constructor
  · exact Int.floor_nonneg.mpr (by positivity)
  · rw [Int.floor_lt]
    push_cast
    nlinarith

/-- The tile numbers within the tilings. -/
noncomputable def tileNumber (n k : ℕ) (signal : List ℝ) (i : ℕ) : ℤ :=
  digits ((k : ℤ) + 1) (activeTileCoords signal ((i : ℝ) * (1 / (k : ℝ) / n)) (1 / (k : ℝ)))

theorem coords_mem (hn : 1 ≤ n) (hk : 1 ≤ k) {signal : List ℝ} (hs : ∀ x ∈ signal, 0 ≤ x ∧ x ≤ 1) {i : ℕ} (hi : i < n) :
    ∀ c ∈ activeTileCoords signal ((i : ℝ) * (1 / (k : ℝ) / n)) (1 / (k : ℝ)), 0 ≤ c ∧ c < (k : ℤ) + 1 := by
  intro c hc
  simp only [activeTileCoords, List.mem_map] at hc
  obtain ⟨x, hx, rfl⟩ := hc
  exact coords_bounds hn hk (hs x hx).1 (hs x hx).2 hi

theorem tiles_eq (ht : Made n dim k bias t) {signal : List ℝ} (hl : signal.length = dim) :
    tilingLoop signal t.tileWidth t.tileBases t.tilingBases t.offsets =
      .ok ((List.range n).map fun i : ℕ => tileNumber n k signal i + ((if bias then 1 else 0) + (i : ℤ) * ((k : ℤ) + 1) ^ dim)) := by
  have h := tilingLoop_eq (signal := signal) (w := 1 / (k : ℝ))
    (tb := (List.range signal.length).map fun i => ((k : ℤ) + 1) ^ i) _ (fun o => activeTileBit_eq _ signal o _)
    ((List.range n).map fun i : ℕ => (((if bias then 1 else 0) + (i : ℤ) * ((k : ℤ) + 1) ^ dim : ℤ),
      (i : ℝ) * (1 / (k : ℝ) / n)))
  simp only [List.map_map, Function.comp_def] at h
  rw [ht.width, ht.tileBases, ht.bases, ht.offsets, ← hl]
  rw [← hl] at h
  exact h

theorem getActiveTiles_eq (ht : Made n dim k bias t) {signal : List ℝ} (hl : signal.length = dim) :
    t.getActiveTiles signal = .ok (((List.range n).map fun i : ℕ =>
      tileNumber n k signal i + ((if bias then 1 else 0) + (i : ℤ) * ((k : ℤ) + 1) ^ dim)) ++ if bias then [0] else []) := by
  simp only [TileCoder.getActiveTiles, activeTilingBits, tiles_eq ht hl, ok_bind, ht.bias_eq, ht.biasIndex]
  cases bias <;> simp

theorem coder_eq (hn : 1 ≤ n) (ht : Made n dim k bias t) {signal : List ℝ} (hl : signal.length = dim) :
    t.coder signal = .ok ((if bias then [0] else []) ++ (List.range n).map fun i : ℕ =>
      tileNumber n k signal i + ((if bias then 1 else 0) + (i : ℤ) * ((k : ℤ) + 1) ^ dim)) := by
  have h := tiles_eq ht hl
  cases bias with
  | false =>
    simp only [TileCoder.coder, ht.biasIndex, Bool.false_eq_true, if_false, activeTilingBits] at h ⊢
    simpa using h
  | true =>
    have h0 : pyGet t.tilingBases 0 = .ok 1 := by
      rw [ht.bases]
      simp [pyGet, List.getElem?_map, List.getElem?_range (show 0 < n by omega)]
    simp only [TileCoder.coder, ht.biasIndex, if_true, activeTilingBits, h0, ok_bind] at h ⊢
    rw [if_neg (by norm_num), h]
    rfl

/-! ### Resolution -/

theorem coord_div (hn : 1 ≤ n) (hk : 1 ≤ k) (x : ℝ) (i : ℕ) :
    ⌊(x + (i : ℝ) * (1 / (k : ℝ) / n)) / (1 / (k : ℝ))⌋ = (⌊x * k * n⌋ + i) / (n : ℤ) := by
  have hk' : (0 : ℝ) < k := by positivity
  have hn' : (0 : ℝ) < n := by positivity
  have e : (x + (i : ℝ) * (1 / (k : ℝ) / n)) / (1 / (k : ℝ)) = (x * k * n + i) / n := by field_simp
  rw [e, Int.floor_div_natCast, Int.floor_add_natCast]

theorem sum_shift (n : ℕ) (hn : 1 ≤ n) (a : ℤ) : ∑ i ∈ Finset.range n, (a + (i : ℤ)) / (n : ℤ) = a := by
  have hn' : (n : ℤ) ≠ 0 := by omega
  have step : ∀ a : ℤ, ∑ i ∈ Finset.range n, (a + 1 + (i : ℤ)) / (n : ℤ) =
      ∑ i ∈ Finset.range n, (a + (i : ℤ)) / (n : ℤ) + 1 := by
    intro a
    have h1 := Finset.sum_range_succ' (fun i : ℕ => (a + (i : ℤ)) / (n : ℤ)) n
    have h2 := Finset.sum_range_succ (fun i : ℕ => (a + (i : ℤ)) / (n : ℤ)) n
    have h3 : (a + (n : ℤ)) / (n : ℤ) = a / n + 1 := Int.add_ediv_of_dvd_right (dvd_refl _) |>.trans (by
      rw [Int.ediv_self hn'])
    simp only [Nat.cast_zero, add_zero] at h1
    have h4 : ∀ i : ℕ, (a + ((i + 1 : ℕ) : ℤ)) / (n : ℤ) = (a + 1 + (i : ℤ)) / (n : ℤ) := by
      intro i
      congr 1
      push_cast
      ring
    simp only [h4] at h1
    linarith
  induction a using Int.induction_on with
  | zero =>
    apply Finset.sum_eq_zero
    intro i hi
    rw [zero_add]
    exact Int.ediv_eq_zero_of_lt (by positivity) (by exact_mod_cast Finset.mem_range.mp hi)
  | succ a ih => rw [step, ih]
  | pred a ih =>
    have := step (-(a : ℤ) - 1)
    rw [sub_add_cancel, ih] at this
    linarith

theorem count_le (n : ℕ) (hn : 1 ≤ n) {a b : ℤ} (hab : a ≤ b) :
    (((Finset.range n).filter fun i : ℕ => (a + (i : ℤ)) / (n : ℤ) ≠ (b + (i : ℤ)) / (n : ℤ)).card : ℤ) ≤ b - a := by
  have h : b - a = ∑ i ∈ Finset.range n, ((b + (i : ℤ)) / (n : ℤ) - (a + (i : ℤ)) / (n : ℤ)) := by
    rw [Finset.sum_sub_distrib, sum_shift n hn, sum_shift n hn]
  rw [h, Finset.card_filter]
  push_cast
  apply Finset.sum_le_sum
  intro i _
  have hle : (a + (i : ℤ)) / (n : ℤ) ≤ (b + (i : ℤ)) / (n : ℤ) := Int.ediv_le_ediv (by omega) (by omega)
  split_ifs with hne
  · omega
  · omega

theorem count_le_abs (n : ℕ) (hn : 1 ≤ n) (a b : ℤ) :
    ((Finset.range n).filter fun i : ℕ => (a + (i : ℤ)) / (n : ℤ) ≠ (b + (i : ℤ)) / (n : ℤ)).card ≤ (b - a).natAbs := by
  rcases le_total a b with h | h
  · have := count_le n hn h
    omega
  · have := count_le n hn h
    have e : ((Finset.range n).filter fun i : ℕ => (a + (i : ℤ)) / (n : ℤ) ≠ (b + (i : ℤ)) / (n : ℤ)) =
        (Finset.range n).filter fun i : ℕ => (b + (i : ℤ)) / (n : ℤ) ≠ (a + (i : ℤ)) / (n : ℤ) := by
      ext i
      simp only [Finset.mem_filter, ne_eq, eq_comm]
    rw [e]
    omega

theorem eq_of_shifts (n : ℕ) (hn : 1 ≤ n) {a b : ℤ} (h : ∀ i < n, (a + (i : ℤ)) / (n : ℤ) = (b + (i : ℤ)) / (n : ℤ)) :
    a = b := by
  rw [← sum_shift n hn a, ← sum_shift n hn b]
  exact Finset.sum_congr rfl fun i hi => h i (Finset.mem_range.mp hi)

end Sensors

end Verif
