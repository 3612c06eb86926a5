import Verif.Py
import Mathlib.Algebra.Order.Floor.Ring
import Mathlib.Algebra.Order.Archimedean.Real.Basic

/-!
# Tile coding (sensors.py)

Simplifications: floats are exact reals, so that in particular `np.arange(0, w, w/n)` has exactly `n` entries; a
one-dimensional signal is a list of one number.  The plotting methods (sensors.py:328-372) are not modelled.
-/

namespace Verif

/-- `range(a, b, s)`: raises `ValueError` for step zero. -/
def pyRange (a b s : ℤ) : Py (List ℤ) :=
  if s = 0 then .error .valueError
  else if 0 < s then .ok ((List.range ((b - a + s - 1) / s).toNat).map fun i : ℕ => a + i * s)
  else .ok ((List.range ((a - b - s - 1) / -s).toNat).map fun i : ℕ => a + i * s)

namespace Sensors

/-- `get_pairs(dims)` (sensors.py:7-14). -/
def getPairs (dims : ℕ) : List (ℕ × ℕ) :=
  (List.range dims).flatMap fun i => (List.range' (i + 1) (dims - (i + 1))).map fun j => (i, j)

/-- The product of two numpy vectors: equal lengths, or one of them a single number, otherwise `ValueError`. -/
def npMul (a b : List ℤ) : Py (List ℤ) :=
  if a.length = b.length then .ok (List.zipWith (· * ·) a b)
  else match a, b with
    | [x], _ => .ok (b.map (x * ·))
    | _, [y] => .ok (a.map (· * y))
    | _, _ => .error .valueError

/-- `active_tile_coords` (sensors.py:50-67) for a width other than zero: floor division. -/
noncomputable def activeTileCoords (signal : List ℝ) (offset w : ℝ) : List ℤ := signal.map fun x => ⌊(x + offset) / w⌋

/-- `active_tile_bit` (sensors.py:16-48). -/
noncomputable def activeTileBit (signal : List ℝ) (offset w : ℝ) (tileBases : List ℤ) : Py ℤ := do
  let v ← npMul (activeTileCoords signal offset w) tileBases
  pure v.sum

/-- The loop of `active_tiling_bits` (sensors.py:107-110). -/
noncomputable def tilingLoop (signal : List ℝ) (w : ℝ) (tileBases : List ℤ) : List ℤ → List ℝ → Py (List ℤ)
  | [], _ => pure []
  | _ :: _, [] => .error .indexError
  | t :: ts, o :: os => do
    let b ← activeTileBit signal o w tileBases
    let rest ← tilingLoop signal w tileBases ts os
    pure ((b + t) :: rest)

/-- `active_tiling_bits` (sensors.py:81-111). -/
noncomputable def activeTilingBits (signal : List ℝ) (offsets : List ℝ) (tilingBases : List ℤ) (w : ℝ)
    (tileBases : List ℤ) (biasIndex : Option ℤ) : Py (List ℤ) :=
  match biasIndex with
  | none => tilingLoop signal w tileBases tilingBases offsets
  | some b => do
    let t0 ← pyGet tilingBases 0
    let rest ← tilingLoop signal w tileBases (if b = t0 then tilingBases.map (· + 1) else tilingBases) offsets
    pure (b :: rest)

/-- The attributes of a `TileCoder` (sensors.py:177-208). -/
structure TileCoder where
  numTilings : ℕ
  dimensionality : ℕ
  bias : Bool
  numActive : ℕ
  tilesPerAxis : ℤ
  tileWidth : ℝ
  tilesPerTiling : ℤ
  numBits : ℤ
  numFeatures : ℤ
  biasIndex : Option ℤ
  tilingBases : List ℤ
  offsets : List ℝ
  tileBases : List ℤ

namespace TileCoder

/-- The width and the number of tiles per axis (sensors.py:184-189). -/
noncomputable def axis (n : ℕ) : Option ℝ → Py (ℤ × ℝ)
  | none => do
    let w ← pyDiv 1 n
    pure ((n : ℤ) + 1, w)
  | some w => do
    let q ← pyDiv 1 w
    pure (⌊q⌋ + 1, w)

/-- `np.arange(0, w, s)`, with `s` other than zero. -/
noncomputable def arange (w s : ℝ) : List ℝ := (List.range ⌈w / s⌉.toNat).map fun i : ℕ => (i : ℝ) * s

/-- `__init__` (sensors.py:128-208). -/
noncomputable def init (n dim : ℕ) (width : Option ℝ) (bias : Bool) : Py TileCoder := do
  let (axes, w) ← axis n width
  let perTiling := axes ^ dim
  let bits := perTiling * n
  let features := if bias then bits + 1 else bits
  let tilingBases ← pyRange (if bias then 1 else 0) features perTiling
  let step ← pyDiv w n
  pure { numTilings := n, dimensionality := dim, bias := bias, numActive := if bias then n + 1 else n,
         tilesPerAxis := axes, tileWidth := w, tilesPerTiling := perTiling, numBits := bits, numFeatures := features,
         biasIndex := if bias then some 0 else none, tilingBases := tilingBases, offsets := arange w step,
         tileBases := (List.range dim).map fun i => axes ^ i }

/-- `get_coder()(signal)` (sensors.py:210-245). -/
noncomputable def coder (t : TileCoder) (signal : List ℝ) : Py (List ℤ) :=
  activeTilingBits signal t.offsets t.tilingBases t.tileWidth t.tileBases t.biasIndex

/-- `get_active_tile` (sensors.py:247-265). -/
noncomputable def getActiveTile (t : TileCoder) (signal : List ℝ) (i : ℕ) : Py ℤ := do
  let o ← pyGet t.offsets i
  activeTileBit signal o t.tileWidth t.tileBases

/-- `get_active_tiles`, `__call__` and `update` (sensors.py:267-326). -/
noncomputable def getActiveTiles (t : TileCoder) (signal : List ℝ) : Py (List ℤ) := do
  let ind ← activeTilingBits signal t.offsets t.tilingBases t.tileWidth t.tileBases none
  match t.bias, t.biasIndex with
  | true, some b => pure (ind ++ [b])
  | _, _ => pure ind

end TileCoder

/-- `concatenate_coders` (sensors.py:69-79): each coder gets the selected entries of the signal, and its indices are
shifted by its offset.  The loop runs over `coder_funs`. -/
def concatenateCoders (signal : List ℝ) : List (List ℝ → Py (List ℤ)) → List (List ℕ) → List ℤ → Py (List ℤ)
  | [], _, _ => pure []
  | f :: fs, inds, offs => do
    let ind ← pyGet inds 0
    let sig ← ind.mapM (pyGet signal)
    let out ← f sig
    let shifted ← (if out = [] then pure [] else do
      let off ← pyGet offs 0
      pure (out.map (· + off)))
    let rest ← concatenateCoders signal fs (inds.drop 1) (offs.drop 1)
    pure (shifted ++ rest)

end Sensors

end Verif
