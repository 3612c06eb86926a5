import Verif.Model.Predictor
import Mathlib.Algebra.Order.Floor.Ring
import Mathlib.Algebra.Order.Archimedean.Real.Basic

/-!
# The arithmetic coder (ac.py)

Simplifications.
* Floats are exact reals.  In particular the encoder's `1 - exp(update(1))` and the decoder's `predict(0)` are compared as
  reals.
* Bits and binary symbols are Booleans, with `false` for 0.
* `while` loops carry fuel; running out of it is the outcome `timeout`.  A loop that does not terminate is one that times
  out with every amount of fuel.
* Generators are evaluated to the end.  (`decompress` evaluates all `decode` calls before its first result anyway, because
  of the `*` in line 43.)
* The model is called as the code calls it: `update(symbol)` and `predict(0)`, that is, without a history and with weight
  one.
-/

namespace Verif

/-- How a computation can fail to return: by raising, or by running out of fuel. -/
inductive Halt
  | raised (e : PyErr)
  | timeout
  deriving DecidableEq

/-- Computations with loops. -/
abbrev Run := Except Halt

/-- A computation without loops. -/
def liftRun {α : Type} : Py α → Run α
  | .ok a => .ok a
  | .error e => .error (.raised e)

/-- `int(x)`: truncation towards zero. -/
noncomputable def pyInt (x : ℝ) : ℤ := if 0 ≤ x then ⌊x⌋ else ⌈x⌉

namespace AC

/-- `_top` (ac.py:74, 163). -/
def top (N : ℕ) : ℤ := 2 ^ N
/-- `_half` (ac.py:75, 164). -/
def half (N : ℕ) : ℤ := top N / 2
/-- `_1_4` (ac.py:76, 165). -/
def quarter (N : ℕ) : ℤ := half N / 2
/-- The encoder's `_3_4` (ac.py:77): `_top - _half`. -/
def enc34 (N : ℕ) : ℤ := top N - half N
/-- The decoder's `_3_4` (ac.py:166): `_top - _1_4`. -/
def dec34 (N : ℕ) : ℤ := top N - quarter N

/-- The state of a `BinaryArithmeticEncoder` apart from its model (ac.py:79-81). -/
structure Enc where
  low : ℤ
  high : ℤ
  follow : ℕ
  deriving DecidableEq

/-- `__init__` (ac.py:70-81). -/
def Enc.init (N : ℕ) : Enc := ⟨0, top N, 0⟩

/-- The loop of `encode` (ac.py:125-144). -/
def normLoop (N : ℕ) : ℕ → Enc → Run (List Bool × Enc)
  | 0, _ => .error .timeout
  | k + 1, s =>
    if s.high ≤ half N then do
      let (o, s') ← normLoop N k ⟨s.low * 2, s.high * 2, 0⟩
      pure (false :: List.replicate s.follow true ++ o, s')
    else if s.low ≥ half N then do
      let (o, s') ← normLoop N k ⟨(s.low - half N) * 2, (s.high - half N) * 2, 0⟩
      pure (true :: List.replicate s.follow false ++ o, s')
    else if s.low ≥ quarter N ∧ s.high ≤ enc34 N then
      normLoop N k ⟨(s.low - quarter N) * 2, (s.high - quarter N) * 2, s.follow + 1⟩
    else pure ([], s)

/-- The split point (ac.py:98). -/
noncomputable def encSplit (low high : ℤ) (pZero : ℝ) : ℤ := low + max 1 (pyInt (((high - low : ℤ) : ℝ) * pZero))

/-- `encode` once `p_zero` is known (ac.py:98-146). -/
noncomputable def encodeWith (N fuel : ℕ) (s : Enc) (pZero : ℝ) (b : Bool) : Run (List Bool × Enc) :=
  normLoop N fuel (if b then { s with low := encSplit s.low s.high pZero }
    else { s with high := encSplit s.low s.high pZero })

variable {σ : Type}

/-- `p_zero` as the encoder computes it (ac.py:96-97). -/
noncomputable def encP (r : ℝ) (b : Bool) : ℝ := if b then 1 - Real.exp r else Real.exp r

/-- `encode` (ac.py:83-146). -/
noncomputable def encode (P : Predictor σ Bool) (N fuel : ℕ) (s : Enc) (st : σ) (b : Bool) :
    Run (List Bool × Enc × σ) := do
  let (r, st') ← liftRun (P.update st b [] 1)
  let (o, s') ← encodeWith N fuel s (encP r b) b
  pure (o, s', st')

/-- `flush` (ac.py:148-157). -/
def Enc.flush (N : ℕ) (s : Enc) : List Bool :=
  if s.low < quarter N then false :: List.replicate (s.follow + 1) true
  else true :: List.replicate (s.follow + 1) false

/-- The loop of `compress` (ac.py:22-23). -/
noncomputable def encodeAll (P : Predictor σ Bool) (N fuel : ℕ) : Enc → σ → List Bool → Run (List Bool × Enc × σ)
  | s, st, [] => pure ([], s, st)
  | s, st, b :: bs => do
    let (o, s', st') ← encode P N fuel s st b
    let (o', s'', st'') ← encodeAll P N fuel s' st' bs
    pure (o ++ o', s'', st'')

/-- `compress` (ac.py:16-25), for an encoder with `N` bits (the code uses the default 32). -/
noncomputable def compress (P : Predictor σ Bool) (N fuel : ℕ) (st : σ) (bits : List Bool) : Run (List Bool) := do
  let (o, s, _) ← encodeAll P N fuel (Enc.init N) st bits
  pure (o ++ s.flush N)

/-- The state of a `BinaryArithmeticDecoder` apart from its model (ac.py:167-169). -/
structure Dec where
  low : ℤ
  high : ℤ
  value : ℤ
  deriving DecidableEq

/-- `__init__` (ac.py:160-169). -/
def Dec.init : Dec := ⟨0, 1, 0⟩

/-- The rescaling at the start of `decode` (ac.py:172-179). -/
def Dec.shift (N : ℕ) (d : Dec) : Dec :=
  if d.low ≥ half N then ⟨d.low - half N, d.high - half N, d.value - half N⟩
  else if d.low ≥ quarter N ∧ d.high ≤ dec34 N then ⟨d.low - quarter N, d.high - quarter N, d.value - quarter N⟩
  else d

/-- Reading the next bit (ac.py:181-184). -/
def Dec.push (d : Dec) (bit : Bool) : Dec := ⟨d.low * 2, d.high * 2, d.value * 2 + bit.toNat⟩

/-- The split point (ac.py:190). -/
noncomputable def decSplit (low high : ℤ) (pZero : ℝ) : ℤ := low + pyInt (((high - low : ℤ) : ℝ) * pZero)

/-- The loop of `decode` (ac.py:188-199). -/
noncomputable def decodeLoop (P : Predictor σ Bool) (N : ℕ) : ℕ → Dec → σ → Run (List Bool × Dec × σ)
  | 0, _, _ => .error .timeout
  | k + 1, d, st =>
    if d.low < half N ∧ half N < d.high then do
      let (r, st1) ← liftRun (P.logPredict st false [])
      let split := decSplit d.low d.high (Real.exp r)
      let b : Bool := decide (¬ d.value < split)
      let (_, st2) ← liftRun (P.update st1 b [] 1)
      let (o, d', st') ← decodeLoop P N k (if b then { d with low := split } else { d with high := split }) st2
      pure (b :: o, d', st')
    else pure ([], d, st)

/-- `decode` (ac.py:171-201). -/
noncomputable def decode (P : Predictor σ Bool) (N fuel : ℕ) (d : Dec) (st : σ) (bit : Bool) :
    Run (List Bool × Dec × σ) :=
  decodeLoop P N fuel ((d.shift N).push bit) st

/-- The loop of `decompress` (ac.py:43). -/
noncomputable def decodeAll (P : Predictor σ Bool) (N fuel : ℕ) : Dec → σ → List Bool → Run (List Bool × Dec × σ)
  | d, st, [] => pure ([], d, st)
  | d, st, b :: bs => do
    let (o, d', st') ← decode P N fuel d st b
    let (o', d'', st'') ← decodeAll P N fuel d' st' bs
    pure (o ++ o', d'', st'')

/-- The loop of `flush` (ac.py:205-206). -/
noncomputable def flushLoop (P : Predictor σ Bool) (N fuel : ℕ) (nbits : ℤ) : ℕ → Dec → σ → List Bool → Run (List Bool)
  | 0, _, _, _ => .error .timeout
  | k + 1, d, st, out =>
    if (out.length : ℤ) < nbits then do
      let (o, d', st') ← decode P N fuel d st false
      flushLoop P N fuel nbits k d' st' (out ++ o)
    else pure out

/-- `l[:n]`. -/
def pyTake {α : Type} (l : List α) (n : ℤ) : List α := if 0 ≤ n then l.take n.toNat else l.take (l.length - (-n).toNat)

/-- `decompress` (ac.py:36-47) with `flush` (ac.py:203-207). -/
noncomputable def decompress (P : Predictor σ Bool) (N fuel : ℕ) (st : σ) (bits : List Bool) (msglen : ℕ) :
    Run (List Bool) := do
  let (o, d, st') ← decodeAll P N fuel Dec.init st bits
  let nbits : ℤ := (msglen : ℤ) - (o.length : ℤ)
  let f ← flushLoop P N fuel nbits fuel d st' []
  pure (o ++ pyTake f nbits)

/-- `(m >> i) & 1 for m in bytes for i in range(8)` (ac.py:31, 54). -/
def unpack (bytes : List ℕ) : List Bool := bytes.flatMap fun m => (List.range 8).map fun i => m.testBit i

/-- `grouper(n + 1, bits, '0')` (ac.py:12-14): chunks, the last one padded. -/
def grouper (n : ℕ) (l : List Bool) : List (List Bool) :=
  if h : l = [] then []
  else (l.take (n + 1) ++ List.replicate (n + 1 - l.length) false) :: grouper n (l.drop (n + 1))
termination_by l.length
decreasing_by
  have := List.length_pos_iff.mpr h
  simp only [List.length_drop]
  omega

/-- `int(''.join(byte), 2)`: most significant bit first. -/
def fromBits (l : List Bool) : ℕ := l.foldl (fun acc b => 2 * acc + b.toNat) 0

/-- The packing of bits into bytes (ac.py:33, 56). -/
def pack (bits : List Bool) : List ℕ := (grouper 7 bits).map fromBits

/-- `compress_bytes` (ac.py:27-34). -/
noncomputable def compressBytes (P : Predictor σ Bool) (N fuel : ℕ) (st : σ) (bytes : List ℕ) : Run (List ℕ) := do
  let c ← compress P N fuel st (unpack bytes)
  pure (pack c)

/-- `decompress_bytes` (ac.py:49-57). -/
noncomputable def decompressBytes (P : Predictor σ Bool) (N fuel : ℕ) (st : σ) (bytes : List ℕ) (msglen : ℕ) :
    Run (List ℕ) := do
  let r ← decompress P N fuel st (unpack bytes) (msglen * 8)
  pure (pack r)

end AC

end Verif
