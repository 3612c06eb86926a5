import Verif.Model.AC
import Verif.Model.Rounding
import Mathlib.Data.Int.Log

/-!
# The encoder in rounded arithmetic (ac.py:16-25, 83-157), and double precision

The definitions of `Verif.Model.AC` for the encoder, with `math.exp`, the difference `1 - p_symbol` and the product
`(self.high - self.low) * p_zero` rounded.  The limits of the interval are integers and stay exact, and so does `int`.  The simplifications of
`Verif.Model.AC` apply otherwise.
-/

namespace Verif

namespace Arith

open AC

variable {σ : Type} (R : Arith)

/-- `p_zero` as the encoder computes it (ac.py:96-97). -/
noncomputable def acP (r : ℝ) (b : Bool) : ℝ := if b then R.sub 1 (R.exp r) else R.exp r

/-- The split point (ac.py:98). -/
noncomputable def acSplit (low high : ℤ) (pZero : ℝ) : ℤ := low + max 1 (pyInt (R.mul ((high - low : ℤ) : ℝ) pZero))

/-- `encode` (ac.py:83-146). -/
noncomputable def acEncode (P : Predictor σ Bool) (N fuel : ℕ) (s : Enc) (st : σ) (b : Bool) : Run (List Bool × Enc × σ) := do
  let (r, st') ← liftRun (P.update st b [] 1)
  let split := R.acSplit s.low s.high (R.acP r b)
  let (o, s') ← normLoop N fuel (if b then { s with low := split } else { s with high := split })
  pure (o, s', st')

/-- The loop of `compress` (ac.py:22-23). -/
noncomputable def acEncodeAll (P : Predictor σ Bool) (N fuel : ℕ) : Enc → σ → List Bool → Run (List Bool × Enc × σ)
  | s, st, [] => pure ([], s, st)
  | s, st, b :: bs => do
    let (o, s', st') ← R.acEncode P N fuel s st b
    let (o', s'', st'') ← acEncodeAll P N fuel s' st' bs
    pure (o ++ o', s'', st'')

/-- `compress` (ac.py:16-25). -/
noncomputable def acCompress (P : Predictor σ Bool) (N fuel : ℕ) (st : σ) (bits : List Bool) : Run (List Bool) := do
  let (o, s, _) ← R.acEncodeAll P N fuel (Enc.init N) st bits
  pure (o ++ s.flush N)

end Arith

/-! ### Double precision -/

namespace Double

/-- The nearest integer, and the even one of two. -/
noncomputable def roundEven (x : ℝ) : ℤ :=
  if Int.fract x < 1 / 2 then ⌊x⌋
  else if 1 / 2 < Int.fract x then ⌊x⌋ + 1
  else if Even ⌊x⌋ then ⌊x⌋ else ⌊x⌋ + 1

/-- The unit in the last place: numbers have 53 binary digits.  The exponent is not bounded, so that nothing overflows or underflows. -/
noncomputable def ulp (x : ℝ) : ℝ := 2 ^ (Int.log 2 |x| - 52)

/-- The nearest number with 53 binary digits. -/
noncomputable def fl (x : ℝ) : ℝ := roundEven (x / ulp x) * ulp x

/-- Double precision.  `math.log` and `math.exp` are correctly rounded here, as in the better libraries. -/
noncomputable def arith : Arith where
  add x y := fl (x + y)
  sub x y := fl (x - y)
  mul x y := fl (x * y)
  div x y := fl (x / y)
  log x := fl (Real.log x)
  exp x := fl (Real.exp x)

end Double

end Verif
