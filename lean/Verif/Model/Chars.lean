import Verif.Model.Fast
import Verif.Spec.Predictor

/-!
# Symbols between Python and C (modelfast.py:5-35, 94-145, 180-190)

`CTW_KT` passes its symbols as `bytes`, and the C code receives them as `char`.  Whether a `char` is signed is left to the platform: it is
with the usual compilers on x86, and it is not on most ARM systems.  Symbols are integers here, as the caller wrote them.

An index that is not in `0 .. ALPHABET_SIZE - 1` addresses memory outside of the arrays of the node, of which C defines nothing; such calls
are `none`.  (`Verif.Model.OutOfRange` describes what happens just after the end of the array.)  The symbol is used as an index in every node
that a call visits, and a call visits one node per element of the context, so that a call is `none` as soon as one of the symbols that
it uses is not an index.
-/

namespace Verif

namespace Chars

/-- `bytes(l)`: ValueError unless the integers are in `range(256)`. -/
def bytes (l : List ℤ) : Py (List ℕ) :=
  if l.all fun x => 0 ≤ x && x < 256 then .ok (l.map Int.toNat) else .error .valueError

/-- The number that a `char` stands for that holds the byte `b`. -/
def value (signed : Bool) (b : ℕ) : ℤ := if signed && 128 ≤ b then (b : ℤ) - 256 else b

/-- The element of an array of `k` elements that `[i]` addresses, if there is one. -/
def index (k : ℕ) (i : ℤ) : Option (Fin k) := if h : 0 ≤ i ∧ i < k then some ⟨i.toNat, by omega⟩ else none

/-- What `CTW_KT.update` and `CTW_KT.log_predict` make of their symbol and history before the C code runs (modelfast.py:180-182, 185-186,
189-190), and which elements of `base_counts` and of `children` the C code uses (modelfast.py:98-99, 109-110, 132, 135-136), in the order in
which it reads the context. -/
def args (signed : Bool) (k depth : ℕ) (a : ℤ) (h : List ℤ) : Py (Option (Fin k × List (Fin k))) := do
  let context ← bytes (CTW.mkcontext depth 0 h)
  let symbol ← bytes [a]
  pure do
    let is ← symbol.mapM fun b => index k (value signed b)
    let i ← is.head?
    let cs ← ((context.take depth).reverse).mapM fun b => index k (value signed b)
    pure (i, cs)

variable {k : ℕ}

/-- One call (modelfast.py:184-190, 94-145). -/
noncomputable def step (signed : Bool) (depth : ℕ) (n : CTWNode (Fin k → ℝ) (Fin k)) :
    Predictor.Call ℤ → Py (Option (Py (ℝ × CTWNode (Fin k → ℝ) (Fin k))))
  | .update a h w => do
    let x ← args signed k depth a h
    pure (x.map fun p => n.update (Fast.kt k) (Fast.fresh k) p.1 [] w p.2)
  | .predict a h => do
    let x ← args signed k depth a h
    pure (x.map fun p => n.logPredict (Fast.kt k) (Fast.fresh k) p.1 [] p.2)

/-- What a caller sees from a sequence of calls, `none` if one of them leaves the arrays.  The caller may go on after an exception; the exceptions
of `bytes` come before anything is changed. -/
noncomputable def results (signed : Bool) (depth : ℕ) :
    CTWNode (Fin k → ℝ) (Fin k) → List (Predictor.Call ℤ) → Option (List (Py ℝ))
  | _, [] => some []
  | n, c :: cs =>
    match step signed depth n c with
    | .error e => (results signed depth n cs).map (.error e :: ·)
    | .ok none => none
    | .ok (some (.error e)) => (results signed depth n cs).map (.error e :: ·)
    | .ok (some (.ok (r, n'))) => (results signed depth n' cs).map (.ok r :: ·)

end Chars

end Verif
