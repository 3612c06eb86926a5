import Verif.Model.Fast
import Verif.Model.Rounding

/-!
# `model.CTW_KT` and `modelfast.CTW_KT` with rounded arithmetic (model.py:384-501, modelfast.py:25-155)

The operations of both are those of an arbitrary arithmetic, in the order of the two programs.

Simplifications.  The C program is taken to compute every operation separately in the arithmetic in which Python computes, with the same `log` and `exp`: a
compiler that joins operations or keeps more digits is not modelled.  C's `log` does not raise.  Trees are values, as in `Model/CTW.lean` (for their sharing
see C20 to C22).
-/

namespace Verif

namespace Arith

variable (R : Arith)

/-! ### `model.CTW_KT` -/

/-- `CTW_KT.Node.update` with `update_base` (model.py:406-440). -/
noncomputable def kUpdate (a : Bool) (w : ℝ) : List Bool → KNode → Py (ℝ × KNode)
  | [], n => do
    let q ← R.pyDiv (n.counts.get a) (R.add n.counts.c0 n.counts.c1)
    let l ← R.pyLog q
    let blp := R.add n.baseLP l
    pure (R.sub blp n.lp, .mk (R.ktBump n.counts a w) blp n.childrenLP blp n.children)
  | c :: cs, n => do
    let q ← R.pyDiv (n.counts.get a) (R.add n.counts.c0 n.counts.c1)
    let l ← R.pyLog q
    let blp := R.add n.baseLP l
    let child := (n.children c).getD .new
    let (rc, child') ← kUpdate a w cs child
    let clp := R.add n.childrenLP rc
    let l2 ← R.logsumexp2 blp clp
    let lp := R.add (R.log (1 / 2)) l2
    pure (R.sub lp n.lp, .mk (R.ktBump n.counts a w) blp clp lp (Function.update n.children c (some child')))

/-- `CTW_KT.Node.log_predict` (model.py:442-459). -/
noncomputable def kLogPredict (a : Bool) : List Bool → KNode → Py (ℝ × KNode)
  | [], n => do
    let q ← R.pyDiv (n.counts.get a) (R.add n.counts.c0 n.counts.c1)
    let l ← R.pyLog q
    pure (R.sub (R.add n.baseLP l) n.lp, n)
  | c :: cs, n => do
    let q ← R.pyDiv (n.counts.get a) (R.add n.counts.c0 n.counts.c1)
    let l ← R.pyLog q
    let blp := R.add n.baseLP l
    let child := (n.children c).getD .new
    let (rc, child') ← kLogPredict a cs child
    let clp := R.add n.childrenLP rc
    let l2 ← R.logsumexp2 blp clp
    pure (R.sub (R.add (R.log (1 / 2)) l2) n.lp,
      .mk n.counts n.baseLP n.childrenLP n.lp (Function.update n.children c (some child')))

/-- `CTW_KT` (model.py:484-501). -/
noncomputable def kPredictor (depth : ℕ) : Predictor KNode Bool where
  update n a h w := R.kUpdate a w (CTW.mkcontext depth false h).reverse n
  logPredict n a h := R.kLogPredict a (CTW.mkcontext depth false h).reverse n
  copy n := pure n

/-! ### `modelfast.CTW_KT` -/

/-- `logsumexp2` in C (modelfast.py:37-44). -/
noncomputable def cLogsumexp2 (a b : ℝ) : ℝ :=
  if b < a then R.add (R.log (R.add 1 (R.exp (R.sub b a)))) a
  else R.add (R.log (R.add 1 (R.exp (R.sub a b)))) b

variable {k : ℕ}

/-- `sum_counts`, added up in a loop (modelfast.py:96-97, 128-130). -/
noncomputable def cSum (s : Fin k → ℝ) : ℝ := (List.finRange k).foldl (fun x i => R.add x (s i)) 0

/-- `log(base_counts[symbol] / sum_counts)` (modelfast.py:98, 132). -/
noncomputable def cRatio (s : Fin k → ℝ) (a : Fin k) : ℝ := R.log (R.div (s a) (R.cSum s))

/-- `ctwnode_update` with `ctwnode_base_update` (modelfast.py:94-124). -/
noncomputable def cUpdate (fresh : Fin k → ℝ) (a : Fin k) (w : ℝ) :
    List (Fin k) → CTWNode (Fin k → ℝ) (Fin k) → ℝ × CTWNode (Fin k → ℝ) (Fin k)
  | [], n =>
    let blp := R.add n.baseLP (R.cRatio n.base a)
    (R.sub blp n.lp, .mk (Function.update n.base a (R.add (n.base a) w)) blp n.childrenLP blp n.children)
  | c :: cs, n =>
    let blp := R.add n.baseLP (R.cRatio n.base a)
    let p := cUpdate fresh a w cs ((n.children c).getD (.new fresh))
    let clp := R.add n.childrenLP p.1
    let lp := R.add (R.log (1 / 2)) (R.cLogsumexp2 blp clp)
    (R.sub lp n.lp, .mk (Function.update n.base a (R.add (n.base a) w)) blp clp lp (Function.update n.children c (some p.2)))

/-- `ctwnode_log_predict` (modelfast.py:126-146). -/
noncomputable def cLogPredict (fresh : Fin k → ℝ) (a : Fin k) :
    List (Fin k) → CTWNode (Fin k → ℝ) (Fin k) → ℝ × CTWNode (Fin k → ℝ) (Fin k)
  | [], n => (R.sub (R.add n.baseLP (R.cRatio n.base a)) n.lp, n)
  | c :: cs, n =>
    let blp := R.add n.baseLP (R.cRatio n.base a)
    let p := cLogPredict fresh a cs ((n.children c).getD (.new fresh))
    let clp := R.add n.childrenLP p.1
    (R.sub (R.add (R.log (1 / 2)) (R.cLogsumexp2 blp clp)) n.lp,
      .mk n.base n.baseLP n.childrenLP n.lp (Function.update n.children c (some p.2)))

/-- Initial counts, `1.0 / ALPHABET_SIZE` (modelfast.py:65). -/
noncomputable def cFresh (k : ℕ) : Fin k → ℝ := fun _ => R.div 1 k

/-- `modelfast.CTW_KT(depth, k)` (modelfast.py:184-190). -/
noncomputable def cPredictor (k : ℕ) [NeZero k] (depth : ℕ) : Predictor (CTWNode (Fin k → ℝ) (Fin k)) (Fin k) where
  update n a h w := .ok (R.cUpdate (R.cFresh k) a w (Fast.ctx depth h).reverse n)
  logPredict n a h := .ok (R.cLogPredict (R.cFresh k) a (Fast.ctx depth h).reverse n)
  copy n := .ok n

end Arith

end Verif
