import Verif.Model.CTW

/-!
# The estimators with rounded arithmetic (model.py:3-14, 117-143, 231-382)

The other files compute with exact reals.  Here every addition, subtraction, product, division, logarithm and exponential is one of an arbitrary
arithmetic, which is only known to be near the exact result.

`Arith.Accurate R ε` is what floating-point numbers of double precision satisfy with `ε = 2 ^ -52`, as long as nothing overflows: the
operations are correctly rounded, and `math.log` and `math.exp` are wrong by at most one unit in the last place.  The exponential of a very
small number is 0, hence the additional `ε` in its clause.
-/

namespace Verif

/-- The operations of an arithmetic. -/
structure Arith where
  add : ℝ → ℝ → ℝ
  sub : ℝ → ℝ → ℝ
  mul : ℝ → ℝ → ℝ
  div : ℝ → ℝ → ℝ
  log : ℝ → ℝ
  exp : ℝ → ℝ

namespace Arith

/-- Exact arithmetic. -/
noncomputable def exact : Arith := ⟨fun x y => x + y, fun x y => x - y, fun x y => x * y, fun x y => x / y, Real.log, Real.exp⟩

/-- Every result is within the factor `1 ± ε` of the exact one. -/
structure Accurate (R : Arith) (ε : ℝ) : Prop where
  nonneg : 0 ≤ ε
  small : ε ≤ 1 / 16
  add : ∀ x y, |R.add x y - (x + y)| ≤ ε * |x + y|
  sub : ∀ x y, |R.sub x y - (x - y)| ≤ ε * |x - y|
  mul : ∀ x y, |R.mul x y - x * y| ≤ ε * |x * y|
  div : ∀ x y, y ≠ 0 → |R.div x y - x / y| ≤ ε * |x / y|
  log : ∀ x, 0 < x → |R.log x - Real.log x| ≤ ε * |Real.log x|
  exp : ∀ x, x ≤ 0 → 0 ≤ R.exp x ∧ |R.exp x - Real.exp x| ≤ ε * Real.exp x + ε

variable (R : Arith)

/-- `math.log(x)`. -/
noncomputable def pyLog (x : ℝ) : Py ℝ := if 0 < x then .ok (R.log x) else .error .valueError

/-- `a / b`. -/
noncomputable def pyDiv (a b : ℝ) : Py ℝ := if b = 0 then .error .zeroDivisionError else .ok (R.div a b)

/-- `logsumexp2(v1, v2)` (model.py:10-14). -/
noncomputable def logsumexp2 (v1 v2 : ℝ) : Py ℝ :=
  if v1 < v2 then do
    let l ← R.pyLog (R.add 1 (R.exp (R.sub v1 v2)))
    pure (R.add v2 l)
  else do
    let l ← R.pyLog (R.add 1 (R.exp (R.sub v2 v1)))
    pure (R.add v1 l)

/-- `KTBinary.log_predict` (model.py:136-137). -/
noncomputable def ktLogPredict (s : KTBinary) (b : Bool) : Py ℝ := do
  let q ← R.pyDiv (s.get b) (R.add s.c0 s.c1)
  R.pyLog q

/-- `self.counts[symbol] += weight` (model.py:133). -/
noncomputable def ktBump (s : KTBinary) (b : Bool) (w : ℝ) : KTBinary :=
  if b then { s with c1 := R.add s.c1 w } else { s with c0 := R.add s.c0 w }

/-- `KTBinary.update` (model.py:131-134). -/
noncomputable def ktUpdate (s : KTBinary) (b : Bool) (w : ℝ) : Py (ℝ × KTBinary) := do
  let rv ← R.ktLogPredict s b
  pure (rv, R.ktBump s b w)

/-- `KTBinary` as a `Model` (model.py:117-143). -/
noncomputable def ktPredictor : Predictor KTBinary Bool where
  update s b _ w := R.ktUpdate s b w
  logPredict s b _ := do
    let r ← R.ktLogPredict s b
    pure (r, s)
  copy s := pure ⟨s.c0, s.c1⟩

variable {σ κ α : Type} [DecidableEq κ]

/-- `CTW.Node.update` (model.py:268-297) over base models of any arithmetic. -/
noncomputable def ctwUpdate (P : Predictor σ α) (fresh : σ) (a : α) (h : List α) (w : ℝ) :
    List κ → CTWNode σ κ → Py (ℝ × CTWNode σ κ)
  | [], n => do
    let (r, b) ← P.update n.base a h w
    let blp := R.add n.baseLP r
    pure (R.sub blp n.lp, .mk b blp n.childrenLP blp n.children)
  | c :: cs, n => do
    let (r, b) ← P.update n.base a h w
    let blp := R.add n.baseLP r
    let child := (n.children c).getD (.new fresh)
    let (rc, child') ← ctwUpdate P fresh a h w cs child
    let clp := R.add n.childrenLP rc
    let l ← R.logsumexp2 blp clp
    let lp := R.add (R.log (1 / 2)) l
    pure (R.sub lp n.lp, .mk b blp clp lp (Function.update n.children c (some child')))

/-- `CTW.Node.log_predict` (model.py:299-314). -/
noncomputable def ctwLogPredict (P : Predictor σ α) (fresh : σ) (a : α) (h : List α) :
    List κ → CTWNode σ κ → Py (ℝ × CTWNode σ κ)
  | [], n => do
    let (r, b) ← P.logPredict n.base a h
    pure (R.sub (R.add n.baseLP r) n.lp, .mk b n.baseLP n.childrenLP n.lp n.children)
  | c :: cs, n => do
    let (r, b) ← P.logPredict n.base a h
    let blp := R.add n.baseLP r
    let child := (n.children c).getD (.new fresh)
    let (rc, child') ← ctwLogPredict P fresh a h cs child
    let clp := R.add n.childrenLP rc
    let l ← R.logsumexp2 blp clp
    pure (R.sub (R.add (R.log (1 / 2)) l) n.lp,
      .mk b n.baseLP n.childrenLP n.lp (Function.update n.children c (some child')))

/-- `CTW.update` and `CTW.log_predict` (model.py:370-375). -/
noncomputable def ctwPredictor (P : Predictor σ α) (fresh : σ) (ctx : List α → List κ) : Predictor (CTWNode σ κ) α where
  update n a h w := R.ctwUpdate P fresh a h w (ctx h).reverse n
  logPredict n a h := R.ctwLogPredict P fresh a h (ctx h).reverse n
  copy n := do
    let b ← P.copy n.base
    pure (.mk b n.baseLP n.childrenLP n.lp n.children)

/-- The loop of `update_seq` (model.py:49-52), with the sum rounded. -/
noncomputable def seqLoop (P : Predictor σ α) (w : ℝ) : σ → List α → List α → ℝ → Py (ℝ × σ × List α)
  | s, [], h, rv => pure (rv, s, h)
  | s, a :: as, h, rv => do
    let (r, s') ← P.update s a h w
    seqLoop P w s' as (h ++ [a]) (R.add rv r)

end Arith

end Verif
