import Verif.Dict
import Verif.Model.Predictor

/-!
# `KT`, `KTBinary`, `SAD`, `Dumb` (model.py:81-187, 868-885)
-/

namespace Verif

/-- State of `KT` (model.py:90). -/
structure KT (α : Type) where
  counts : PyDict α ℝ
  sumCounts : ℝ

namespace KT

variable {α : Type} [DecidableEq α]

/-- `{a: f(a) for a in alphabet}`: a dict comprehension that may raise. -/
def comprehension (f : α → Py ℝ) : List α → PyDict α ℝ → Py (PyDict α ℝ)
  | [], d => pure d
  | a :: as, d => do
    let v ← f a
    comprehension f as (d.set a v)

/-- `KT(alphabet, counts)` (model.py:92-98).  `counts` counts as missing when `None` or empty. -/
noncomputable def init (alphabet : List α) (counts : Option (PyDict α ℝ)) : Py (KT α) := do
  let d ← match counts with
    | some (p :: c) => comprehension (fun a => PyDict.getE (p :: c) a) alphabet []
    | _ => comprehension (fun _ => pyDiv 1 (alphabet.length : ℝ)) alphabet []
  pure { counts := d, sumCounts := d.values.sum }

/-- `KT.log_predict` (model.py:106-107). -/
noncomputable def logPredict (s : KT α) (a : α) : Py ℝ := do
  let c ← s.counts.getE a
  let q ← pyDiv c s.sumCounts
  pyLog q

/-- `KT.update` (model.py:100-104).  `self.counts[symbol] += weight` reads and writes the entry. -/
noncomputable def update (s : KT α) (a : α) (w : ℝ) : Py (ℝ × KT α) := do
  let rv ← s.logPredict a
  let c ← s.counts.getE a
  pure (rv, { counts := s.counts.set a (c + w), sumCounts := s.sumCounts + w })

/-- `KT` as a `Model`; `history` is ignored (model.py:100-114). -/
noncomputable def predictor : Predictor (KT α) α where
  update s a _ w := s.update a w
  logPredict s a _ := do
    let r ← s.logPredict a
    pure (r, s)
  copy s := pure { counts := s.counts, sumCounts := s.sumCounts }

end KT

/-- State of `KTBinary` (model.py:125): the two-element list `counts`.  Symbols are `Bool`, with
`false` for 0 and `true` for 1; Python's negative indices are not modelled. -/
structure KTBinary where
  c0 : ℝ
  c1 : ℝ

namespace KTBinary

/-- `KTBinary(counts)` (model.py:127-129). -/
noncomputable def init (counts : Option (ℝ × ℝ)) : KTBinary :=
  match counts with
  | some (a, b) => ⟨a, b⟩
  | none => ⟨1 / 2, 1 / 2⟩

/-- `self.counts[symbol]`. -/
def get (s : KTBinary) (b : Bool) : ℝ := if b then s.c1 else s.c0

/-- `self.counts[symbol] += weight` (model.py:133). -/
noncomputable def bump (s : KTBinary) (b : Bool) (w : ℝ) : KTBinary :=
  if b then { s with c1 := s.c1 + w } else { s with c0 := s.c0 + w }

/-- `KTBinary.log_predict` (model.py:136-137). -/
noncomputable def logPredict (s : KTBinary) (b : Bool) : Py ℝ := do
  let q ← pyDiv (s.get b) (s.c0 + s.c1)
  pyLog q

/-- `KTBinary.update` (model.py:131-134). -/
noncomputable def update (s : KTBinary) (b : Bool) (w : ℝ) : Py (ℝ × KTBinary) := do
  let rv ← s.logPredict b
  pure (rv, s.bump b w)

/-- `KTBinary` as a `Model` (model.py:131-143). -/
noncomputable def predictor : Predictor KTBinary Bool where
  update s b _ w := s.update b w
  logPredict s b _ := do
    let r ← s.logPredict b
    pure (r, s)
  copy s := pure ⟨s.c0, s.c1⟩

end KTBinary

/-- State of `SAD` (model.py:155-159). -/
structure SAD (α : Type) where
  n : ℤ
  counts : PyDict α ℝ
  sumCounts : ℝ

namespace SAD

variable {α : Type} [DecidableEq α]

/-- `SAD(n)` (model.py:155-159). -/
def init (n : ℤ) : SAD α := ⟨n, [], 0⟩

/-- The `beta` computed by `SAD.log_predict` (model.py:169-173). -/
noncomputable def beta (s : SAD α) : Py ℝ :=
  let m := min (s.counts.length : ℝ) s.sumCounts
  if s.sumCounts > 0 then do
    let q ← pyDiv (s.sumCounts + 1) m
    let l ← pyLog q
    pyDiv m (2 * l)
  else pure 1

/-- `SAD.log_predict` (model.py:168-179). -/
noncomputable def logPredict (s : SAD α) (a : α) : Py ℝ := do
  let b ← s.beta
  match s.counts.get? a with
  | some c => do
    let q ← pyDiv c (s.sumCounts + b)
    pyLog q
  | none => do
    let q ← pyDiv b (((s.n : ℝ) - s.counts.length) * (s.sumCounts + b))
    pyLog q

/-- `SAD.update` (model.py:161-166): `setdefault(symbol, 0)` and then `+= weight`. -/
noncomputable def update (s : SAD α) (a : α) (w : ℝ) : Py (ℝ × SAD α) := do
  let rv ← s.logPredict a
  let d := match s.counts.get? a with
    | some _ => s.counts
    | none => s.counts.set a 0
  let c ← d.getE a
  pure (rv, { n := s.n, counts := d.set a (c + w), sumCounts := s.sumCounts + w })

/-- `SAD` as a `Model` (model.py:161-187). -/
noncomputable def predictor : Predictor (SAD α) α where
  update s a _ w := s.update a w
  logPredict s a _ := do
    let r ← s.logPredict a
    pure (r, s)
  copy s := pure { n := s.n, counts := s.counts, sumCounts := s.sumCounts }

end SAD

/-- `Dumb` (model.py:868-885): probability 1 for everything; it inherits the raising `copy`. -/
noncomputable def Dumb.predictor {α : Type} : Predictor Unit α where
  update _ _ _ _ := pure (0, ())
  logPredict _ _ _ := pure (0, ())
  copy _ := .error .notImplementedError

end Verif
