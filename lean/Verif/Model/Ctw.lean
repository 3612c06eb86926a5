import Verif.Model.CTW
import Verif.Model.FMN

/-!
# The sequence predictors of ctw.py

Simplifications.
* Objects are values; `deepcopy` of a value is the value.
* A base model's own history is part of its state, and its `update_history` flag is not changed after construction.
* The children of a `CTW` are a list of keys in insertion order together with a function.
* `logsumexp` (ctw.py:7-9) has the same text as in model.py.
* `ProbSeq.prob` (ctw.py:49-51) reads the attribute `logprob`, which no class sets: it always raises
  `AttributeError`.  `Factorize` (ctw.py:389-426) returns itself instead of the class it builds.  Neither is modelled.
-/

namespace Verif

/-- The interface of `ProbSeq` (ctw.py:11-58): `update`, `log_predict`, and the attribute `log_prob`, which other classes
read and `Averager` overwrites. -/
structure ProbSeq (σ α : Type) where
  update : σ → α → ℝ → Py (ℝ × σ)
  logPredict : σ → α → Py (ℝ × σ)
  lp : σ → ℝ
  setLP : σ → ℝ → σ

/-- A `ProbSeq` as a predictor: the history parameter of model.py is not used. -/
def ProbSeq.toPredictor {σ α : Type} (Q : ProbSeq σ α) : Predictor σ α where
  update s a _ w := Q.update s a w
  logPredict s a _ := Q.logPredict s a
  copy s := .ok s

/-- State of `ctw.KT` (ctw.py:60-66). -/
structure CKT (α : Type) where
  counts : PyDict α ℝ
  logProb : ℝ

namespace CKT

variable {α : Type} [DecidableEq α]

/-- `__init__` (ctw.py:61-66): the counts are made as in model.py. -/
noncomputable def init (alphabet : List α) (counts : Option (PyDict α ℝ)) : Py (CKT α) := do
  let k ← KT.init alphabet counts
  pure ⟨k.counts, 0⟩

/-- `log_predict` (ctw.py:74-75). -/
noncomputable def logPredict (s : CKT α) (a : α) : Py ℝ := do
  let c ← s.counts.getE a
  let x ← pyLog c
  let y ← pyLog s.counts.values.sum
  pure (x - y)

/-- `update` (ctw.py:68-72). -/
noncomputable def update (s : CKT α) (a : α) (w : ℝ) : Py (ℝ × CKT α) := do
  let rv ← s.logPredict a
  let c ← s.counts.getE a
  pure (rv, ⟨s.counts.set a (c + w), s.logProb + rv⟩)

noncomputable def probSeq : ProbSeq (CKT α) α where
  update := update
  logPredict s a := do
    let r ← s.logPredict a
    pure (r, s)
  lp := logProb
  setLP s x := { s with logProb := x }

end CKT

/-- State of `ctw.Averager` (ctw.py:108-117). -/
structure CAverager (σ : Type) where
  models : List σ
  log1n : ℝ
  logProb : ℝ

namespace CAverager

variable {σ α : Type}

/-- `__init__` (ctw.py:109-117). -/
noncomputable def init (Q : ProbSeq σ α) (ms : List σ) : Py (CAverager σ) := do
  let q ← pyDiv 1 ms.length
  let l ← pyLog q
  pure ⟨ms.map fun m => Q.setLP m 0, l, 0⟩

/-- The loop of `update` (ctw.py:122-123). -/
def updateModels (Q : ProbSeq σ α) (a : α) (w : ℝ) : List σ → Py (List σ)
  | [] => pure []
  | m :: ms => do
    let (_, m') ← Q.update m a w
    let ms' ← updateModels Q a w ms
    pure (m' :: ms')

/-- `update` (ctw.py:119-126). -/
noncomputable def update (Q : ProbSeq σ α) (s : CAverager σ) (a : α) (w : ℝ) : Py (ℝ × CAverager σ) := do
  let ms ← updateModels Q a w s.models
  let l ← logsumexp (ms.map Q.lp)
  let lp := s.log1n + l
  pure (lp - s.logProb, { s with models := ms, logProb := lp })

/-- The generator of `log_predict` (ctw.py:129). -/
noncomputable def predictModels (Q : ProbSeq σ α) (a : α) : List σ → Py (List ℝ × List σ)
  | [] => pure ([], [])
  | m :: ms => do
    let (r, m') ← Q.logPredict m a
    let (vs, ms') ← predictModels Q a ms
    pure ((r + Q.lp m') :: vs, m' :: ms')

/-- `log_predict` (ctw.py:128-129). -/
noncomputable def logPredict (Q : ProbSeq σ α) (s : CAverager σ) (a : α) : Py (ℝ × CAverager σ) := do
  let (vs, ms) ← predictModels Q a s.models
  let l ← logsumexp vs
  pure (s.log1n + l - s.logProb, { s with models := ms })

/-- `map` (ctw.py:131-135). -/
noncomputable def map (Q : ProbSeq σ α) (s : CAverager σ) : Py σ :=
  match s.models.map fun m => (m, Q.lp m) with
  | [] => .error .valueError
  | x :: xs => .ok (Averager.maxByKey x xs).1

noncomputable def probSeq (Q : ProbSeq σ α) : ProbSeq (CAverager σ) α where
  update := update Q
  logPredict := logPredict Q
  lp := logProb
  setLP s x := { s with logProb := x }

end CAverager

/-- A `ctw.CTW` without its history (ctw.py:155-164): base model, `log_prob`, and the children by context symbol, with
the keys in insertion order. -/
inductive CCTWNode (σ κ : Type) where
  | mk (base : σ) (lp : ℝ) (keys : List κ) (children : κ → Option (CCTWNode σ κ))

namespace CCTWNode

variable {σ κ α : Type}

def base : CCTWNode σ κ → σ | mk b _ _ _ => b
def lp : CCTWNode σ κ → ℝ | mk _ x _ _ => x
def keys : CCTWNode σ κ → List κ | mk _ _ x _ => x
def children : CCTWNode σ κ → κ → Option (CCTWNode σ κ) | mk _ _ _ x => x

/-- A new `CTW` (ctw.py:155-164). -/
def new (fresh : σ) : CCTWNode σ κ := mk fresh 0 [] (fun _ => none)

/-- `sum((c.log_prob for c in self.children.values()))` (ctw.py:182, 194). -/
noncomputable def sumLP (keys : List κ) (ch : κ → Option (CCTWNode σ κ)) : ℝ :=
  (keys.map fun k => match ch k with
    | some c => c.lp
    | none => 0).sum

variable [DecidableEq κ]

/-- The keys after `self.children[c]`, which inserts a missing key. -/
def touch (keys : List κ) (c : κ) : List κ := if c ∈ keys then keys else keys ++ [c]

/-- `_update` (ctw.py:175-182) of a `CTW` of the given depth; the context is passed reversed. -/
noncomputable def update (Q : ProbSeq σ α) (fresh : σ) (a : α) (w : ℝ) :
    ℕ → List κ → CCTWNode σ κ → Py (CCTWNode σ κ)
  | 0, _, n => do
    let (_, b) ← Q.update n.base a w
    pure (mk b (Q.lp b) n.keys n.children)
  | _ + 1, [], n => do
    let _ ← Q.update n.base a w
    .error .indexError
  | d + 1, c :: cs, n => do
    let (_, b) ← Q.update n.base a w
    let child ← update Q fresh a w d cs ((n.children c).getD (new fresh))
    let keys := touch n.keys c
    let ch := Function.update n.children c (some child)
    let l ← logsumexp [Q.lp b, sumLP keys ch]
    pure (mk b (log05 + l) keys ch)

/-- `_log_predict` (ctw.py:187-199). -/
noncomputable def logPredict (Q : ProbSeq σ α) (fresh : σ) (a : α) :
    ℕ → List κ → CCTWNode σ κ → Py (ℝ × CCTWNode σ κ)
  | 0, _, n => do
    let (r, b) ← Q.logPredict n.base a
    pure (r, mk b n.lp n.keys n.children)
  | _ + 1, [], n => do
    let _ ← Q.logPredict n.base a
    .error .indexError
  | d + 1, c :: cs, n => do
    let (r, b) ← Q.logPredict n.base a
    let (rc, child) ← logPredict Q fresh a d cs ((n.children c).getD (new fresh))
    let l ← logsumexp [Q.lp b + r, sumLP n.keys n.children + rc]
    pure (log05 + l - n.lp, mk b n.lp (touch n.keys c) (Function.update n.children c (some child)))

end CCTWNode

/-- A `ctw.CTW` with its history. -/
structure CCTW (σ α : Type) where
  tree : CCTWNode σ α
  history : List α

namespace CCTW

variable {σ α : Type} [DecidableEq α]

/-- `__init__` (ctw.py:155-164). -/
def init (fresh : σ) : CCTW σ α := ⟨.new fresh, []⟩

/-- `update` (ctw.py:166-173) with the default context function (ctw.py:147-153), which is that of model.py. -/
noncomputable def update (Q : ProbSeq σ α) (fresh : σ) (depth : ℕ) (zero : α) (s : CCTW σ α) (a : α) (w : ℝ) :
    Py (ℝ × CCTW σ α) := do
  let t ← s.tree.update Q fresh a w depth (CTW.mkcontext depth zero s.history).reverse
  pure (t.lp - s.tree.lp, ⟨t, s.history ++ [a]⟩)

/-- `log_predict` (ctw.py:184-185). -/
noncomputable def logPredict (Q : ProbSeq σ α) (fresh : σ) (depth : ℕ) (zero : α) (s : CCTW σ α) (a : α) :
    Py (ℝ × CCTW σ α) := do
  let (r, t) ← s.tree.logPredict Q fresh a depth (CTW.mkcontext depth zero s.history).reverse
  pure (r, ⟨t, s.history⟩)

noncomputable def probSeq (Q : ProbSeq σ α) (fresh : σ) (depth : ℕ) (zero : α) : ProbSeq (CCTW σ α) α where
  update := update Q fresh depth zero
  logPredict := logPredict Q fresh depth zero
  lp s := s.tree.lp
  setLP s x := ⟨.mk s.tree.base x s.tree.keys s.tree.children, s.history⟩

end CCTW

/-- The fields of a `ctw.PTW.Node` except `right_child` (ctw.py:220-231). -/
structure CPData (σ : Type) where
  base : σ
  height : ℕ
  lp : ℝ
  leftLP : ℝ
  t : ℕ

/-- A `ctw.PTW.Node`: `right_child` is `None` in a leaf. -/
inductive CPNode (σ : Type)
  | leaf (d : CPData σ)
  | inner (d : CPData σ) (right : CPNode σ)

namespace CPData

variable {σ : Type}

/-- `__init__` (ctw.py:220-231). -/
def new (fresh : σ) : CPData σ := ⟨fresh, 0, 0, 0, 0⟩

/-- `_at_splitpoint` (ctw.py:233-238): `not (t & (t-1))`.  For `t = 0` Python computes `0 & -1`, which is 0; so does
natural-number subtraction. -/
def atSplit (d : CPData σ) : Bool := decide (d.t &&& (d.t - 1) = 0)

end CPData

/-- The height correction loops (ctw.py:262-263, 286-287, 305-306, 314-315); `logsumexp` of two values. -/
noncomputable def correctL (base : ℝ) : ℕ → ℝ → Py ℝ
  | 0, x => pure x
  | n + 1, x => do
    let l ← logsumexp [base, x]
    correctL base n (log05 + l)

namespace CPNode

variable {σ α : Type}

def data : CPNode σ → CPData σ
  | leaf d => d
  | inner d _ => d

/-- The update of a node with `t = 0` (ctw.py:241-246, 267). -/
noncomputable def first (Q : ProbSeq σ α) (d : CPData σ) (a : α) (w : ℝ) : Py (CPData σ) := do
  let (_, b) ← Q.update d.base a w
  pure { d with base := b, lp := Q.lp b, t := d.t + 1 }

/-- Lines 259-267 of ctw.py, after the right child has been updated. -/
noncomputable def finish (Q : ProbSeq σ α) (d : CPData σ) (r : CPNode σ) : Py (CPNode σ) := do
  let rlp ← correctL (Q.lp r.data.base) (d.height - r.data.height - 1) r.data.lp
  let l ← logsumexp [Q.lp d.base, d.leftLP + rlp]
  pure (.inner { d with lp := log05 + l, t := d.t + 1 } r)

/-- Lines 248-267 of ctw.py at a splitpoint: promotion with a new right child, which gets its first update. -/
noncomputable def promote (Q : ProbSeq σ α) (fresh : σ) (d : CPData σ) (a : α) (w : ℝ) : Py (CPNode σ) := do
  let (_, b) ← Q.update d.base a w
  let r ← first Q (CPData.new fresh) a w
  finish Q { d with base := b, leftLP := d.lp, height := d.height + 1 } (.leaf r)

/-- `Node.update` (ctw.py:240-267).  A node without right child that has seen symbols and is not at a splitpoint, which
does not occur, would raise `AttributeError` on `None.update`. -/
noncomputable def update (Q : ProbSeq σ α) (fresh : σ) (a : α) (w : ℝ) : CPNode σ → Py (CPNode σ)
  | leaf d =>
    if d.t = 0 then do
      let d' ← first Q d a w
      pure (.leaf d')
    else if d.atSplit then promote Q fresh d a w
    else do
      let _ ← Q.update d.base a w
      .error .attributeError
  | inner d r =>
    if d.t = 0 then do
      let d' ← first Q d a w
      pure (.inner d' r)
    else if d.atSplit then promote Q fresh d a w
    else do
      let (_, b) ← Q.update d.base a w
      let r' ← update Q fresh a w r
      finish Q { d with base := b } r'

/-- Lines 275-279 and 286-289 of ctw.py: prediction at a splitpoint. -/
noncomputable def splitPredict (Q : ProbSeq σ α) (fresh : σ) (d : CPData σ) (a : α) (blp : ℝ) : Py ℝ := do
  let (rlp, _) ← Q.logPredict fresh a
  let x ← correctL rlp d.height rlp
  let l ← logsumexp [blp, d.lp + x]
  pure (log05 + l - d.lp)

/-- `Node.log_predict` (ctw.py:269-289); `height_diff - 1` corrections.  The base model of the right child is asked
twice. -/
noncomputable def logPredict (Q : ProbSeq σ α) (fresh : σ) (a : α) : CPNode σ → Py (ℝ × CPNode σ)
  | leaf d => do
    let (q, b) ← Q.logPredict d.base a
    let blp := Q.lp d.base + q
    let n' := leaf { d with base := b }
    if d.t = 0 then pure (blp - d.lp, n')
    else if d.atSplit then do
      let x ← splitPredict Q fresh d a blp
      pure (x, n')
    else .error .attributeError
  | inner d r => do
    let (q, b) ← Q.logPredict d.base a
    let blp := Q.lp d.base + q
    if d.t = 0 then pure (blp - d.lp, inner { d with base := b } r)
    else if d.atSplit then do
      let x ← splitPredict Q fresh d a blp
      pure (x, inner { d with base := b } r)
    else do
      let (rp, r') ← logPredict Q fresh a r
      let rlp := r'.data.lp + rp
      let (rq, _) ← Q.logPredict r'.data.base a
      let rblp := Q.lp r'.data.base + rq
      let diff := d.height - r'.data.height - (if r'.data.atSplit then 1 else 0)
      let x ← correctL rblp (diff - 1) rlp
      let l ← logsumexp [blp, d.leftLP + x]
      pure (log05 + l - d.lp, inner { d with base := b } r')

/-- The candidates of `map` (ctw.py:323-330). -/
noncomputable def mapNodes (Q : ProbSeq σ α) : ℝ → CPNode σ → List (σ × ℝ)
  | left, leaf d => [(d.base, Q.lp d.base + left)]
  | left, inner d r => (d.base, Q.lp d.base + left) :: mapNodes Q (left + (d.leftLP + log05)) r

end CPNode

/-- State of a `ctw.PTW` (ctw.py:291-296). -/
structure CPTW (σ : Type) where
  tree : CPNode σ
  logProb : ℝ

namespace CPTW

variable {σ α : Type}

/-- `__init__` (ctw.py:291-296). -/
def init (fresh : σ) : CPTW σ := ⟨.leaf (CPData.new fresh), 0⟩

/-- `update` (ctw.py:298-308). -/
noncomputable def update (Q : ProbSeq σ α) (fresh : σ) (height : ℕ) (s : CPTW σ) (a : α) (w : ℝ) :
    Py (ℝ × CPTW σ) := do
  let n ← s.tree.update Q fresh a w
  if height < n.data.height then .error .assertionError
  else do
    let lp ← correctL (Q.lp n.data.base) (height - n.data.height) n.data.lp
    pure (lp - s.logProb, ⟨n, lp⟩)

/-- `log_predict` (ctw.py:310-317). -/
noncomputable def logPredict (Q : ProbSeq σ α) (fresh : σ) (height : ℕ) (s : CPTW σ) (a : α) : Py (ℝ × CPTW σ) := do
  let (q, n) ← s.tree.logPredict Q fresh a
  let (bq, _) ← Q.logPredict n.data.base a
  let x ← correctL (Q.lp n.data.base + bq) (height - (n.data.height + (if n.data.atSplit then 1 else 0)))
    (n.data.lp + q)
  pure (x - s.logProb, ⟨n, s.logProb⟩)

noncomputable def probSeq (Q : ProbSeq σ α) (fresh : σ) (height : ℕ) : ProbSeq (CPTW σ) α where
  update := update Q fresh height
  logPredict := logPredict Q fresh height
  lp := logProb
  setLP s x := { s with logProb := x }

end CPTW

end Verif
