import Verif.Model.KT

/-!
# `CTW` and `CTW_KT` (model.py:231-501)

Trees are values here; the sharing of nodes between copies is modelled separately in `Verif.Model.CTWHeap`.

Simplifications.
* `model_factory()` is assumed to return the same initial state at every call and not to raise; the state is
  the parameter `fresh`.
* `children` is a function to `Option`; this covers both the list of the binary node and the dictionary of the
  general one.  For binary contexts `κ = Bool`.
* The code pops context symbols from the end of a list.  The model passes the reversed list, so that the
  symbol popped first is the head.
* `CTW.size`, a counter no method reads, is left out.
-/

namespace Verif

/-- `CTW.Node` (model.py:259-266) without the reference count. -/
inductive CTWNode (σ κ : Type) where
  | mk (base : σ) (baseLP childrenLP lp : ℝ) (children : κ → Option (CTWNode σ κ))

namespace CTWNode

variable {σ κ α : Type}

def base : CTWNode σ κ → σ | mk b _ _ _ _ => b
def baseLP : CTWNode σ κ → ℝ | mk _ x _ _ _ => x
def childrenLP : CTWNode σ κ → ℝ | mk _ _ x _ _ => x
def lp : CTWNode σ κ → ℝ | mk _ _ _ x _ => x
def children : CTWNode σ κ → κ → Option (CTWNode σ κ) | mk _ _ _ _ x => x

/-- A new node (model.py:259-266, 364-368). -/
def new (fresh : σ) : CTWNode σ κ := mk fresh 0 0 0 (fun _ => none)

variable [DecidableEq κ]

/-- `Node.update` (model.py:268-297). -/
noncomputable def update (P : Predictor σ α) (fresh : σ) (a : α) (h : List α) (w : ℝ) :
    List κ → CTWNode σ κ → Py (ℝ × CTWNode σ κ)
  | [], n => do
    let (r, b) ← P.update n.base a h w
    let blp := n.baseLP + r
    pure (blp - n.lp, mk b blp n.childrenLP blp n.children)
  | c :: cs, n => do
    let (r, b) ← P.update n.base a h w
    let blp := n.baseLP + r
    let child := (n.children c).getD (new fresh)
    let (rc, child') ← update P fresh a h w cs child
    let clp := n.childrenLP + rc
    let lp := log05 + logsumexp2 blp clp
    pure (lp - n.lp, mk b blp clp lp (Function.update n.children c (some child')))

/-- `Node.log_predict` (model.py:299-314); a missing child is created and stays in the tree. -/
noncomputable def logPredict (P : Predictor σ α) (fresh : σ) (a : α) (h : List α) :
    List κ → CTWNode σ κ → Py (ℝ × CTWNode σ κ)
  | [], n => do
    let (r, b) ← P.logPredict n.base a h
    pure (n.baseLP + r - n.lp, mk b n.baseLP n.childrenLP n.lp n.children)
  | c :: cs, n => do
    let (r, b) ← P.logPredict n.base a h
    let blp := n.baseLP + r
    let child := (n.children c).getD (new fresh)
    let (rc, child') ← logPredict P fresh a h cs child
    let clp := n.childrenLP + rc
    pure (log05 + logsumexp2 blp clp - n.lp,
      mk b n.baseLP n.childrenLP n.lp (Function.update n.children c (some child')))

end CTWNode

namespace CTW

variable {σ κ α : Type} [DecidableEq κ]

/-- `_mkcontext` (model.py:343-348, 477-482): `[0] * padding + x[-depth:]`, with `zero` for `0`.  A negative
`padding` gives no zeros. -/
def mkcontext (depth : ℕ) (zero : α) (x : List α) : List α :=
  List.replicate (depth - x.length) zero ++ pyTail x depth

/-- `CTW.__init__` (model.py:350-362). -/
def init (fresh : σ) : CTWNode σ κ := .new fresh

/-- `CTW.update` and `CTW.log_predict` (model.py:370-375), for a context function `ctx`.
`copy` (model.py:377-382, 316-331) for binary contexts copies the root's base model and shares the children;
see `Verif.Model.CTWHeap` for what sharing does. -/
noncomputable def predictor (P : Predictor σ α) (fresh : σ) (ctx : List α → List κ) :
    Predictor (CTWNode σ κ) α where
  update n a h w := n.update P fresh a h w (ctx h).reverse
  logPredict n a h := n.logPredict P fresh a h (ctx h).reverse
  copy n := do
    let b ← P.copy n.base
    pure (.mk b n.baseLP n.childrenLP n.lp n.children)

/-- `CTW.Node.copy` for non-binary contexts (model.py:316-331).  `_children_store.__iter__` (model.py:257)
returns a `dict_values`, which is not an iterator, so the `for` loop of line 328 raises `TypeError`. -/
def copyDict (P : Predictor σ α) (n : CTWNode σ κ) : Py (CTWNode σ κ) := do
  let _ ← P.copy n.base
  .error .typeError

end CTW

/-- `CTW_KT.Node` (model.py:398-404) without the reference count. -/
inductive KNode where
  | mk (counts : KTBinary) (baseLP childrenLP lp : ℝ) (children : Bool → Option KNode)

namespace KNode

def counts : KNode → KTBinary | mk b _ _ _ _ => b
def baseLP : KNode → ℝ | mk _ x _ _ _ => x
def childrenLP : KNode → ℝ | mk _ _ x _ _ => x
def lp : KNode → ℝ | mk _ _ _ x _ => x
def children : KNode → Bool → Option KNode | mk _ _ _ _ x => x

/-- `CTW_KT.Node.__init__` (model.py:398-404). -/
noncomputable def new : KNode := mk ⟨1/2, 1/2⟩ 0 0 0 (fun _ => none)

/-- The expression `math.log(base_counts[symbol] / (base_counts[0] + base_counts[1]))`
(model.py:410-411, 444-445). -/
noncomputable def logRatio (c : KTBinary) (a : Bool) : Py ℝ := do
  let q ← pyDiv (c.get a) (c.c0 + c.c1)
  pyLog q

/-- `CTW_KT.Node.update` with `update_base` (model.py:406-440). -/
noncomputable def update (a : Bool) (w : ℝ) : List Bool → KNode → Py (ℝ × KNode)
  | [], n => do
    let l ← logRatio n.counts a
    let blp := n.baseLP + l
    pure (blp - n.lp, mk (n.counts.bump a w) blp n.childrenLP blp n.children)
  | c :: cs, n => do
    let l ← logRatio n.counts a
    let blp := n.baseLP + l
    let child := (n.children c).getD new
    let (rc, child') ← update a w cs child
    let clp := n.childrenLP + rc
    let lp := log05 + logsumexp2 blp clp
    pure (lp - n.lp, mk (n.counts.bump a w) blp clp lp (Function.update n.children c (some child')))

/-- `CTW_KT.Node.log_predict` (model.py:442-459). -/
noncomputable def logPredict (a : Bool) : List Bool → KNode → Py (ℝ × KNode)
  | [], n => do
    let l ← logRatio n.counts a
    pure (n.baseLP + l - n.lp, n)
  | c :: cs, n => do
    let l ← logRatio n.counts a
    let blp := n.baseLP + l
    let child := (n.children c).getD new
    let (rc, child') ← logPredict a cs child
    let clp := n.childrenLP + rc
    pure (log05 + logsumexp2 blp clp - n.lp,
      mk n.counts n.baseLP n.childrenLP n.lp (Function.update n.children c (some child')))

/-- `CTW_KT` (model.py:484-501). -/
noncomputable def predictor (depth : ℕ) : Predictor KNode Bool where
  update n a h w := n.update a w (CTW.mkcontext depth false h).reverse
  logPredict n a h := n.logPredict a (CTW.mkcontext depth false h).reverse
  copy n := pure n

end KNode

end Verif
