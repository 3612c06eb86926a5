import Verif.Model.CTW

/-!
# `CTW` with a factory that returns the same object at every call (model.py:259-297, 364-372)

All nodes refer to one base model.  So the state of that model is threaded through the tree, and a node holds no base model of its own.
-/

namespace Verif

namespace CTWNode

variable {σ κ α : Type} [DecidableEq κ]

/-- `Node.update` (model.py:268-297) if `self.base` is the same object in all nodes: `s` is its state. -/
noncomputable def updateOne (P : Predictor σ α) (a : α) (h : List α) (w : ℝ) : List κ → CTWNode Unit κ → σ → Py (ℝ × CTWNode Unit κ × σ)
  | [], n, s => do
    let (r, s') ← P.update s a h w
    let blp := n.baseLP + r
    pure (blp - n.lp, mk () blp n.childrenLP blp n.children, s')
  | c :: cs, n, s => do
    let (r, s') ← P.update s a h w
    let blp := n.baseLP + r
    let child := (n.children c).getD (new ())
    let (rc, child', s'') ← updateOne P a h w cs child s'
    let clp := n.childrenLP + rc
    let lp := log05 + logsumexp2 blp clp
    pure (lp - n.lp, mk () blp clp lp (Function.update n.children c (some child')), s'')

end CTWNode

/-- The state of a `CTW` with such a factory: the one base model and the tree. -/
structure OneCTW (σ κ : Type) where
  base : σ
  tree : CTWNode Unit κ

namespace OneCTW

variable {σ κ α : Type} [DecidableEq κ]

/-- `CTW.__init__` (model.py:350-362). -/
def init (base : σ) : OneCTW σ κ := ⟨base, .new ()⟩

/-- `CTW.update` (model.py:370-372). -/
noncomputable def update (P : Predictor σ α) (ctx : List α → List κ) (s : OneCTW σ κ) (a : α) (h : List α) (w : ℝ) :
    Py (ℝ × OneCTW σ κ) := do
  let (r, n, b) ← s.tree.updateOne P a h w (ctx h).reverse s.base
  pure (r, ⟨b, n⟩)

/-- Updates one after the other. -/
noncomputable def updates (P : Predictor σ α) (ctx : List α → List κ) (s : OneCTW σ κ) : List (Obs α) → Py (OneCTW σ κ)
  | [] => pure s
  | o :: os => do
    let (_, s') ← s.update P ctx o.sym o.hist o.weight
    updates P ctx s' os

end OneCTW

end Verif
