import Verif.Model.Fast

/-!
# Node counts of context trees

* `ctwnode_size` and `CTW_KT.size` of modelfast.py (modelfast.py:147-154, 193-194), on a tree that is a value.
* The attribute `size` of `model.CTW` (model.py:361, 364-368, 377-382), which counts calls of `node_factory`.

Simplifications.  An operation that raises ends the session, so that nodes created before the exception are not counted.
-/

namespace Verif

namespace CTWNode

variable {σ κ α : Type}

mutual

/-- `ctwnode_size` (modelfast.py:147-154). -/
def size {k : ℕ} : CTWNode σ (Fin k) → ℕ
  | mk _ _ _ _ ch => (List.finRange k).foldl (fun s i => s + sizeOpt (ch i)) 1

/-- What a child, or `NULL`, adds (modelfast.py:150-152). -/
def sizeOpt {k : ℕ} : Option (CTWNode σ (Fin k)) → ℕ
  | none => 0
  | some n => size n

end

/-- How many nodes `update` and `log_predict` create along a context: `if not child` (model.py:280, 305), below which the
new node has no children. -/
def created : List κ → CTWNode σ κ → ℕ
  | [], _ => 0
  | c :: cs, n =>
    match n.children c with
    | none => 1 + cs.length
    | some m => created cs m

end CTWNode

/-- A `model.CTW`: context function, tree, attribute `size`, and the model whose bound method `node_factory` is stored in the
nodes (model.py:264, 368, 325): nodes and their copies keep that of the model that the tree was first built for. -/
structure SizedCTW (σ κ α : Type) where
  ctx : List α → List κ
  tree : CTWNode σ κ
  size : ℕ
  owner : ℕ

/-- Operations on several models, numbered in order of creation. -/
inductive SOp (κ α : Type)
  | new (ctx : List α → List κ)
  | copy (i : ℕ)
  | update (i : ℕ) (a : α) (h : List α) (w : ℝ)
  | predict (i : ℕ) (a : α) (h : List α)

namespace SizedCTW

variable {σ κ α : Type} [DecidableEq κ]

/-- `self.size += 1`, `m` times, on model `j` (model.py:367). -/
def bump (ms : List (SizedCTW σ κ α)) (j m : ℕ) : List (SizedCTW σ κ α) :=
  match ms[j]? with
  | some s => ms.set j { s with size := s.size + m }
  | none => ms

/-- One operation; `copy` (model.py:377-382) takes over `size` as it is.  Operations on models that do not exist do nothing. -/
noncomputable def step (P : Predictor σ α) (fresh : σ) (ms : List (SizedCTW σ κ α)) : SOp κ α → Py (List (SizedCTW σ κ α))
  | .new ctx => pure (ms ++ [⟨ctx, CTW.init fresh, 1, ms.length⟩])
  | .copy i =>
    match ms[i]? with
    | some s => do
      let t ← (CTW.predictor P fresh s.ctx).copy s.tree
      pure (ms ++ [{ s with tree := t }])
    | none => pure ms
  | .update i a h w =>
    match ms[i]? with
    | some s => do
      let (_, t) ← (CTW.predictor P fresh s.ctx).update s.tree a h w
      pure (bump (ms.set i { s with tree := t }) s.owner (s.tree.created (s.ctx h).reverse))
    | none => pure ms
  | .predict i a h =>
    match ms[i]? with
    | some s => do
      let (_, t) ← (CTW.predictor P fresh s.ctx).logPredict s.tree a h
      pure (bump (ms.set i { s with tree := t }) s.owner (s.tree.created (s.ctx h).reverse))
    | none => pure ms

/-- A sequence of operations. -/
noncomputable def steps (P : Predictor σ α) (fresh : σ) : List (SizedCTW σ κ α) → List (SOp κ α) → Py (List (SizedCTW σ κ α))
  | ms, [] => pure ms
  | ms, op :: ops => do
    let ms' ← step P fresh ms op
    steps P fresh ms' ops

end SizedCTW

end Verif
