import Verif.Model.CTWHeap

/-!
# Context trees with shared nodes: reference counts of the C code

`Model/CTWHeap.lean` counts references with natural numbers.  In `modelfast.py` the count is an `unsigned int`
(modelfast.py:12, 34), so `_refcount++` (89) and `_refcount--` (74, 112) work modulo `M`, the number of values of the
type (`2 ^ 32` for the compilers `cffi` uses).  The functions below are those of `Model/CTWHeap.lean` with this
arithmetic; reading a prediction does not touch counts, so `Heap.logPredict` is used as it is.

The other simplifications of `Model/CTWHeap.lean` remain.
-/

namespace Verif

namespace WHeap

open Heap

variable {σ α : Type} {k : ℕ}

/-- `count++` for an unsigned type with `M` values. -/
def succ (M r : ℕ) : ℕ := (r + 1) % M

/-- `count--` for an unsigned type with `M` values. -/
def pred (M r : ℕ) : ℕ := (r + (M - 1)) % M

/-- The loop that increments the counts of the children of a copied node (modelfast.py:88-90). -/
def incChildren (M : ℕ) (n : HNode σ k) : List (Fin k) → Heap σ k → HM (Heap σ k)
  | [], H => pure H
  | c :: cs, H =>
    match n.children c with
    | none => incChildren M n cs H
    | some b => do
      let m ← H.get b
      incChildren M n cs (H.set b { m with rc := succ M m.rc })

/-- `ctwnode_copy` (modelfast.py:83-92). -/
def copyNode (M : ℕ) (H : Heap σ k) (a : ℕ) : HM (ℕ × Heap σ k) := do
  let n ← H.get a
  let H1 := H.alloc { n with rc := 1 }
  let H2 ← incChildren M n (List.finRange k) H1
  pure (H.next, H2)

/-- Find the child to update, creating it if missing and copying it if its count says that it is shared
(modelfast.py:109-115). -/
def ownChild (M : ℕ) (fresh : σ) (H : Heap σ k) (x : ℕ) (c : Fin k) : HM (ℕ × Heap σ k) := do
  let n ← H.get x
  match n.children c with
  | none =>
    let H1 := H.alloc (newNode fresh)
    pure (H.next, H1.set x { n with children := Function.update n.children c (some H.next) })
  | some y => do
    let m ← H.get y
    if 1 < m.rc then do
      let H1 := H.set y { m with rc := pred M m.rc }
      let (z, H2) ← copyNode M H1 y
      let n2 ← H2.get x
      pure (z, H2.set x { n2 with children := Function.update n2.children c (some z) })
    else
      pure (y, H)

/-- `ctwnode_update` (modelfast.py:102-124). -/
noncomputable def update (M : ℕ) (P : Predictor σ α) (fresh : σ) (a : α) (h : List α) (w : ℝ) :
    List (Fin k) → ℕ → Heap σ k → HM (ℝ × Heap σ k)
  | [], x, H => do
    let n ← H.get x
    let (r, b) ← liftPy (P.update n.base a h w)
    let blp := n.baseLP + r
    pure (blp - n.lp, H.set x { n with base := b, baseLP := blp, lp := blp })
  | c :: cs, x, H => do
    let n ← H.get x
    let (r, b) ← liftPy (P.update n.base a h w)
    let blp := n.baseLP + r
    let H1 := H.set x { n with base := b, baseLP := blp }
    let (y, H2) ← ownChild M fresh H1 x c
    let (rc, H3) ← update M P fresh a h w cs y H2
    let n3 ← H3.get x
    let clp := n3.childrenLP + rc
    let lp := log05 + logsumexp2 n3.baseLP clp
    pure (lp - n.lp, H3.set x { n3 with childrenLP := clp, lp := lp })

mutual

/-- `ctwnode_free` (modelfast.py:72-81), with recursion depth bounded by the second argument.  Decrementing a count
of zero is not an error here: it gives `M - 1`. -/
def free (M : ℕ) : ℕ → ℕ → Heap σ k → HM (Heap σ k)
  | 0, _, _ => .error .fuel
  | f + 1, a, H => do
    let n ← H.get a
    let H1 := H.set a { n with rc := pred M n.rc }
    if pred M n.rc = 0 then do
      let H2 ← freeChildren M f a (List.finRange k) H1
      let _ ← H2.get a
      pure (H2.erase a)
    else pure H1

/-- The loop of `ctwnode_free` over the children (modelfast.py:76-78). -/
def freeChildren (M : ℕ) : ℕ → ℕ → List (Fin k) → Heap σ k → HM (Heap σ k)
  | _, _, [], H => pure H
  | f, a, c :: cs, H => do
    let n ← H.get a
    match n.children c with
    | none => freeChildren M f a cs H
    | some b => do
      let H1 ← free M f b H
      freeChildren M f a cs H1

end

end WHeap

namespace Session

variable {σ α : Type} {k : ℕ}

/-- One operation of a program, with counts of `M` values (`CTW_KT.__init__`, `copy`, `update`, `log_predict`,
`__del__`, modelfast.py:164-202). -/
noncomputable def wstep (M : ℕ) (P : Predictor σ α) (fresh : σ) (fuel : ℕ) (S : Session σ α k) :
    HOp α k → HM (Option ℝ × Session σ α k)
  | .new ctx => .ok (none, ⟨S.heap.alloc (Heap.newNode fresh), S.models ++ [some (ctx, S.heap.next)]⟩)
  | .copy i =>
    match S.models[i]? with
    | some (some (ctx, x)) => do
      let (z, H) ← WHeap.copyNode M S.heap x
      pure (none, ⟨H, S.models ++ [some (ctx, z)]⟩)
    | _ => pure (none, S)
  | .update i a h w =>
    match S.models[i]? with
    | some (some (ctx, x)) => do
      let (r, H) ← WHeap.update M P fresh a h w (ctx h).reverse x S.heap
      pure (some r, ⟨H, S.models⟩)
    | _ => pure (none, S)
  | .predict i a h =>
    match S.models[i]? with
    | some (some (ctx, x)) => do
      let (r, H) ← S.heap.logPredict P fresh a h (ctx h).reverse x
      pure (some r, ⟨H, S.models⟩)
    | _ => pure (none, S)
  | .destroy i =>
    match S.models[i]? with
    | some (some (_, x)) => do
      let H ← WHeap.free M fuel x S.heap
      pure (none, ⟨H, S.models.set i none⟩)
    | _ => pure (none, S)

/-- A program, with counts of `M` values: the values returned, and the final memory or the error that ended it. -/
noncomputable def wrun (M : ℕ) (P : Predictor σ α) (fresh : σ) (fuel : ℕ) (S : Session σ α k) :
    List (HOp α k) → List (Option ℝ) × HM (Session σ α k)
  | [] => ([], .ok S)
  | op :: ops =>
    match wstep M P fresh fuel S op with
    | .error e => ([], .error e)
    | .ok (o, S') => (o :: (wrun M P fresh fuel S' ops).1, (wrun M P fresh fuel S' ops).2)

end Session

end Verif
