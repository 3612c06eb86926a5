import Verif.Model.CTW
import Mathlib.Data.List.FinRange

/-!
# Context trees with shared nodes: copy-on-write and reference counts

Models the sharing of nodes between copies in `model.py` (`CTW.Node`, `CTW_KT.Node`: update 268-297 / 414-440,
log_predict 299-314 / 442-459, copy 316-331 / 461-475) and in the C code of `modelfast.py` (`ctwnode_new`
62-70, `ctwnode_free` 72-81, `ctwnode_copy` 83-92, `ctwnode_update` 102-124, `ctwnode_log_predict` 126-145).
The Python and the C text perform the same steps on nodes; only the C code frees nodes.

Simplifications.
* A node's base model is a value stored in the node, and `base.copy()` yields an equal value: sharing inside a base
  model is not modelled.
* Python code never decrements a count when a model is dropped, so a Python program corresponds to a session
  without `destroy`.
* Allocation never fails and never reuses an address; so any access to a freed node is an access to an
  unallocated address, which the model reports as `badAccess`.
* Context symbols and children are indexed by `Fin k` (`ALPHABET_SIZE = k`; `k = 2` for the binary nodes of
  `model.py`): indexing outside the children array is not expressible.
* Recursion of `ctwnode_free` is bounded by a fuel argument.
-/

namespace Verif

/-- What can go wrong: a Python exception of the base model, or a memory error. -/
inductive HErr
  | py (e : PyErr)
  /-- use of a node that is not allocated (use after free, double free) -/
  | badAccess
  /-- decrement of a reference count that is zero -/
  | underflow
  /-- the recursion of `ctwnode_free` did not finish within the fuel -/
  | fuel
  deriving DecidableEq

abbrev HM := Except HErr

/-- A Python call inside a heap operation. -/
def liftPy {α : Type} : Py α → HM α
  | .ok a => .ok a
  | .error e => .error (.py e)

/-- A node in memory (modelfast.py:28-35; model.py:259-266, 398-404). -/
structure HNode (σ : Type) (k : ℕ) where
  base : σ
  baseLP : ℝ
  childrenLP : ℝ
  lp : ℝ
  children : Fin k → Option ℕ
  rc : ℕ

/-- Memory: allocated nodes by address, and the next address to allocate. -/
structure Heap (σ : Type) (k : ℕ) where
  mem : ℕ → Option (HNode σ k)
  next : ℕ

namespace Heap

variable {σ α : Type} {k : ℕ}

/-- No node is allocated. -/
def empty : Heap σ k := ⟨fun _ => none, 0⟩

/-- Dereference. -/
def get (H : Heap σ k) (a : ℕ) : HM (HNode σ k) :=
  match H.mem a with
  | some n => .ok n
  | none => .error .badAccess

/-- Overwrite the node at an address. -/
def set (H : Heap σ k) (a : ℕ) (n : HNode σ k) : Heap σ k := ⟨Function.update H.mem a (some n), H.next⟩

/-- Deallocate. -/
def erase (H : Heap σ k) (a : ℕ) : Heap σ k := ⟨Function.update H.mem a none, H.next⟩

/-- Allocate a node at the next address. -/
def alloc (H : Heap σ k) (n : HNode σ k) : Heap σ k := ⟨Function.update H.mem H.next (some n), H.next + 1⟩

/-- A new node (modelfast.py:62-70; model.py:259-266, 398-404). -/
def newNode (fresh : σ) : HNode σ k := ⟨fresh, 0, 0, 0, fun _ => none, 1⟩

/-- The loop that increments the reference counts of the children of a copied node (modelfast.py:88-90;
model.py:328-329, 472-473). -/
def incChildren (n : HNode σ k) : List (Fin k) → Heap σ k → HM (Heap σ k)
  | [], H => pure H
  | c :: cs, H =>
    match n.children c with
    | none => incChildren n cs H
    | some b => do
      let m ← H.get b
      incChildren n cs (H.set b { m with rc := m.rc + 1 })

/-- `copy` of a node (modelfast.py:83-92; model.py:316-331, 461-475): a new node with the same contents, sharing the
children. -/
def copyNode (H : Heap σ k) (a : ℕ) : HM (ℕ × Heap σ k) := do
  let n ← H.get a
  let H1 := H.alloc { n with rc := 1 }
  let H2 ← incChildren n (List.finRange k) H1
  pure (H.next, H2)

/-- Find the child to update, creating it if missing and copying it if shared (modelfast.py:109-115;
model.py:276-285, 423-428). -/
def ownChild (fresh : σ) (H : Heap σ k) (x : ℕ) (c : Fin k) : HM (ℕ × Heap σ k) := do
  let n ← H.get x
  match n.children c with
  | none =>
    let H1 := H.alloc (newNode fresh)
    pure (H.next, H1.set x { n with children := Function.update n.children c (some H.next) })
  | some y => do
    let m ← H.get y
    if 1 < m.rc then do
      let H1 := H.set y { m with rc := m.rc - 1 }
      let (z, H2) ← H1.copyNode y
      let n2 ← H2.get x
      pure (z, H2.set x { n2 with children := Function.update n2.children c (some z) })
    else
      pure (y, H)

/-- Update of a node (modelfast.py:102-124; model.py:268-297, 414-440). -/
noncomputable def update (P : Predictor σ α) (fresh : σ) (a : α) (h : List α) (w : ℝ) :
    List (Fin k) → ℕ → Heap σ k → HM (ℝ × Heap σ k)
  | [], x, H => do
    let n ← H.get x
    let (r, b) ← liftPy (P.update n.base a h w)
    let blp := n.baseLP + r
    pure (blp - n.lp, H.set x { n with base := b, baseLP := blp, lp := blp })
  | c :: cs, x, H => do
    let n ← H.get x
    let (r, b) ← liftPy (P.update n.base a h w)
    let blp := n.baseLP + r
    let H1 := H.set x { n with base := b, baseLP := blp }
    let (y, H2) ← H1.ownChild fresh x c
    let (rc, H3) ← update P fresh a h w cs y H2
    let n3 ← H3.get x
    let clp := n3.childrenLP + rc
    let lp := log05 + logsumexp2 n3.baseLP clp
    pure (lp - n.lp, H3.set x { n3 with childrenLP := clp, lp := lp })

/-- Find the child to predict with, creating it if missing; a shared child is not copied (modelfast.py:135-137;
model.py:303-305, 448-450). -/
def peekChild (fresh : σ) (H : Heap σ k) (x : ℕ) (c : Fin k) : HM (ℕ × Heap σ k) := do
  let n ← H.get x
  match n.children c with
  | none =>
    let H1 := H.alloc (newNode fresh)
    pure (H.next, H1.set x { n with children := Function.update n.children c (some H.next) })
  | some y => pure (y, H)

/-- Prediction at a node (modelfast.py:126-145; model.py:299-314, 442-459). -/
noncomputable def logPredict (P : Predictor σ α) (fresh : σ) (a : α) (h : List α) :
    List (Fin k) → ℕ → Heap σ k → HM (ℝ × Heap σ k)
  | [], x, H => do
    let n ← H.get x
    let (r, b) ← liftPy (P.logPredict n.base a h)
    pure (n.baseLP + r - n.lp, H.set x { n with base := b })
  | c :: cs, x, H => do
    let n ← H.get x
    let (r, b) ← liftPy (P.logPredict n.base a h)
    let blp := n.baseLP + r
    let H1 := H.set x { n with base := b }
    let (y, H2) ← H1.peekChild fresh x c
    let (rc, H3) ← logPredict P fresh a h cs y H2
    let n3 ← H3.get x
    let clp := n3.childrenLP + rc
    pure (log05 + logsumexp2 blp clp - n3.lp, H3)

mutual

/-- `ctwnode_free` (modelfast.py:72-81), with recursion depth bounded by the first argument. -/
def free : ℕ → ℕ → Heap σ k → HM (Heap σ k)
  | 0, _, _ => .error .fuel
  | f + 1, a, H => do
    let n ← H.get a
    if n.rc = 0 then .error .underflow
    else
      let H1 := H.set a { n with rc := n.rc - 1 }
      if n.rc - 1 = 0 then do
        let H2 ← freeChildren f a (List.finRange k) H1
        let _ ← H2.get a
        pure (H2.erase a)
      else pure H1

/-- The loop of `ctwnode_free` over the children (modelfast.py:76-78); `self->children[i]` is read at each
iteration. -/
def freeChildren : ℕ → ℕ → List (Fin k) → Heap σ k → HM (Heap σ k)
  | _, _, [], H => pure H
  | f, a, c :: cs, H => do
    let n ← H.get a
    match n.children c with
    | none => freeChildren f a cs H
    | some b => do
      let H1 ← free f b H
      freeChildren f a cs H1

end

end Heap

/-- Operations of a program that uses several models: create one (with its context function), copy, update,
predict, destroy.  Models are numbered in order of creation. -/
inductive HOp (α : Type) (k : ℕ)
  | new (ctx : List α → List (Fin k))
  | copy (i : ℕ)
  | update (i : ℕ) (a : α) (h : List α) (w : ℝ)
  | predict (i : ℕ) (a : α) (h : List α)
  | destroy (i : ℕ)

/-- A session: memory, and for each model created so far its context function and root, or `none` once it has
been destroyed. -/
structure Session (σ α : Type) (k : ℕ) where
  heap : Heap σ k
  models : List (Option ((List α → List (Fin k)) × ℕ))

namespace Session

variable {σ α : Type} {k : ℕ}

/-- One operation: the value returned (if the operation returns one) and the new session.  Operations on models
that do not exist do nothing.  `copy` is `CTW.copy` (model.py:377-382, 496-501; modelfast.py:196-202), `destroy`
is `__del__` (modelfast.py:177-178) with `fuel` bounding the depth of recursion. -/
noncomputable def step (P : Predictor σ α) (fresh : σ) (fuel : ℕ) (S : Session σ α k) :
    HOp α k → HM (Option ℝ × Session σ α k)
  | .new ctx => .ok (none, ⟨S.heap.alloc (Heap.newNode fresh), S.models ++ [some (ctx, S.heap.next)]⟩)
  | .copy i =>
    match S.models[i]? with
    | some (some (ctx, x)) => do
      let (z, H) ← S.heap.copyNode x
      pure (none, ⟨H, S.models ++ [some (ctx, z)]⟩)
    | _ => pure (none, S)
  | .update i a h w =>
    match S.models[i]? with
    | some (some (ctx, x)) => do
      let (r, H) ← S.heap.update P fresh a h w (ctx h).reverse x
      pure (some r, ⟨H, S.models⟩)
    | _ => pure (none, S)
  | .predict i a h =>
    match S.models[i]? with
    | some (some (ctx, x)) => do
      let (r, H) ← S.heap.logPredict P fresh a h (ctx h).reverse x
      pure (some r, ⟨H, S.models⟩)
    | _ => pure (none, S)
  | .destroy i =>
    match S.models[i]? with
    | some (some (_, x)) => do
      let H ← S.heap.free fuel x
      pure (none, ⟨H, S.models.set i none⟩)
    | _ => pure (none, S)

end Session

end Verif
