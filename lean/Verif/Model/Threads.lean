import Verif.Model.CTWHeap

/-!
# Context trees in two threads

The steps of `CTW.Node.update`, `log_predict` and `copy` (model.py:268-297, 299-314, 316-331) on nodes in memory, each step reading or
writing one field of one node; between any two steps another thread may run.

Simplifications.
* As in `Verif/Model/CTWHeap.lean` the base model is a value in its node; its update is one step that reads it and one that writes it.
* Memory is one map from addresses to nodes.  Each thread takes the addresses of its new nodes from its own list, `addr`; addresses cannot
  be observed, so this only says that no address is handed out twice.
* Every copy of the lists of children and every `cnext = context.pop()` is a step of its own thread only: the context is a new list.
-/

namespace Verif.Threads

/-- A program that is executed in steps: it is done, or it changes the state and goes on depending on what it has seen. -/
inductive Prog (S β : Type)
  | done (r : HM β)
  | act (f : S → S) (k : S → Prog S β)

namespace Prog

variable {S β γ : Type}

/-- One program after another; an exception ends both. -/
def bind : Prog S β → (β → Prog S γ) → Prog S γ
  | done (.ok b), g => g b
  | done (.error e), _ => done (.error e)
  | act f k, g => act f fun s => (k s).bind g

instance : Monad (Prog S) where
  pure b := done (.ok b)
  bind := bind

/-- A program that runs alone. -/
def run : Prog S β → S → HM β × S
  | done r, s => (r, s)
  | act f k, s => (k s).run (f s)

end Prog

/-- Memory: the nodes by address, and for each thread how many nodes it has created. -/
structure Mem (σ : Type) (k : ℕ) where
  mem : ℕ → Option (HNode σ k)
  next : Bool → ℕ

variable {σ α : Type} {k : ℕ}

/-- Reading a field of the node at `x`. -/
def rd {β : Type} (x : ℕ) (field : HNode σ k → β) : Prog (Mem σ k) β :=
  .act id fun s => match s.mem x with
    | some n => .done (.ok (field n))
    | none => .done (.error .badAccess)

/-- Writing a field of the node at `x`. -/
def wr (x : ℕ) (change : HNode σ k → HNode σ k) : Prog (Mem σ k) Unit :=
  .act (fun s => match s.mem x with
    | some n => ⟨Function.update s.mem x (some (change n)), s.next⟩
    | none => s) fun s => match s.mem x with
    | some _ => .done (.ok ())
    | none => .done (.error .badAccess)

/-- A new node for thread `t` (model.py:259-266, 317-326). -/
def mk (addr : ℕ → ℕ) (t : Bool) (n : HNode σ k) : Prog (Mem σ k) ℕ :=
  .act (fun s => ⟨Function.update s.mem (addr (s.next t)) (some n), Function.update s.next t (s.next t + 1)⟩)
    fun s => .done (.ok (addr (s.next t)))

/-- A call of a method of the base model. -/
def call {β : Type} (r : Py β) : Prog (Mem σ k) β := .done (liftPy r)

/-- `for c in r.children: if c: c._refcount += 1` (model.py:328-329). -/
def incChildren (ch : Fin k → Option ℕ) : List (Fin k) → Prog (Mem σ k) Unit
  | [] => pure ()
  | c :: cs =>
    match ch c with
    | none => incChildren ch cs
    | some b => do
      let rc ← rd b (·.rc)
      wr b fun n => { n with rc := rc + 1 }
      incChildren ch cs

/-- `Node.copy` (model.py:316-331). -/
def copy (addr : ℕ → ℕ) (t : Bool) (x : ℕ) : Prog (Mem σ k) ℕ := do
  let base ← rd x (·.base)
  let blp ← rd x (·.baseLP)
  let clp ← rd x (·.childrenLP)
  let lp ← rd x (·.lp)
  let ch ← rd x (·.children)
  let z ← mk addr t ⟨base, blp, clp, lp, ch, 1⟩
  incChildren ch (List.finRange k)
  pure z

/-- The child to update (model.py:276-285). -/
def own (addr : ℕ → ℕ) (t : Bool) (fresh : σ) (x : ℕ) (c : Fin k) : Prog (Mem σ k) ℕ := do
  let child ← rd x (·.children c)
  match child with
  | none => do
    let z ← mk addr t (Heap.newNode fresh)
    wr x fun n => { n with children := Function.update n.children c (some z) }
    pure z
  | some y => do
    let rc ← rd y (·.rc)
    if 1 < rc then do
      let rc ← rd y (·.rc)
      wr y fun n => { n with rc := rc - 1 }
      let z ← copy addr t y
      wr x fun n => { n with children := Function.update n.children c (some z) }
      pure z
    else pure y

/-- `Node.update` (model.py:268-297). -/
noncomputable def update (addr : ℕ → ℕ) (t : Bool) (P : Predictor σ α) (fresh : σ) (a : α) (h : List α) (w : ℝ) :
    List (Fin k) → ℕ → Prog (Mem σ k) ℝ
  | [], x => do
    let orig ← rd x (·.lp)
    let blp ← rd x (·.baseLP)
    let base ← rd x (·.base)
    let (r, b) ← call (P.update base a h w)
    wr x fun n => { n with base := b }
    wr x fun n => { n with baseLP := blp + r }
    let lp ← rd x (·.baseLP)
    wr x fun n => { n with lp := lp }
    let lp ← rd x (·.lp)
    pure (lp - orig)
  | c :: cs, x => do
    let orig ← rd x (·.lp)
    let blp ← rd x (·.baseLP)
    let base ← rd x (·.base)
    let (r, b) ← call (P.update base a h w)
    wr x fun n => { n with base := b }
    wr x fun n => { n with baseLP := blp + r }
    let y ← own addr t fresh x c
    let clp ← rd x (·.childrenLP)
    let rc ← update addr t P fresh a h w cs y
    wr x fun n => { n with childrenLP := clp + rc }
    let blp ← rd x (·.baseLP)
    let clp ← rd x (·.childrenLP)
    wr x fun n => { n with lp := log05 + logsumexp2 blp clp }
    let lp ← rd x (·.lp)
    pure (lp - orig)

/-- The child to predict with (model.py:303-305). -/
def peek (addr : ℕ → ℕ) (t : Bool) (fresh : σ) (x : ℕ) (c : Fin k) : Prog (Mem σ k) ℕ := do
  let child ← rd x (·.children c)
  match child with
  | none => do
    let z ← mk addr t (Heap.newNode fresh)
    wr x fun n => { n with children := Function.update n.children c (some z) }
    pure z
  | some y => pure y

/-- `Node.log_predict` (model.py:299-314). -/
noncomputable def logPredict (addr : ℕ → ℕ) (t : Bool) (P : Predictor σ α) (fresh : σ) (a : α) (h : List α) :
    List (Fin k) → ℕ → Prog (Mem σ k) ℝ
  | [], x => do
    let blp ← rd x (·.baseLP)
    let base ← rd x (·.base)
    let (r, b) ← call (P.logPredict base a h)
    wr x fun n => { n with base := b }
    let lp ← rd x (·.lp)
    pure (blp + r - lp)
  | c :: cs, x => do
    let blp ← rd x (·.baseLP)
    let base ← rd x (·.base)
    let (r, b) ← call (P.logPredict base a h)
    wr x fun n => { n with base := b }
    let y ← peek addr t fresh x c
    let clp ← rd x (·.childrenLP)
    let rc ← logPredict addr t P fresh a h cs y
    let lp ← rd x (·.lp)
    pure (log05 + logsumexp2 (blp + r) (clp + rc) - lp)

/-- What a thread does with its models, numbered in order of creation; each has its context function and its root. -/
noncomputable def step (addr : ℕ → ℕ) (t : Bool) (P : Predictor σ α) (fresh : σ) (models : List ((List α → List (Fin k)) × ℕ)) :
    HOp α k → Prog (Mem σ k) (Option ℝ × List ((List α → List (Fin k)) × ℕ))
  | .new ctx => do
    let z ← mk addr t (Heap.newNode fresh)
    pure (none, models ++ [(ctx, z)])
  | .copy i =>
    match models[i]? with
    | none => pure (none, models)
    | some (ctx, x) => do
      let z ← copy addr t x
      pure (none, models ++ [(ctx, z)])
  | .update i a h w =>
    match models[i]? with
    | none => pure (none, models)
    | some (ctx, x) => do
      let r ← update addr t P fresh a h w (ctx h).reverse x
      pure (some r, models)
  | .predict i a h =>
    match models[i]? with
    | none => pure (none, models)
    | some (ctx, x) => do
      let r ← logPredict addr t P fresh a h (ctx h).reverse x
      pure (some r, models)
  | .destroy _ => pure (none, models)

/-- A thread: its calls one after another, and the values that they return.  In Python dropping a model changes no node. -/
noncomputable def thread (addr : ℕ → ℕ) (t : Bool) (P : Predictor σ α) (fresh : σ) :
    List (HOp α k) → List ((List α → List (Fin k)) × ℕ) → Prog (Mem σ k) (List (Option ℝ))
  | [], _ => pure []
  | o :: os, models => do
    let (r, models) ← step addr t P fresh models o
    let rs ← thread addr t P fresh os models
    pure (r :: rs)

end Verif.Threads
