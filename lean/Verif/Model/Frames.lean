import Verif.Model.FMN
import Verif.Model.CTW

/-!
# Calls with a limited stack (model.py)

Python counts the calls that are active and raises `RecursionError` when a call would exceed a limit.  Here every method gets the number `k` of further
calls that the limit allows at the moment it is called; its own frame is the first of them.  The bodies are those of `Verif.Model.KT`, `Averager`, `CTW`,
`PTW` and `FMN`, with a frame for each call of a function that is written in Python.

What counts as a frame: functions, methods, lambdas, generators while they run, and comprehensions (which Python 3.12 no longer counts).  Functions that are
written in C (`math.log`, `max`, `sum`, `len`, methods of lists and dictionaries, `super()`) add none, apart from the Python functions they call.

Simplifications.
* The state in which an object is left by a `RecursionError` is not modelled.
* Contexts of `CTW` are binary.  Which children are shared with other trees is an arbitrary function (trees are values here).
-/

namespace Verif

/-- How a call can fail: there is no room for a frame, or another exception is raised. -/
inductive Stop
  | recursion
  | raised (e : PyErr)

/-- The result of a call with a limited stack. -/
abbrev Calls := Except Stop

/-- What needs no further frame. -/
def Calls.lift {β : Type} : Py β → Calls β
  | .ok b => .ok b
  | .error e => .error (.raised e)

/-- A call of a Python function with body `f`, when `k` further calls are allowed. -/
def frame {β : Type} (k : ℕ) (f : ℕ → Calls β) : Calls β :=
  match k with
  | 0 => .error .recursion
  | j + 1 => f j

/-- The methods of a model with the number of further calls allowed as the first argument (model.py:26-44, 73-78). -/
structure Framed (σ α : Type) where
  update : ℕ → σ → α → List α → ℝ → Calls (ℝ × σ)
  logPredict : ℕ → σ → α → List α → Calls (ℝ × σ)
  copy : ℕ → σ → Calls σ

namespace Frames

variable {S σ α : Type}

/-- `logsumexp2(v1, v2)` (model.py:10-14). -/
noncomputable def lse2 (k : ℕ) (x y : ℝ) : Calls ℝ := frame k fun _ => pure (logsumexp2 x y)

/-- `logsumexp(*vals)` (model.py:6-8): `max` raises if there are no values, and `sum` runs a generator. -/
noncomputable def lse (k : ℕ) (vs : List ℝ) : Calls ℝ :=
  frame k fun j =>
    match vs with
    | [] => Calls.lift (logsumexp [])
    | v :: vs => frame j fun _ => Calls.lift (logsumexp (v :: vs))

/-- `KT`, `KTBinary` and `SAD` (model.py:100-114, 131-143, 161-187): `update` calls `self.log_predict`, and then changes the counts. -/
noncomputable def simple (P : Predictor σ α) : Framed σ α where
  update k s a h w := frame k fun j => do
    let _ ← frame j fun _ => Calls.lift (P.logPredict s a h)
    Calls.lift (P.update s a h w)
  logPredict k s a h := frame k fun _ => Calls.lift (P.logPredict s a h)
  copy k s := frame k fun _ => Calls.lift (P.copy s)

/-! ### `Averager` and `Factored` -/

/-- The loop of `Averager.update` (model.py:207-208). -/
noncomputable def updateModels (F : Framed σ α) (k : ℕ) (a : α) (h : List α) (w : ℝ) : List (σ × ℝ) → Calls (List (σ × ℝ))
  | [] => pure []
  | (m, lp) :: rest => do
    let x ← F.update k m a h w
    let rest' ← updateModels F k a h w rest
    pure ((x.2, lp + x.1) :: rest')

/-- The generator in `Averager.log_predict` (model.py:214-215). -/
noncomputable def predictModels (F : Framed σ α) (k : ℕ) (a : α) (h : List α) : List (σ × ℝ) → Calls (List ℝ × List (σ × ℝ))
  | [] => pure ([], [])
  | (m, lp) :: rest => do
    let x ← F.logPredict k m a h
    let y ← predictModels F k a h rest
    pure ((x.1 + lp) :: y.1, (x.2, lp) :: y.2)

/-- The comprehension in `Averager.copy` (model.py:220). -/
def copyModels (F : Framed σ α) (k : ℕ) : List (σ × ℝ) → Calls (List (σ × ℝ))
  | [] => pure []
  | (m, lp) :: rest => do
    let m' ← F.copy k m
    let rest' ← copyModels F k rest
    pure ((m', lp) :: rest')

/-- `Averager` (model.py:204-222). -/
noncomputable def averager (F : Framed σ α) : Framed (Averager σ) α where
  update k s a h w := frame k fun j => do
    let ms ← updateModels F j a h w s.models
    let lp ← lse j (ms.map Prod.snd)
    pure (lp - s.logProb, ⟨ms, lp⟩)
  logPredict k s a h := frame k fun j => do
    let y ← frame j fun i => predictModels F i a h s.models
    let lp ← lse j y.1
    pure (lp - s.logProb, ⟨y.2, s.logProb⟩)
  copy k s := frame k fun j => do
    let ms ← frame j fun i => copyModels F i s.models
    pure ⟨ms, s.logProb⟩

/-- `Averager.map` (model.py:224-228): `max` calls a lambda for each item. -/
noncomputable def averagerMap (k : ℕ) (s : Averager σ) : Calls σ :=
  frame k fun j =>
    match s.models with
    | [] => .error (.raised .valueError)
    | x :: xs => frame j fun _ => pure (Averager.maxByKey x xs).1

/-- The comprehension in `Factored.copy` (model.py:864). -/
def copyFactors (F : Framed σ α) (k : ℕ) : List σ → Calls (List σ)
  | [] => pure []
  | m :: rest => do
    let m' ← F.copy k m
    let rest' ← copyFactors F k rest
    pure (m' :: rest')

/-- `Factored` (model.py:853-865). -/
noncomputable def factored (F : Framed σ α) : Framed (Factored σ) α where
  update k s a h _w := frame k fun j => do
    let i ← Calls.lift (s.index h)
    let m ← Calls.lift (pyGet s.factors i)
    let x ← F.update j m a h 1
    pure (x.1, ⟨s.factors.set i x.2⟩)
  logPredict k s a h := frame k fun j => do
    let i ← Calls.lift (s.index h)
    let m ← Calls.lift (pyGet s.factors i)
    let x ← F.logPredict j m a h
    pure (x.1, ⟨s.factors.set i x.2⟩)
  copy k s := frame k fun j => do
    let fs ← frame j fun i => copyFactors F i s.factors
    pure ⟨fs⟩

/-! ### `CTW` -/

/-- `CTW.node_factory` (model.py:364-368) with `Node.__init__` and `BinaryNode._children_store` (model.py:259-266, 340-341); `new` is `model_factory`. -/
def ctwNew (new : ℕ → Calls σ) (k : ℕ) : Calls (CTWNode σ Bool) :=
  frame k fun j => do
    let b ← new j
    frame j fun i => frame i fun _ => pure (.new b)

/-- `CTW.Node.copy` with `BinaryNode._children_store` (model.py:316-331, 340-341). -/
def ctwCopy (F : Framed σ α) (k : ℕ) (n : CTWNode σ Bool) : Calls (CTWNode σ Bool) :=
  frame k fun j => do
    let b ← F.copy j n.base
    frame j fun _ => pure (.mk b n.baseLP n.childrenLP n.lp n.children)

/-- The child for the update (model.py:276-285): a missing one is created, a shared one is copied. -/
def ctwChild (F : Framed σ α) (new : ℕ → Calls σ) (shared : List Bool → CTWNode σ Bool → Bool) (k : ℕ) (cs : List Bool) :
    Option (CTWNode σ Bool) → Calls (CTWNode σ Bool)
  | none => ctwNew new k
  | some c => if shared cs c then ctwCopy F k c else pure c

/-- `CTW.Node.update` (model.py:268-297). -/
noncomputable def ctwUpdate (F : Framed σ α) (new : ℕ → Calls σ) (shared : List Bool → CTWNode σ Bool → Bool) (a : α) (h : List α) (w : ℝ) :
    ℕ → List Bool → CTWNode σ Bool → Calls (ℝ × CTWNode σ Bool)
  | k, [], n => frame k fun j => do
    let x ← F.update j n.base a h w
    pure (n.baseLP + x.1 - n.lp, .mk x.2 (n.baseLP + x.1) n.childrenLP (n.baseLP + x.1) n.children)
  | k, c :: cs, n => frame k fun j => do
    let x ← F.update j n.base a h w
    let child ← ctwChild F new shared j cs (n.children c)
    let y ← ctwUpdate F new shared a h w j cs child
    let z ← lse2 j (n.baseLP + x.1) (n.childrenLP + y.1)
    pure (log05 + z - n.lp,
      .mk x.2 (n.baseLP + x.1) (n.childrenLP + y.1) (log05 + z) (Function.update n.children c (some y.2)))

/-- The child for a prediction (model.py:303-305): a missing one is created. -/
def ctwGet (new : ℕ → Calls σ) (k : ℕ) : Option (CTWNode σ Bool) → Calls (CTWNode σ Bool)
  | none => ctwNew new k
  | some c => pure c

/-- `CTW.Node.log_predict` (model.py:299-314). -/
noncomputable def ctwPredict (F : Framed σ α) (new : ℕ → Calls σ) (a : α) (h : List α) :
    ℕ → List Bool → CTWNode σ Bool → Calls (ℝ × CTWNode σ Bool)
  | k, [], n => frame k fun j => do
    let x ← F.logPredict j n.base a h
    pure (n.baseLP + x.1 - n.lp, .mk x.2 n.baseLP n.childrenLP n.lp n.children)
  | k, c :: cs, n => frame k fun j => do
    let x ← F.logPredict j n.base a h
    let child ← ctwGet new j (n.children c)
    let y ← ctwPredict F new a h j cs child
    let z ← lse2 j (n.baseLP + x.1) (n.childrenLP + y.1)
    pure (log05 + z - n.lp, .mk x.2 n.baseLP n.childrenLP n.lp (Function.update n.children c (some y.2)))

/-- `CTW.update`, `log_predict` and `copy` (model.py:370-382), with the default context function (model.py:343-348) for a tree over binary symbols. -/
noncomputable def ctw (F : Framed σ Bool) (new : ℕ → Calls σ) (shared : List Bool → CTWNode σ Bool → Bool) (depth : ℕ) :
    Framed (CTWNode σ Bool) Bool where
  update k n a h w := frame k fun j => do
    let ctx ← frame j fun _ => pure (CTW.mkcontext depth false h)
    ctwUpdate F new shared a h w j ctx.reverse n
  logPredict k n a h := frame k fun j => do
    let ctx ← frame j fun _ => pure (CTW.mkcontext depth false h)
    ctwPredict F new a h j ctx.reverse n
  copy k n := frame k fun j => ctwCopy F j n

/-- The child for the update of a `CTW_KT` (model.py:398-404, 423-428, 461-475): a missing one is created, a shared one is copied. -/
noncomputable def kChild (shared : List Bool → KNode → Bool) (k : ℕ) (cs : List Bool) : Option KNode → Calls KNode
  | none => frame k fun _ => pure KNode.new
  | some c => if shared cs c then frame k fun _ => pure c else pure c

/-- The child for a prediction of a `CTW_KT` (model.py:447-450). -/
noncomputable def kGet (k : ℕ) : Option KNode → Calls KNode
  | none => frame k fun _ => pure KNode.new
  | some c => pure c

/-- `CTW_KT.Node.update` with `update_base`, `__init__` and `copy` (model.py:398-440, 461-475). -/
noncomputable def kUpdate (shared : List Bool → KNode → Bool) (a : Bool) (w : ℝ) : ℕ → List Bool → KNode → Calls (ℝ × KNode)
  | k, [], n => frame k fun j => do
    let l ← frame j fun _ => Calls.lift (KNode.logRatio n.counts a)
    pure (n.baseLP + l - n.lp, .mk (n.counts.bump a w) (n.baseLP + l) n.childrenLP (n.baseLP + l) n.children)
  | k, c :: cs, n => frame k fun j => do
    let l ← frame j fun _ => Calls.lift (KNode.logRatio n.counts a)
    let child ← kChild shared j cs (n.children c)
    let y ← kUpdate shared a w j cs child
    let z ← lse2 j (n.baseLP + l) (n.childrenLP + y.1)
    pure (log05 + z - n.lp,
      .mk (n.counts.bump a w) (n.baseLP + l) (n.childrenLP + y.1) (log05 + z) (Function.update n.children c (some y.2)))

/-- `CTW_KT.Node.log_predict` (model.py:442-459). -/
noncomputable def kPredict (a : Bool) : ℕ → List Bool → KNode → Calls (ℝ × KNode)
  | k, [], n => frame k fun _ => do
    let l ← Calls.lift (KNode.logRatio n.counts a)
    pure (n.baseLP + l - n.lp, n)
  | k, c :: cs, n => frame k fun j => do
    let l ← Calls.lift (KNode.logRatio n.counts a)
    let child ← kGet j (n.children c)
    let y ← kPredict a j cs child
    let z ← lse2 j (n.baseLP + l) (n.childrenLP + y.1)
    pure (log05 + z - n.lp, .mk n.counts n.baseLP n.childrenLP n.lp (Function.update n.children c (some y.2)))

/-- `CTW_KT` (model.py:484-501). -/
noncomputable def ctwKT (shared : List Bool → KNode → Bool) (depth : ℕ) : Framed KNode Bool where
  update k n a h w := frame k fun j => do
    let ctx ← frame j fun _ => pure (CTW.mkcontext depth false h)
    kUpdate shared a w j ctx.reverse n
  logPredict k n a h := frame k fun j => do
    let ctx ← frame j fun _ => pure (CTW.mkcontext depth false h)
    kPredict a j ctx.reverse n
  copy k n := frame k fun j => frame j fun _ => pure n

/-! ### `PTW` -/

/-- `partition_is_complete()` (model.py:529-533). -/
def complete (k : ℕ) (d : PTWData σ) : Calls Bool := frame k fun _ => pure d.complete

/-- `PTW.node_factory` with `Node.__init__` (model.py:519-527, 609-610); `new` is `model_factory`. -/
def ptwNew (new : ℕ → Calls σ) (h0 k : ℕ) : Calls (PTWData σ) :=
  frame k fun j => do
    let b ← new j
    frame j fun _ => pure (PTWData.new b h0)

/-- The height correction loop (model.py:558-559, 580-581, 678-679, 686-687). -/
noncomputable def correct (k : ℕ) (base : ℝ) : ℕ → ℝ → Calls ℝ
  | 0, x => pure x
  | n + 1, x => do
    let z ← lse2 k base x
    correct k base n (log05 + z)

/-- `self.base_log_prob += self.base.update(...)` (model.py:545). -/
noncomputable def baseStep (F : Framed σ α) (k : ℕ) (d : PTWData σ) (a : α) (h : List α) (w : ℝ) : Calls (PTWData σ) := do
  let x ← F.update k d.base a h w
  pure { d with base := x.2, baseLP := d.baseLP + x.1 }

/-- The new probability of a node from its updated right child (model.py:555-568). -/
noncomputable def combine (k : ℕ) (d : PTWData σ) (r : PTWNode σ) : Calls (PTWNode σ) := do
  let rlp ← correct k r.data.baseLP (d.height - r.data.height - 1) r.data.lp
  let z ← lse2 k d.baseLP (d.leftLP + rlp)
  pure (.inner { d with lp := log05 + z, count := d.count + 1 } r)

/-- The body of `Node.update` for a node without right child that is not complete (model.py:545, 565-568). -/
noncomputable def leafBody (F : Framed σ α) (k : ℕ) (d : PTWData σ) (a : α) (h : List α) (w : ℝ) : Calls (PTWNode σ) := do
  let d1 ← baseStep F k d a h w
  pure (.leaf { d1 with lp := d1.baseLP, count := d1.count + 1 })

/-- The body of `Node.update` for a complete node (model.py:539-568); the update of the new right child is a call. -/
noncomputable def promotedBody (F : Framed σ α) (new : ℕ → Calls σ) (h0 k : ℕ) (d : PTWData σ) (a : α) (h : List α) (w : ℝ) :
    Calls (PTWNode σ) := do
  let f ← ptwNew new h0 k
  let d1 ← baseStep F k { d with leftLP := d.lp, height := d.height + 1 } a h w
  let r ← frame k fun j => do
    let _ ← complete j f
    leafBody F j f a h w
  combine k d1 r

/-- `PTW.Node.update` (model.py:535-568). -/
noncomputable def ptwUpdate (F : Framed σ α) (new : ℕ → Calls σ) (h0 : ℕ) (a : α) (h : List α) (w : ℝ) : ℕ → PTWNode σ → Calls (PTWNode σ)
  | k, .leaf d => frame k fun j => do
    let c ← complete j d
    if c then promotedBody F new h0 j d a h w else leafBody F j d a h w
  | k, .inner d r => frame k fun j => do
    let c ← complete j d
    if c then promotedBody F new h0 j d a h w
    else do
      let d1 ← baseStep F j d a h w
      let r' ← ptwUpdate F new h0 a h w j r
      combine j d1 r'

/-- `PTW.Node.log_predict` (model.py:570-583). -/
noncomputable def ptwPredict (F : Framed σ α) (a : α) (h : List α) : ℕ → PTWNode σ → Calls ((ℝ × ℝ × ℕ) × PTWNode σ)
  | k, .leaf d => frame k fun j => do
    let x ← F.logPredict j d.base a h
    let c ← complete j d
    if c then do
      let z ← lse2 j (d.baseLP + x.1) d.lp
      pure ((log05 + z, d.baseLP + x.1, d.height + 1), .leaf { d with base := x.2 })
    else pure ((d.baseLP + x.1, d.baseLP + x.1, d.height), .leaf { d with base := x.2 })
  | k, .inner d r => frame k fun j => do
    let x ← F.logPredict j d.base a h
    let c ← complete j d
    if c then do
      let z ← lse2 j (d.baseLP + x.1) d.lp
      pure ((log05 + z, d.baseLP + x.1, d.height + 1), .inner { d with base := x.2 } r)
    else do
      let y ← ptwPredict F a h j r
      let rlp ← correct j y.1.2.1 (d.height - y.1.2.2 - 1) y.1.1
      let z ← lse2 j (d.baseLP + x.1) (d.leftLP + rlp)
      pure ((log05 + z, d.baseLP + x.1, d.height), .inner { d with base := x.2 } y.2)

/-- The check and the adjustment at the start of `PTW.update` and `PTW.log_predict` (model.py:616-617, 627-631). -/
noncomputable def adjusted (k : ℕ) (s : PTW σ) : Calls ℝ := do
  let c ← complete k s.tree.data
  if c then do
    let z ← lse2 k s.tree.data.baseLP s.tree.data.lp
    pure (s.adj + (s.tree.data.lp - (log05 + z)))
  else pure s.adj

/-- The body of `PTW.update` (model.py:612-623). -/
noncomputable def ptwBody (F : Framed σ α) (new : ℕ → Calls σ) (h0 k : ℕ) (s : PTW σ) (a : α) (h : List α) (w : ℝ) : Calls (ℝ × PTW σ) := do
  let adj ← adjusted k s
  let n ← ptwUpdate F new h0 a h w k s.tree
  pure (n.data.lp + adj - s.logProb, ⟨n, n.data.lp + adj, adj⟩)

/-- The body of `PTW.log_predict` (model.py:625-636). -/
noncomputable def ptwPredictBody (F : Framed σ α) (k : ℕ) (s : PTW σ) (a : α) (h : List α) : Calls (ℝ × PTW σ) := do
  let adj ← adjusted k s
  let y ← ptwPredict F a h k s.tree
  pure (y.1.1 + adj - s.logProb, ⟨y.2, s.logProb, s.adj⟩)

/-- `PTW`; `copy` is inherited and raises (model.py:73-78). -/
noncomputable def ptw (F : Framed σ α) (new : ℕ → Calls σ) (h0 : ℕ) : Framed (PTW σ) α where
  update k s a h w := frame k fun j => ptwBody F new h0 j s a h w
  logPredict k s a h := frame k fun j => ptwPredictBody F j s a h
  copy k _ := frame k fun _ => .error (.raised .notImplementedError)

/-- `PTWFixedLength.update` and `log_predict` (model.py:670-689). -/
noncomputable def ptwFixed (F : Framed σ α) (new : ℕ → Calls σ) (h0 height : ℕ) : Framed (PTW σ) α where
  update k s a h w := frame k fun j => do
    let n ← ptwUpdate F new h0 a h w j s.tree
    let lp ← correct j n.data.baseLP (height - n.data.height) n.data.lp
    pure (lp - s.logProb, ⟨n, lp, s.adj⟩)
  logPredict k s a h := frame k fun j => do
    let y ← ptwPredict F a h j s.tree
    let lp ← correct j y.1.2.1 (height - y.1.2.2) y.1.1
    pure (lp - s.logProb, ⟨y.2, s.logProb, s.adj⟩)
  copy k _ := frame k fun _ => .error (.raised .notImplementedError)

/-- `PTW.map` (model.py:638-650): `max` runs a generator, and calls a lambda for each item. -/
noncomputable def ptwMap (k : ℕ) (s : PTW σ) : Calls σ :=
  frame k fun j => frame j fun _ =>
    match s.tree.mapNodes 0 with
    | [] => .error (.raised .valueError)
    | x :: xs => pure (Averager.maxByKey x xs).1

/-! ### `FMN` -/

/-- `lazy_add` of a model store, with the number of further calls allowed and a callable. -/
abbrev LazyAdd (S σ : Type) := ℕ → S → (ℕ → Calls σ) → Calls S

/-- `len(self)` in `add` (model.py:714-715, 728-733), unless the store is empty. -/
def lenCall (s : LogStore σ) (k : ℕ) : Calls Unit := if s.isEmpty then pure () else frame k fun _ => pure ()

/-- `LogStore.lazy_add`, which calls `add`, which calls `len(self)` unless the store is empty (model.py:714-742). -/
def logStoreAdd : LazyAdd (LogStore σ) σ := fun k s x =>
  frame k fun j => do
    let v ← x j
    frame j fun i => do
      let _ ← lenCall s i
      pure (s.add v)

/-- `LogStoreUniform.lazy_add` (model.py:768-769, 781-793): it calls `len(self.items)`, which is a list. -/
def logStoreUniformAdd : LazyAdd (LogStoreUniform σ) σ := fun k s x =>
  frame k fun j =>
    if s.numToSkip ≠ 0 then pure { s with numToSkip := s.numToSkip - 1 }
    else do
      let v ← x j
      pure (s.add v)

/-- The copies in `[ m.copy() for m in self.models ]` (model.py:825); the `__iter__` of both stores is a generator (model.py:717-719, 771-773). -/
def copies (F : Framed σ α) (k : ℕ) : List σ → Calls (List σ)
  | [] => frame k fun _ => pure []
  | x :: xs => do
    frame k fun _ => pure ()
    let y ← F.copy k x
    let ys ← copies F k xs
    pure (y :: ys)

/-- `FMN.model_factory` with `Averager.__init__` (model.py:195-202, 824-825), which has a comprehension. -/
noncomputable def modelFactory (F : Framed σ α) (ms : List σ) (k : ℕ) : Calls (Averager σ) :=
  frame k fun j => do
    let ys ← frame j fun i => copies F i ms
    frame j fun i => do
      let v ← Calls.lift (Averager.init ys)
      frame i fun _ => pure v

/-- `lambda: self.map().map().copy()` (model.py:833). -/
noncomputable def best (F : Framed σ α) (p : PTW (Averager σ)) (k : ℕ) : Calls σ :=
  frame k fun j => do
    let a ← ptwMap j p
    let b ← averagerMap j a
    F.copy j b

/-- The end of an update (model.py:831-833). -/
noncomputable def saved (add : LazyAdd S σ) (F : Framed σ α) (m k : ℕ) (s : FMN S σ) (p : PTW (Averager σ)) : Calls S :=
  if (s.t + 1) % 2 ^ m = 0 then add k s.store (best F p) else pure s.store

/-- `FMN.update`, which calls `PTW.update` (model.py:827-835), and `log_predict` of `PTW`. -/
noncomputable def fmn (St : Store S σ) (add : LazyAdd S σ) (F : Framed σ α) (m : ℕ) : Framed (FMN S σ) α where
  update k s a h w := frame k fun j => do
    let x ← frame j fun i => ptwBody (averager F) (modelFactory F (St.items s.store)) m i s.ptw a h w
    let st ← saved add F m j s x.2
    pure (x.1, ⟨x.2, st, s.t + 1⟩)
  logPredict k s a h := frame k fun j => do
    let x ← ptwPredictBody (averager F) j s.ptw a h
    pure (x.1, { s with ptw := x.2 })
  copy k _ := frame k fun _ => .error (.raised .notImplementedError)

end Frames

end Verif
