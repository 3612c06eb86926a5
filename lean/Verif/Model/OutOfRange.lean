import Verif.Model.Fast
import Verif.Model.LogStore
import Verif.Model.Failures

/-!
# Symbols that are not in the alphabet (model.py:117-143, 231-501; modelfast.py:94-202)

Symbols are integers here.

* The lists of `model.py` are indexed as Python does it.
* The C code of `modelfast.py` does not compare a symbol with the size of the array.  Which word an index outside of `base_counts` addresses
  is not defined by the C standard.  The model assumes what compilers do: the fields of `ctwnode_t` follow each other without gaps, so that
  the index `ALPHABET_SIZE` addresses `base_log_prob`, and the next two indices the other two fields of type `double`.  The words
  after these are pointers, or belong to something else; such accesses are `none`, and nothing is proved of them.
* A `double` is a real number, an infinity or NaN.  Finite results are exact, there is one zero, and there is no overflow.
* A child is created when there is none, as in `Verif.Model.CTW`; sharing with copies is left out.
-/

namespace Verif

/-! ## Lists of two elements -/

/-- Which element of a list of two elements Python's `l[i]` is. -/
def slot (i : ℤ) : Py Bool := LogStoreUniform.pyIndex [false, true] i

/-- `KTBinary` with integers as symbols (model.py:131-137): `self.counts[symbol]` is first read by `log_predict`. -/
noncomputable def KTBinary.xints : XPredictor KTBinary ℤ where
  update s a h w :=
    match slot a with
    | .error e => (.error e, s)
    | .ok b => KTBinary.xpredictor.update s b (h.map fun _ => b) w
  logPredict s a h :=
    match slot a with
    | .error e => (.error e, s)
    | .ok b => KTBinary.xpredictor.logPredict s b (h.map fun _ => b)

/-- The element of `children` that a context symbol addresses (model.py:281, 304, 339-341), if there is one. -/
def slotOr (i : ℤ) : ℤ ⊕ Bool :=
  match slot i with
  | .ok b => .inr b
  | .error _ => .inl i

/-- `CTW` over `KTBinary` with binary contexts (model.py:343-375), with integers as symbols.  An index outside of the list of children raises
IndexError. -/
noncomputable def CTW.xints (depth : ℕ) : XPredictor (CTWNode KTBinary (ℤ ⊕ Bool)) ℤ :=
  CTW.xpredictor KTBinary.xints (KTBinary.init none) (fun c => c.isRight) fun h => (CTW.mkcontext depth 0 h).map slotOr

/-! ## Numbers of type `double` -/

/-- A `double`. -/
inductive Dbl | fin (x : ℝ) | ninf | pinf | nan

namespace Dbl

/-- `a + b`. -/
noncomputable def add : Dbl → Dbl → Dbl
  | fin x, fin y => fin (x + y)
  | nan, _ => nan
  | _, nan => nan
  | ninf, pinf => nan
  | pinf, ninf => nan
  | ninf, _ => ninf
  | _, ninf => ninf
  | pinf, _ => pinf
  | _, pinf => pinf

/-- `-a`. -/
def neg : Dbl → Dbl
  | fin x => fin (-x)
  | ninf => pinf
  | pinf => ninf
  | nan => nan

/-- `a - b`. -/
noncomputable def sub (a b : Dbl) : Dbl := a.add b.neg

/-- `a / b`. -/
noncomputable def div : Dbl → Dbl → Dbl
  | fin x, fin y => if y = 0 then (if x = 0 then nan else if x < 0 then ninf else pinf) else fin (x / y)
  | fin _, ninf => fin 0
  | fin _, pinf => fin 0
  | ninf, fin y => if y < 0 then pinf else ninf
  | pinf, fin y => if y < 0 then ninf else pinf
  | _, _ => nan

/-- `log(a)` of C. -/
noncomputable def log : Dbl → Dbl
  | fin x => if x = 0 then ninf else if x < 0 then nan else fin (Real.log x)
  | ninf => nan
  | pinf => pinf
  | nan => nan

/-- `exp(a)` of C. -/
noncomputable def exp : Dbl → Dbl
  | fin x => fin (Real.exp x)
  | ninf => fin 0
  | pinf => pinf
  | nan => nan

/-- `a > b`; false if one of them is NaN. -/
def gt : Dbl → Dbl → Prop
  | fin x, fin y => y < x
  | fin _, ninf => True
  | pinf, fin _ => True
  | pinf, ninf => True
  | _, _ => False

open Classical in
/-- `logsumexp2` (modelfast.py:37-44). -/
noncomputable def logsumexp2 (a b : Dbl) : Dbl :=
  if gt a b then (log ((fin 1).add (exp (b.sub a)))).add a
  else (log ((fin 1).add (exp (a.sub b)))).add b

end Dbl

/-! ## The nodes of `modelfast.py` -/

/-- `ctwnode_t` (modelfast.py:28-35) without the reference count. -/
inductive WNode (k : ℕ) where
  | mk (counts : Fin k → Dbl) (baseLP childrenLP lp : Dbl) (children : Fin k → Option (WNode k))

namespace WNode

variable {k : ℕ}

def counts : WNode k → Fin k → Dbl | mk x _ _ _ _ => x
def baseLP : WNode k → Dbl | mk _ x _ _ _ => x
def childrenLP : WNode k → Dbl | mk _ _ x _ _ => x
def lp : WNode k → Dbl | mk _ _ _ x _ => x
def children : WNode k → Fin k → Option (WNode k) | mk _ _ _ _ x => x

/-- `ctwnode_new` (modelfast.py:62-70). -/
noncomputable def new (k : ℕ) : WNode k := mk (fun _ => .fin (1 / (k : ℝ))) (.fin 0) (.fin 0) (.fin 0) fun _ => none

/-- `self->base_counts[i]`, read. -/
def read (n : WNode k) (i : ℕ) : Option Dbl :=
  if h : i < k then some (n.counts ⟨i, h⟩)
  else if i = k then some n.baseLP
  else if i = k + 1 then some n.childrenLP
  else if i = k + 2 then some n.lp
  else none

/-- `self->base_counts[i] = v`. -/
def write (n : WNode k) (i : ℕ) (v : Dbl) : Option (WNode k) :=
  if h : i < k then some (mk (Function.update n.counts ⟨i, h⟩ v) n.baseLP n.childrenLP n.lp n.children)
  else if i = k then some (mk n.counts v n.childrenLP n.lp n.children)
  else if i = k + 1 then some (mk n.counts n.baseLP v n.lp n.children)
  else if i = k + 2 then some (mk n.counts n.baseLP n.childrenLP v n.children)
  else none

/-- The loop that computes `sum_counts` (modelfast.py:96-97, 129-131). -/
noncomputable def sumCounts (n : WNode k) : Dbl := (List.finRange k).foldl (fun s i => s.add (n.counts i)) (.fin 0)

/-- `ctwnode_base_update` (modelfast.py:94-100).  Line 99 reads the word again, after line 98 has changed `base_log_prob`. -/
noncomputable def baseUpdate (n : WNode k) (i : ℕ) (w : ℝ) : Option (WNode k) := do
  let v ← n.read i
  let n1 := mk n.counts (n.baseLP.add (Dbl.log (v.div n.sumCounts))) n.childrenLP n.lp n.children
  let v1 ← n1.read i
  n1.write i (v1.add (.fin w))

/-- `ctwnode_update` (modelfast.py:102-124); the list holds the context symbols in the order in which they are read. -/
noncomputable def update (i : ℕ) (w : ℝ) : List (Fin k) → WNode k → Option (Dbl × WNode k)
  | [], n => do
    let m ← n.baseUpdate i w
    pure (m.baseLP.sub n.lp, mk m.counts m.baseLP m.childrenLP m.baseLP m.children)
  | c :: cs, n => do
    let m ← n.baseUpdate i w
    let child := (m.children c).getD (new k)
    let (r, child') ← update i w cs child
    let clp := m.childrenLP.add r
    let lp := (Dbl.log (.fin (1 / 2))).add (Dbl.logsumexp2 m.baseLP clp)
    pure (lp.sub n.lp, mk m.counts m.baseLP clp lp (Function.update m.children c (some child')))

/-- `ctwnode_log_predict` (modelfast.py:126-145). -/
noncomputable def logPredict (i : ℕ) : List (Fin k) → WNode k → Option (Dbl × WNode k)
  | [], n => do
    let v ← n.read i
    pure ((n.baseLP.add (Dbl.log (v.div n.sumCounts))).sub n.lp, n)
  | c :: cs, n => do
    let v ← n.read i
    let blp := n.baseLP.add (Dbl.log (v.div n.sumCounts))
    let child := (n.children c).getD (new k)
    let (r, child') ← logPredict i cs child
    let clp := n.childrenLP.add r
    pure (((Dbl.log (.fin (1 / 2))).add (Dbl.logsumexp2 blp clp)).sub n.lp,
      mk n.counts n.baseLP n.childrenLP n.lp (Function.update n.children c (some child')))

end WNode

/-- A call of `modelfast.CTW_KT` with its symbol, its history and, for `update`, its weight. -/
inductive FastCall (k : ℕ)
  | update (i : ℕ) (h : List (Fin k)) (w : ℝ)
  | predict (i : ℕ) (h : List (Fin k))

namespace FastCall

variable {k : ℕ}

/-- `CTW_KT.update` and `CTW_KT.log_predict` (modelfast.py:184-190) with a symbol below 128, which `bytes([symbol])` passes on as a
`char`. -/
noncomputable def step [NeZero k] (depth : ℕ) (n : WNode k) : FastCall k → Option (Dbl × WNode k)
  | .update i h w => n.update i w (Fast.ctx depth h).reverse
  | .predict i h => n.logPredict i (Fast.ctx depth h).reverse

/-- A sequence of calls: what they return. -/
noncomputable def results [NeZero k] (depth : ℕ) : List (FastCall k) → WNode k → Option (List Dbl)
  | [], _ => some []
  | c :: cs, n => do
    let (r, n') ← step depth n c
    let rs ← results depth cs n'
    pure (r :: rs)

/-- The symbol of a call. -/
def sym : FastCall k → ℕ
  | .update i _ _ => i
  | .predict i _ => i

/-- The weight of a call of `update` is not negative. -/
def Weighted : FastCall k → Prop
  | .update _ _ w => 0 ≤ w
  | .predict _ _ => True

end FastCall

end Verif
