import Verif.Model.CTW
import Verif.Model.Failures
import Verif.Model.PTW

/-!
# What an interrupted update leaves (model.py:100-104, 131-134, 161-166, 204-211, 268-297, 535-568, 612-623, 670-681)

A `KeyboardInterrupt`, a `MemoryError` or an exception of a signal handler can end an update between any two assignments.  Here every
class lists the states of the object during an update, from the one before the first assignment to the one after the last.
Simplifications: an assignment is one step, and the copying of a shared child of a context tree is left out, see
`Verif/Model/CTWHeap.lean`.
-/

namespace Verif

/-- For each update the states of the object while it runs, in order. -/
abbrev Stages (σ α : Type) := σ → α → List α → ℝ → List σ

/-- `KT.update` (model.py:100-104): `counts` is assigned before `sum_counts`. -/
noncomputable def KT.stages {α : Type} [DecidableEq α] : Stages (KT α) α := fun s a _ w =>
  match s.logPredict a, s.counts.getE a with
  | .ok _, .ok c =>
    [s, { counts := s.counts.set a (c + w), sumCounts := s.sumCounts },
      { counts := s.counts.set a (c + w), sumCounts := s.sumCounts + w }]
  | _, _ => [s]

/-- `KTBinary.update` (model.py:131-134): one assignment. -/
noncomputable def KTBinary.stages : Stages KTBinary Bool := fun s b _ w =>
  match s.logPredict b with
  | .ok _ => [s, s.bump b w]
  | .error _ => [s]

/-- `SAD.update` (model.py:161-166): `setdefault`, then `counts`, then `sum_counts`. -/
noncomputable def SAD.stages {α : Type} [DecidableEq α] : Stages (SAD α) α := fun s a _ w =>
  match s.logPredict a with
  | .error _ => [s]
  | .ok _ =>
    let d := match s.counts.get? a with
      | some _ => s.counts
      | none => s.counts.set a 0
    match d.getE a with
    | .error _ => [s, { s with counts := d }]
    | .ok c => [s, { s with counts := d }, { s with counts := d.set a (c + w) },
        { n := s.n, counts := d.set a (c + w), sumCounts := s.sumCounts + w }]

namespace Averager

variable {σ α : Type} (P : Predictor σ α) (stg : Stages σ α)

/-- The loop of `update` (model.py:207-208): first the component changes, then its weight. -/
noncomputable def modelsStages (a : α) (h : List α) (w : ℝ) : List (σ × ℝ) → List (List (σ × ℝ))
  | [] => [[]]
  | (m, lp) :: rest =>
    (stg m a h w).map (fun m' => (m', lp) :: rest) ++
      match P.update m a h w with
      | .error _ => []
      | .ok (r, m') => (modelsStages a h w rest).map fun l => (m', lp + r) :: l

/-- `Averager.update` (model.py:204-211): `log_prob` is assigned last. -/
noncomputable def stages : Stages (Averager σ) α := fun s a h w =>
  (modelsStages P stg a h w s.models).map (fun l => ⟨l, s.logProb⟩) ++
    match update P s a h w with
    | .error _ => []
    | .ok (_, s') => [s']

end Averager

namespace CTWNode

variable {σ κ α : Type} [DecidableEq κ] (P : Predictor σ α) (stg : Stages σ α) (fresh : σ)

/-- `Node.update` (model.py:268-297): the base model, `base_log_prob`, the child, `children_log_prob`, `log_prob`.  The first stage of
the child is the child, put there if it was missing. -/
noncomputable def stages (a : α) (h : List α) (w : ℝ) : List κ → CTWNode σ κ → List (CTWNode σ κ)
  | [], n =>
    (stg n.base a h w).map (fun b => mk b n.baseLP n.childrenLP n.lp n.children) ++
      match P.update n.base a h w with
      | .error _ => []
      | .ok (r, b) => [mk b (n.baseLP + r) n.childrenLP n.lp n.children,
          mk b (n.baseLP + r) n.childrenLP (n.baseLP + r) n.children]
  | c :: cs, n =>
    (stg n.base a h w).map (fun b => mk b n.baseLP n.childrenLP n.lp n.children) ++
      match P.update n.base a h w with
      | .error _ => []
      | .ok (r, b) =>
        let blp := n.baseLP + r
        let child := (n.children c).getD (new fresh)
        mk b blp n.childrenLP n.lp n.children ::
          (stages a h w cs child).map (fun k => mk b blp n.childrenLP n.lp (Function.update n.children c (some k))) ++
          match update P fresh a h w cs child with
          | .error _ => []
          | .ok (rc, child') =>
            let clp := n.childrenLP + rc
            [mk b blp clp n.lp (Function.update n.children c (some child')),
              mk b blp clp (log05 + logsumexp2 blp clp) (Function.update n.children c (some child'))]

end CTWNode

/-- `CTW.update` (model.py:370-372). -/
noncomputable def CTW.stages {σ κ α : Type} [DecidableEq κ] (P : Predictor σ α) (stg : Stages σ α) (fresh : σ)
    (ctx : List α → List κ) : Stages (CTWNode σ κ) α := fun n a h w => n.stages P stg fresh a h w (ctx h).reverse

namespace PTWNode

variable {σ α : Type} (P : Predictor σ α) (stg : Stages σ α)

open PTWData

/-- The base update of a node and the assignment of `base_log_prob` (model.py:545). -/
noncomputable def baseStages (d : PTWData σ) (a : α) (h : List α) (w : ℝ) : List (PTWData σ) :=
  (stg d.base a h w).map (fun b => { d with base := b }) ++
    match d.baseStep P a h w with
    | .error _ => []
    | .ok d1 => [d1]

/-- A node without right child (model.py:545, 565-568): base, `base_log_prob`, `log_prob`, `count`. -/
noncomputable def leafStages (d : PTWData σ) (a : α) (h : List α) (w : ℝ) : List (PTWNode σ) :=
  (baseStages P stg d a h w).map .leaf ++
    match d.baseStep P a h w with
    | .error _ => []
    | .ok d1 => [.leaf { d1 with lp := d1.baseLP }, .leaf { d1 with lp := d1.baseLP, count := d1.count + 1 }]

/-- A node with right child `r` (model.py:545-568), given the stages `rs` of the update of `r` and its result. -/
noncomputable def innerStages (d : PTWData σ) (r : PTWNode σ) (rs : List (PTWNode σ)) (r' : Py (PTWNode σ)) (a : α) (h : List α) (w : ℝ) :
    List (PTWNode σ) :=
  (baseStages P stg d a h w).map (.inner · r) ++
    match d.baseStep P a h w with
    | .error _ => []
    | .ok d1 => rs.map (.inner d1 ·) ++
      match r' with
      | .error _ => []
      | .ok r' => [.inner { (combine d1 r').data with count := d1.count } r', combine d1 r']

/-- The promotion of a complete node `n` (model.py:539-542): `left_log_prob`, `right_child`, `height`; then the rest of the update. -/
noncomputable def promotedStages (fresh : Py σ) (h0 : ℕ) (n : PTWNode σ) (a : α) (h : List α) (w : ℝ) : List (PTWNode σ) :=
  let d := { n.data with leftLP := n.data.lp }
  n :: (match n with
    | .leaf _ => .leaf d
    | .inner _ r => .inner d r) ::
  match fresh with
  | .error _ => []
  | .ok f => .inner d (.leaf (PTWData.new f h0)) ::
    innerStages P stg { d with height := d.height + 1 } (.leaf (PTWData.new f h0)) (leafStages P stg (PTWData.new f h0) a h w)
      (leafUpdate P (PTWData.new f h0) a h w) a h w

/-- `Node.update` (model.py:535-568). -/
noncomputable def stages (fresh : Py σ) (h0 : ℕ) (a : α) (h : List α) (w : ℝ) : PTWNode σ → List (PTWNode σ)
  | leaf d => if d.complete then promotedStages P stg fresh h0 (leaf d) a h w else leafStages P stg d a h w
  | inner d r =>
    if d.complete then promotedStages P stg fresh h0 (inner d r) a h w
    else innerStages P stg d r (stages fresh h0 a h w r) (update P fresh h0 a h w r) a h w

end PTWNode

/-- `PTW.update` (model.py:612-623): `log_prob_adjustment` if the tree is complete, then the tree, then `log_prob`. -/
noncomputable def PTW.stages {σ α : Type} (P : Predictor σ α) (stg : Stages σ α) (fresh : Py σ) (h0 : ℕ) : Stages (PTW σ) α :=
  fun s a h w =>
    s :: (s.tree.stages P stg fresh h0 a h w).map (fun n => ⟨n, s.logProb, s.adjusted⟩) ++
      match PTW.update P fresh h0 s a h w with
      | .error _ => []
      | .ok (_, s') => [s']

/-- `PTWFixedLength.update` (model.py:670-681): the tree, then `log_prob` as often as the loop runs. -/
noncomputable def PTWFixedLength.stages {σ α : Type} (P : Predictor σ α) (stg : Stages σ α) (fresh : Py σ) (h0 height : ℕ) :
    Stages (PTW σ) α :=
  fun s a h w =>
    (s.tree.stages P stg fresh h0 a h w).map (fun n => ⟨n, s.logProb, s.adj⟩) ++
      match s.tree.update P fresh h0 a h w with
      | .error _ => []
      | .ok n => (List.range (height - n.data.height + 1)).map fun i => ⟨n, PTWData.correct n.data.baseLP i n.data.lp, s.adj⟩

end Verif
