import Verif.Model.CTW
import Verif.Model.FMN

/-!
# What is left of a model when an update raises (model.py:46-66, 81-187, 190-222, 231-382, 504-689, 796-835)

The other modules describe an update that raises by its exception only.  Here every method returns its value or exception together with the object
as it is afterwards.  `XPredictor.Models` says that the two descriptions agree, and `C121_models` proves it for every class.
-/

namespace Verif

/-- The methods `update` and `log_predict` of a model with state `σ`, with the state also after an exception. -/
structure XPredictor (σ α : Type) where
  update : σ → α → List α → ℝ → Py ℝ × σ
  logPredict : σ → α → List α → Py ℝ × σ

namespace KT

variable {α : Type} [DecidableEq α]

/-- `KT.update` (model.py:100-104): `log_predict` is called before anything is assigned. -/
noncomputable def xupdate (s : KT α) (a : α) (w : ℝ) : Py ℝ × KT α :=
  match s.logPredict a with
  | .error e => (.error e, s)
  | .ok rv =>
    match s.counts.getE a with
    | .error e => (.error e, s)
    | .ok c => (.ok rv, { counts := s.counts.set a (c + w), sumCounts := s.sumCounts + w })

/-- `KT` (model.py:100-107); `log_predict` assigns nothing. -/
noncomputable def xpredictor : XPredictor (KT α) α where
  update s a _ w := s.xupdate a w
  logPredict s a _ := (s.logPredict a, s)

end KT

namespace KTBinary

/-- `KTBinary` (model.py:131-137). -/
noncomputable def xpredictor : XPredictor KTBinary Bool where
  update s b _ w :=
    match s.logPredict b with
    | .error e => (.error e, s)
    | .ok rv => (.ok rv, s.bump b w)
  logPredict s b _ := (s.logPredict b, s)

end KTBinary

namespace SAD

variable {α : Type} [DecidableEq α]

/-- `SAD.update` (model.py:161-166): first `log_predict`, then `setdefault`, then `+=`. -/
noncomputable def xupdate (s : SAD α) (a : α) (w : ℝ) : Py ℝ × SAD α :=
  match s.logPredict a with
  | .error e => (.error e, s)
  | .ok rv =>
    let d := match s.counts.get? a with
      | some _ => s.counts
      | none => s.counts.set a 0
    match d.getE a with
    | .error e => (.error e, { s with counts := d })
    | .ok c => (.ok rv, { n := s.n, counts := d.set a (c + w), sumCounts := s.sumCounts + w })

/-- `SAD` (model.py:161-179). -/
noncomputable def xpredictor : XPredictor (SAD α) α where
  update s a _ w := s.xupdate a w
  logPredict s a _ := (s.logPredict a, s)

end SAD

namespace Averager

variable {σ α : Type} (X : XPredictor σ α)

/-- The loop of `update` (model.py:207-208): the components before the one that raises have been updated. -/
noncomputable def xupdateModels (a : α) (h : List α) (w : ℝ) : List (σ × ℝ) → Py Unit × List (σ × ℝ)
  | [] => (.ok (), [])
  | (m, lp) :: rest =>
    match X.update m a h w with
    | (.error e, m') => (.error e, (m', lp) :: rest)
    | (.ok r, m') =>
      let q := xupdateModels a h w rest
      (q.1, (m', lp + r) :: q.2)

/-- `Averager.update` (model.py:204-211). -/
noncomputable def xupdate (s : Averager σ) (a : α) (h : List α) (w : ℝ) : Py ℝ × Averager σ :=
  let q := xupdateModels X a h w s.models
  match q.1 with
  | .error e => (.error e, ⟨q.2, s.logProb⟩)
  | .ok _ =>
    match logsumexp (q.2.map Prod.snd) with
    | .error e => (.error e, ⟨q.2, s.logProb⟩)
    | .ok lp => (.ok (lp - s.logProb), ⟨q.2, lp⟩)

/-- The arguments of `logsumexp` in `log_predict` (model.py:214-215). -/
noncomputable def xpredictModels (a : α) (h : List α) : List (σ × ℝ) → Py (List ℝ) × List (σ × ℝ)
  | [] => (.ok [], [])
  | (m, lp) :: rest =>
    match X.logPredict m a h with
    | (.error e, m') => (.error e, (m', lp) :: rest)
    | (.ok r, m') =>
      let q := xpredictModels a h rest
      ((fun vs => (r + lp) :: vs) <$> q.1, (m', lp) :: q.2)

/-- `Averager.log_predict` (model.py:213-215). -/
noncomputable def xlogPredict (s : Averager σ) (a : α) (h : List α) : Py ℝ × Averager σ :=
  let q := xpredictModels X a h s.models
  match q.1 with
  | .error e => (.error e, ⟨q.2, s.logProb⟩)
  | .ok vs =>
    match logsumexp vs with
    | .error e => (.error e, ⟨q.2, s.logProb⟩)
    | .ok lp => (.ok (lp - s.logProb), ⟨q.2, s.logProb⟩)

/-- `Averager` (model.py:204-215). -/
noncomputable def xpredictor : XPredictor (Averager σ) α where
  update := xupdate X
  logPredict := xlogPredict X

end Averager

namespace CTWNode

variable {σ κ α : Type} [DecidableEq κ] (X : XPredictor σ α) (fresh : σ) (valid : κ → Bool)

/-- `Node.update` (model.py:268-297).  `valid` tells which context symbols can be used as an index of `children`: for binary contexts a list of two
entries (model.py:339-341), otherwise a dictionary, where all can.  The base model is updated before the child is looked up. -/
noncomputable def xupdate (a : α) (h : List α) (w : ℝ) : List κ → CTWNode σ κ → Py ℝ × CTWNode σ κ
  | [], n =>
    match X.update n.base a h w with
    | (.error e, b) => (.error e, mk b n.baseLP n.childrenLP n.lp n.children)
    | (.ok r, b) => (.ok (n.baseLP + r - n.lp), mk b (n.baseLP + r) n.childrenLP (n.baseLP + r) n.children)
  | c :: cs, n =>
    match X.update n.base a h w with
    | (.error e, b) => (.error e, mk b n.baseLP n.childrenLP n.lp n.children)
    | (.ok r, b) =>
      if valid c = false then (.error .indexError, mk b (n.baseLP + r) n.childrenLP n.lp n.children)
      else
        let q := xupdate a h w cs ((n.children c).getD (new fresh))
        let children := Function.update n.children c (some q.2)
        match q.1 with
        | .error e => (.error e, mk b (n.baseLP + r) n.childrenLP n.lp children)
        | .ok rc =>
          let lp := log05 + logsumexp2 (n.baseLP + r) (n.childrenLP + rc)
          (.ok (lp - n.lp), mk b (n.baseLP + r) (n.childrenLP + rc) lp children)

/-- `Node.log_predict` (model.py:299-314). -/
noncomputable def xlogPredict (a : α) (h : List α) : List κ → CTWNode σ κ → Py ℝ × CTWNode σ κ
  | [], n =>
    match X.logPredict n.base a h with
    | (.error e, b) => (.error e, mk b n.baseLP n.childrenLP n.lp n.children)
    | (.ok r, b) => (.ok (n.baseLP + r - n.lp), mk b n.baseLP n.childrenLP n.lp n.children)
  | c :: cs, n =>
    match X.logPredict n.base a h with
    | (.error e, b) => (.error e, mk b n.baseLP n.childrenLP n.lp n.children)
    | (.ok r, b) =>
      if valid c = false then (.error .indexError, mk b n.baseLP n.childrenLP n.lp n.children)
      else
        let q := xlogPredict a h cs ((n.children c).getD (new fresh))
        let n' := mk b n.baseLP n.childrenLP n.lp (Function.update n.children c (some q.2))
        match q.1 with
        | .error e => (.error e, n')
        | .ok rc => (.ok (log05 + logsumexp2 (n.baseLP + r) (n.childrenLP + rc) - n.lp), n')

end CTWNode

/-- `CTW` (model.py:370-375). -/
noncomputable def CTW.xpredictor {σ κ α : Type} [DecidableEq κ] (X : XPredictor σ α) (fresh : σ) (valid : κ → Bool) (ctx : List α → List κ) :
    XPredictor (CTWNode σ κ) α where
  update n a h w := n.xupdate X fresh valid a h w (ctx h).reverse
  logPredict n a h := n.xlogPredict X fresh valid a h (ctx h).reverse

namespace PTWNode

variable {σ α : Type} (X : XPredictor σ α)

open PTWData

/-- `Node.update` of a node without right child that is not complete (model.py:545, 565-568). -/
noncomputable def xleaf (d : PTWData σ) (a : α) (h : List α) (w : ℝ) : Py Unit × PTWNode σ :=
  match X.update d.base a h w with
  | (.error e, b) => (.error e, .leaf { d with base := b })
  | (.ok r, b) => (.ok (), .leaf { d with base := b, baseLP := d.baseLP + r, lp := d.baseLP + r, count := d.count + 1 })

/-- `Node.update` of a node with the updated or partly updated right child `q` (model.py:551-568). -/
noncomputable def xcombine (d : PTWData σ) (q : Py Unit × PTWNode σ) : Py Unit × PTWNode σ :=
  match q.1 with
  | .error e => (.error e, .inner d q.2)
  | .ok _ => (.ok (), combine d q.2)

/-- The node with another right child or none. -/
def withData (d : PTWData σ) : PTWNode σ → PTWNode σ
  | .leaf _ => .leaf d
  | .inner _ r => .inner d r

/-- `Node.update` of a complete node (model.py:539-568).  `left_log_prob` is assigned before the factory is called, `height` after it, both before the
base model is updated. -/
noncomputable def xpromoted (fresh : Py σ) (h0 : ℕ) (n : PTWNode σ) (a : α) (h : List α) (w : ℝ) : Py Unit × PTWNode σ :=
  let d := n.data
  match fresh with
  | .error e => (.error e, n.withData { d with leftLP := d.lp })
  | .ok f =>
    match X.update d.base a h w with
    | (.error e, b) => (.error e, .inner { d with leftLP := d.lp, height := d.height + 1, base := b } (.leaf (PTWData.new f h0)))
    | (.ok r, b) =>
      xcombine { d with leftLP := d.lp, height := d.height + 1, base := b, baseLP := d.baseLP + r } (xleaf X (PTWData.new f h0) a h w)

/-- `Node.update` (model.py:535-568). -/
noncomputable def xupdate (fresh : Py σ) (h0 : ℕ) (a : α) (h : List α) (w : ℝ) : PTWNode σ → Py Unit × PTWNode σ
  | .leaf d => if d.complete then xpromoted X fresh h0 (.leaf d) a h w else xleaf X d a h w
  | .inner d r =>
    if d.complete then xpromoted X fresh h0 (.inner d r) a h w
    else
      match X.update d.base a h w with
      | (.error e, b) => (.error e, .inner { d with base := b } r)
      | (.ok q, b) => xcombine { d with base := b, baseLP := d.baseLP + q } (xupdate fresh h0 a h w r)

/-- `Node.log_predict` (model.py:570-583). -/
noncomputable def xlogPredict (a : α) (h : List α) : PTWNode σ → Py (ℝ × ℝ × ℕ) × PTWNode σ
  | .leaf d =>
    match X.logPredict d.base a h with
    | (.error e, b) => (.error e, .leaf { d with base := b })
    | (.ok q, b) =>
      if d.complete then (.ok (log05 + logsumexp2 (d.baseLP + q) d.lp, d.baseLP + q, d.height + 1), .leaf { d with base := b })
      else (.ok (d.baseLP + q, d.baseLP + q, d.height), .leaf { d with base := b })
  | .inner d r =>
    match X.logPredict d.base a h with
    | (.error e, b) => (.error e, .inner { d with base := b } r)
    | (.ok q, b) =>
      if d.complete then (.ok (log05 + logsumexp2 (d.baseLP + q) d.lp, d.baseLP + q, d.height + 1), .inner { d with base := b } r)
      else
        let p := xlogPredict a h r
        match p.1 with
        | .error e => (.error e, .inner { d with base := b } p.2)
        | .ok (rlp, rblp, rh) =>
          (.ok (log05 + logsumexp2 (d.baseLP + q) (d.leftLP + correct rblp (d.height - rh - 1) rlp), d.baseLP + q, d.height),
            .inner { d with base := b } p.2)

end PTWNode

namespace PTW

variable {σ α : Type} (X : XPredictor σ α)

/-- `PTW.update` (model.py:612-623): the adjustment is assigned before the tree is updated. -/
noncomputable def xupdate (fresh : Py σ) (h0 : ℕ) (s : PTW σ) (a : α) (h : List α) (w : ℝ) : Py ℝ × PTW σ :=
  let q := s.tree.xupdate X fresh h0 a h w
  match q.1 with
  | .error e => (.error e, ⟨q.2, s.logProb, s.adjusted⟩)
  | .ok _ => (.ok (q.2.data.lp + s.adjusted - s.logProb), ⟨q.2, q.2.data.lp + s.adjusted, s.adjusted⟩)

/-- `PTW.log_predict` (model.py:625-636). -/
noncomputable def xlogPredict (s : PTW σ) (a : α) (h : List α) : Py ℝ × PTW σ :=
  let q := s.tree.xlogPredict X a h
  ((fun r => r.1 + s.adjusted - s.logProb) <$> q.1, ⟨q.2, s.logProb, s.adj⟩)

/-- `PTW` with a factory that always returns `fresh` (model.py:612-636). -/
noncomputable def xpredictor (fresh : σ) (h0 : ℕ) : XPredictor (PTW σ) α where
  update s := xupdate X (.ok fresh) h0 s
  logPredict := xlogPredict X

end PTW

namespace PTWFixedLength

variable {σ α : Type} (X : XPredictor σ α)

/-- `PTWFixedLength.update` (model.py:670-681). -/
noncomputable def xupdate (fresh : Py σ) (h0 height : ℕ) (s : PTW σ) (a : α) (h : List α) (w : ℝ) : Py ℝ × PTW σ :=
  let q := s.tree.xupdate X fresh h0 a h w
  match q.1 with
  | .error e => (.error e, ⟨q.2, s.logProb, s.adj⟩)
  | .ok _ =>
    let lp := PTWData.correct q.2.data.baseLP (height - q.2.data.height) q.2.data.lp
    (.ok (lp - s.logProb), ⟨q.2, lp, s.adj⟩)

/-- `PTWFixedLength.log_predict` (model.py:683-689). -/
noncomputable def xlogPredict (height : ℕ) (s : PTW σ) (a : α) (h : List α) : Py ℝ × PTW σ :=
  let q := s.tree.xlogPredict X a h
  ((fun r => PTWData.correct r.2.1 (height - r.2.2) r.1 - s.logProb) <$> q.1, ⟨q.2, s.logProb, s.adj⟩)

/-- `PTWFixedLength` (model.py:653-689). -/
noncomputable def xpredictor (fresh : σ) (h0 height : ℕ) : XPredictor (PTW σ) α where
  update s := xupdate X (.ok fresh) h0 height s
  logPredict := xlogPredict X height

end PTWFixedLength

namespace FMN

variable {S σ α : Type} (St : Store S σ) (P : Predictor σ α) (X : XPredictor σ α)

/-- `FMN.update` (model.py:827-835).  `P` has the copies and `X` the updates of the base models; `t` is counted before the store is changed. -/
noncomputable def xupdate (m : ℕ) (s : FMN S σ) (a : α) (h : List α) (w : ℝ) : Py ℝ × FMN S σ :=
  let q := s.ptw.xupdate (Averager.xpredictor X) (modelFactory P (St.items s.store)) m a h w
  match q.1 with
  | .error e => (.error e, { s with ptw := q.2 })
  | .ok r =>
    if (s.t + 1) % 2 ^ m = 0 then
      match St.lazyAdd s.store (best P q.2) with
      | .error e => (.error e, ⟨q.2, s.store, s.t + 1⟩)
      | .ok st => (.ok r, ⟨q.2, st, s.t + 1⟩)
    else (.ok r, ⟨q.2, s.store, s.t + 1⟩)

/-- `log_predict` is inherited from `PTW` (model.py:625-636). -/
noncomputable def xlogPredict (s : FMN S σ) (a : α) (h : List α) : Py ℝ × FMN S σ :=
  let q := s.ptw.xlogPredict (Averager.xpredictor X) a h
  (q.1, { s with ptw := q.2 })

/-- `FMN` (model.py:796-835). -/
noncomputable def xpredictor (m : ℕ) : XPredictor (FMN S σ) α where
  update := xupdate St P X m
  logPredict := xlogPredict X

end FMN

namespace XPredictor

variable {σ α : Type} (X : XPredictor σ α)

/-- The loop of `update_seq` (model.py:50-52) with the caller's history and the state at its end or when it raises. -/
noncomputable def updateSeqLoop (w : ℝ) : σ → List α → List α → ℝ → Py ℝ × σ × List α
  | s, [], h, rv => (.ok rv, s, h)
  | s, a :: as, h, rv =>
    match X.update s a h w with
    | (.error e, s') => (.error e, s', h)
    | (.ok r, s') => updateSeqLoop w s' as (h ++ [a]) (rv + r)

/-- `update_seq` (model.py:46-54). -/
noncomputable def updateSeq (s : σ) (seq h : List α) (w : ℝ) : Py ℝ × σ × List α :=
  let q := X.updateSeqLoop w s seq h 0
  match q.1 with
  | .error e => (.error e, q.2)
  | .ok rv => (.ok rv, q.2.1, pyDelTail q.2.2 seq.length)

end XPredictor

end Verif
