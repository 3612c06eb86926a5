import Verif.Spec.Relabel
import Verif.Model.CTW
import Verif.Model.FMN
import Mathlib.Data.List.Forall2

/-! Models over alike models are alike. -/

namespace Verif

open Predictor

namespace PyLift

variable {β γ β' γ' : Type} {R : β → γ → Prop} {S : β' → γ' → Prop}

theorem bind {x : Py β} {y : Py γ} (h : PyLift R x y) {f : β → Py β'} {g : γ → Py γ'} (hfg : ∀ u v, R u v → PyLift S (f u) (g v)) :
    PyLift S (x >>= f) (y >>= g) := by
  cases h with
  | ok h => exact hfg _ _ h
  | error e => exact .error e

theorem mono {R' : β → γ → Prop} (h : ∀ u v, R u v → R' u v) {x : Py β} {y : Py γ} (hx : PyLift R x y) : PyLift R' x y := by
  cases hx with
  | ok h' => exact .ok (h _ _ h')
  | error e => exact .error e

theorem refl {β : Type} (x : Py β) : PyLift (fun u v => u = v) x x := by
  cases x with
  | ok u => exact .ok rfl
  | error e => exact .error e

theorem of_map {x : Py β} {y : Py γ} {g : β → γ} (h : y = x.map g) : PyLift (fun u v => v = g u) x y := by
  subst h
  cases x with
  | ok u => exact .ok rfl
  | error e => exact .error e

end PyLift

namespace Predictor

variable {σ τ α β : Type} {P : Predictor σ α} {Q : Predictor τ β} {f : α → β}

theorem alike_corresponds : Corresponds P Q f (Alike P Q f) where
  update := fun s t ⟨R, hR, h⟩ a hi w => (hR.update s t h a hi w).mono fun _ _ hx => ⟨hx.1, R, hR, hx.2⟩
  logPredict := fun s t ⟨R, hR, h⟩ a hi => (hR.logPredict s t h a hi).mono fun _ _ hx => ⟨hx.1, R, hR, hx.2⟩
  copy := fun s t ⟨R, hR, h⟩ => (hR.copy s t h).mono fun _ _ hx => ⟨R, hR, hx⟩

end Predictor

namespace Relabel

variable {σ τ α β : Type} {P : Predictor σ α} {Q : Predictor τ β} {f : α → β} {R : σ → τ → Prop}

/-! ## `Averager` -/

/-- Pairs of related states and equal numbers. -/
def PairRel (R : σ → τ → Prop) (p : σ × ℝ) (q : τ × ℝ) : Prop := R p.1 q.1 ∧ p.2 = q.2

theorem snd_eq {l : List (σ × ℝ)} {l' : List (τ × ℝ)} (h : List.Forall₂ (PairRel R) l l') : l.map Prod.snd = l'.map Prod.snd := by
  induction h with
  | nil => rfl
  | cons h1 _ ih => simp only [List.map_cons, ih, h1.2]

structure AvRel (R : σ → τ → Prop) (s : Averager σ) (t : Averager τ) : Prop where
  models : List.Forall₂ (PairRel R) s.models t.models
  logProb : s.logProb = t.logProb

theorem av_init {ms : List σ} {ns : List τ} (h : List.Forall₂ R ms ns) : PyLift (AvRel R) (Averager.init ms) (Averager.init ns) := by
  simp only [Averager.init, h.length_eq]
  refine (PyLift.refl _).bind ?_
  rintro q _ rfl
  refine (PyLift.refl _).bind ?_
  rintro l _ rfl
  refine .ok ⟨?_, rfl⟩
  induction h with
  | nil => exact .nil
  | cons h1 _ ih => exact .cons ⟨h1, rfl⟩ ih

theorem av_updateModels (hR : Corresponds P Q f R) {l : List (σ × ℝ)} {l' : List (τ × ℝ)} (h : List.Forall₂ (PairRel R) l l') (a : α) (hi : List α)
    (w : ℝ) : PyLift (List.Forall₂ (PairRel R)) (Averager.updateModels P a hi w l) (Averager.updateModels Q (f a) (hi.map f) w l') := by
  induction h with
  | nil => exact .ok .nil
  | @cons p q l l' h1 _ ih =>
    obtain ⟨m, x⟩ := p
    obtain ⟨n, y⟩ := q
    obtain ⟨h1, rfl⟩ := h1
    refine (hR.update _ _ h1 a hi w).bind ?_
    rintro ⟨r, u⟩ ⟨r', v⟩ ⟨rfl, hu⟩
    exact ih.bind fun _ _ hl => .ok (.cons ⟨hu, rfl⟩ hl)

theorem av_predictModels (hR : Corresponds P Q f R) {l : List (σ × ℝ)} {l' : List (τ × ℝ)} (h : List.Forall₂ (PairRel R) l l') (a : α) (hi : List α) :
    PyLift (fun x y => x.1 = y.1 ∧ List.Forall₂ (PairRel R) x.2 y.2) (Averager.predictModels P a hi l)
      (Averager.predictModels Q (f a) (hi.map f) l') := by
  induction h with
  | nil => exact .ok ⟨rfl, .nil⟩
  | @cons p q l l' h1 _ ih =>
    obtain ⟨m, x⟩ := p
    obtain ⟨n, y⟩ := q
    obtain ⟨h1, rfl⟩ := h1
    refine (hR.logPredict _ _ h1 a hi).bind ?_
    rintro ⟨r, u⟩ ⟨r', v⟩ ⟨rfl, hu⟩
    refine ih.bind ?_
    rintro ⟨vs, ms⟩ ⟨vs', ms'⟩ ⟨rfl, hl⟩
    exact .ok ⟨rfl, .cons ⟨hu, rfl⟩ hl⟩

theorem av_copyModels (hR : Corresponds P Q f R) {l : List (σ × ℝ)} {l' : List (τ × ℝ)} (h : List.Forall₂ (PairRel R) l l') :
    PyLift (List.Forall₂ (PairRel R)) (Averager.copyModels P l) (Averager.copyModels Q l') := by
  induction h with
  | nil => exact .ok .nil
  | @cons p q l l' h1 _ ih =>
    obtain ⟨m, x⟩ := p
    obtain ⟨n, y⟩ := q
    obtain ⟨h1, rfl⟩ := h1
    exact (hR.copy _ _ h1).bind fun _ _ hu => ih.bind fun _ _ hl => .ok (.cons ⟨hu, rfl⟩ hl)

theorem averager (hR : Corresponds P Q f R) : Corresponds (Averager.predictor P) (Averager.predictor Q) f (AvRel R) where
  update s t h a hi w := by
    refine (av_updateModels hR h.models a hi w).bind fun ms ns hm => ?_
    rw [snd_eq hm, h.logProb]
    refine (PyLift.refl _).bind ?_
    rintro x _ rfl
    exact .ok ⟨rfl, hm, rfl⟩
  logPredict s t h a hi := by
    refine (av_predictModels hR h.models a hi).bind ?_
    rintro ⟨vs, ms⟩ ⟨vs', ns⟩ ⟨rfl, hm⟩
    simp only [h.logProb]
    refine (PyLift.refl _).bind ?_
    rintro x _ rfl
    exact .ok ⟨rfl, hm, rfl⟩
  copy s t h := (av_copyModels hR h.models).bind fun _ _ hm => .ok ⟨hm, h.logProb⟩

theorem maxByKey {l : List (σ × ℝ)} {l' : List (τ × ℝ)} (h : List.Forall₂ (PairRel R) l l') {b : σ × ℝ} {b' : τ × ℝ} (hb : PairRel R b b') :
    R (Averager.maxByKey b l).1 (Averager.maxByKey b' l').1 := by
  induction h generalizing b b' with
  | nil => exact hb.1
  | @cons p q l l' hpq _ ih =>
    simp only [Averager.maxByKey]
    apply ih
    rw [hb.2, hpq.2]
    split
    · exact hpq
    · exact hb

theorem av_map {s : Averager σ} {t : Averager τ} (h : AvRel R s t) : PyLift R s.map t.map := by
  have := h.models
  simp only [Averager.map]
  generalize s.models = l at this ⊢
  generalize t.models = l' at this ⊢
  cases this with
  | nil => exact .error _
  | cons h1 h2 => exact .ok (maxByKey h2 h1)

/-! ## `Factored` -/

theorem forall₂_get {l : List σ} {l' : List τ} (h : List.Forall₂ R l l') (i : ℕ) : PyLift R (pyGet l i) (pyGet l' i) := by
  induction h generalizing i with
  | nil => exact .error _
  | cons h1 _ ih =>
    cases i with
    | zero => exact .ok h1
    | succ i => simpa only [pyGet, List.getElem?_cons_succ] using ih i

theorem forall₂_set {l : List σ} {l' : List τ} (h : List.Forall₂ R l l') (i : ℕ) {x : σ} {y : τ} (hx : R x y) :
    List.Forall₂ R (l.set i x) (l'.set i y) := by
  induction h generalizing i with
  | nil => exact .nil
  | cons h1 h2 ih =>
    cases i with
    | zero => exact .cons hx h2
    | succ i => exact .cons h1 (ih i)

theorem mapM_copy (hR : Corresponds P Q f R) {l : List σ} {l' : List τ} (h : List.Forall₂ R l l') :
    PyLift (List.Forall₂ R) (l.mapM P.copy) (l'.mapM Q.copy) := by
  induction h with
  | nil => exact .ok .nil
  | cons h1 _ ih =>
    rw [List.mapM_cons, List.mapM_cons]
    exact (hR.copy _ _ h1).bind fun _ _ hu => ih.bind fun _ _ hl => .ok (.cons hu hl)

theorem fac_index {s : Factored σ} {t : Factored τ} (h : List.Forall₂ R s.factors t.factors) (hi : List α) :
    t.index (hi.map f) = s.index hi := by
  simp only [Factored.index, List.length_map, h.length_eq]

theorem factored (hR : Corresponds P Q f R) :
    Corresponds (Factored.predictor P) (Factored.predictor Q) f (fun s t => List.Forall₂ R s.factors t.factors) where
  update s t h a hi w := by
    simp only [Factored.predictor, Factored.update, fac_index h]
    refine (PyLift.refl _).bind ?_
    rintro i _ rfl
    refine (forall₂_get h i).bind fun m n hm => ?_
    refine (hR.update _ _ hm a hi 1).bind ?_
    rintro ⟨r, u⟩ ⟨r', v⟩ ⟨rfl, hu⟩
    exact .ok ⟨rfl, forall₂_set h i hu⟩
  logPredict s t h a hi := by
    simp only [Factored.predictor, Factored.logPredict, fac_index h]
    refine (PyLift.refl _).bind ?_
    rintro i _ rfl
    refine (forall₂_get h i).bind fun m n hm => ?_
    refine (hR.logPredict _ _ hm a hi).bind ?_
    rintro ⟨r, u⟩ ⟨r', v⟩ ⟨rfl, hu⟩
    exact .ok ⟨rfl, forall₂_set h i hu⟩
  copy s t h := (mapM_copy hR h).bind fun _ _ hl => .ok hl

/-! ## `CTW` -/

section CTW

variable {κ κ' : Type} [DecidableEq κ] [DecidableEq κ'] {e : κ → κ'}

omit [DecidableEq κ] [DecidableEq κ'] in
/-- Equal numbers, related base models, related children; contexts are translated by `e`. -/
inductive NodeRel (e : κ → κ') (R : σ → τ → Prop) : CTWNode σ κ → CTWNode τ κ' → Prop
  | mk {b : σ} {b' : τ} {x y z : ℝ} {ch : κ → Option (CTWNode σ κ)} {ch' : κ' → Option (CTWNode τ κ')} :
      R b b' → (∀ c, (ch c).isSome = (ch' (e c)).isSome) → (∀ c n n', ch c = some n → ch' (e c) = some n' → NodeRel e R n n') →
      NodeRel e R (.mk b x y z ch) (.mk b' x y z ch')

omit [DecidableEq κ] [DecidableEq κ'] in
theorem nodeRel_new {b : σ} {b' : τ} (h : R b b') : NodeRel e R (CTWNode.new b : CTWNode σ κ) (CTWNode.new b') :=
  .mk h (fun _ => rfl) (fun _ _ _ hn => by cases hn)

omit [DecidableEq κ] [DecidableEq κ'] in
theorem nodeRel_getD {b : σ} {b' : τ} (h : R b b') {ch : κ → Option (CTWNode σ κ)} {ch' : κ' → Option (CTWNode τ κ')}
    (h1 : ∀ c, (ch c).isSome = (ch' (e c)).isSome) (h2 : ∀ c n n', ch c = some n → ch' (e c) = some n' → NodeRel e R n n') (c : κ) :
    NodeRel e R ((ch c).getD (.new b)) ((ch' (e c)).getD (.new b')) := by
  have h3 := h1 c
  have h4 := h2 c
  cases hc : ch c with
  | none =>
    rw [hc] at h3
    have h5 : ch' (e c) = none := by
      cases hn : ch' (e c) with
      | none => rfl
      | some n' =>
        rw [hn] at h3
        cases h3
    rw [h5]
    exact nodeRel_new h
  | some n =>
    rw [hc] at h3
    obtain ⟨n', hn'⟩ := Option.isSome_iff_exists.mp h3.symm
    rw [hn']
    exact h4 n n' hc hn'

theorem nodeRel_children (he : Function.Injective e) {ch : κ → Option (CTWNode σ κ)} {ch' : κ' → Option (CTWNode τ κ')}
    (h1 : ∀ c, (ch c).isSome = (ch' (e c)).isSome) (h2 : ∀ c n n', ch c = some n → ch' (e c) = some n' → NodeRel e R n n')
    {b : σ} {b' : τ} {x y z : ℝ} (hb : R b b') {n : CTWNode σ κ} {n' : CTWNode τ κ'} (hn : NodeRel e R n n') (c : κ) :
    NodeRel e R (.mk b x y z (Function.update ch c (some n))) (.mk b' x y z (Function.update ch' (e c) (some n'))) := by
  refine .mk hb ?_ ?_
  · intro d
    by_cases hd : d = c
    · subst hd
      simp
    · rw [Function.update_of_ne hd, Function.update_of_ne (fun h => hd (he h))]
      exact h1 d
  · intro d m m' hm hm'
    by_cases hd : d = c
    · subst hd
      rw [Function.update_self] at hm hm'
      cases hm
      cases hm'
      exact hn
    · rw [Function.update_of_ne hd] at hm
      rw [Function.update_of_ne (fun h => hd (he h))] at hm'
      exact h2 d m m' hm hm'

theorem node_update (hR : Corresponds P Q f R) (he : Function.Injective e) {b : σ} {b' : τ} (hb : R b b') (a : α) (hi : List α) (w : ℝ) (cs : List κ) :
    ∀ {n : CTWNode σ κ} {n' : CTWNode τ κ'}, NodeRel e R n n' →
      PyLift (fun x y => x.1 = y.1 ∧ NodeRel e R x.2 y.2) (n.update P b a hi w cs) (n'.update Q b' (f a) (hi.map f) w (cs.map e)) := by
  induction cs with
  | nil =>
    rintro _ _ ⟨hbase, h1, h2⟩
    refine (hR.update _ _ hbase a hi w).bind ?_
    rintro ⟨r, u⟩ ⟨r', v⟩ ⟨rfl, hu⟩
    exact .ok ⟨rfl, .mk hu h1 h2⟩
  | cons c cs ih =>
    rintro _ _ ⟨hbase, h1, h2⟩
    refine (hR.update _ _ hbase a hi w).bind ?_
    rintro ⟨r, u⟩ ⟨r', v⟩ ⟨rfl, hu⟩
    refine (ih (nodeRel_getD hb h1 h2 c)).bind ?_
    rintro ⟨q, m⟩ ⟨q', m'⟩ ⟨rfl, hm⟩
    exact .ok ⟨rfl, nodeRel_children he h1 h2 hu hm c⟩

theorem node_logPredict (hR : Corresponds P Q f R) (he : Function.Injective e) {b : σ} {b' : τ} (hb : R b b') (a : α) (hi : List α) (cs : List κ) :
    ∀ {n : CTWNode σ κ} {n' : CTWNode τ κ'}, NodeRel e R n n' →
      PyLift (fun x y => x.1 = y.1 ∧ NodeRel e R x.2 y.2) (n.logPredict P b a hi cs) (n'.logPredict Q b' (f a) (hi.map f) (cs.map e)) := by
  induction cs with
  | nil =>
    rintro _ _ ⟨hbase, h1, h2⟩
    refine (hR.logPredict _ _ hbase a hi).bind ?_
    rintro ⟨r, u⟩ ⟨r', v⟩ ⟨rfl, hu⟩
    exact .ok ⟨rfl, .mk hu h1 h2⟩
  | cons c cs ih =>
    rintro _ _ ⟨hbase, h1, h2⟩
    refine (hR.logPredict _ _ hbase a hi).bind ?_
    rintro ⟨r, u⟩ ⟨r', v⟩ ⟨rfl, hu⟩
    refine (ih (nodeRel_getD hb h1 h2 c)).bind ?_
    rintro ⟨q, m⟩ ⟨q', m'⟩ ⟨rfl, hm⟩
    exact .ok ⟨rfl, nodeRel_children he h1 h2 hu hm c⟩

theorem ctw (hR : Corresponds P Q f R) (he : Function.Injective e) {b : σ} {b' : τ} (hb : R b b') {ctx : List α → List κ} {ctx' : List β → List κ'}
    (hc : ∀ h, ctx' (h.map f) = (ctx h).map e) :
    Corresponds (CTW.predictor P b ctx) (CTW.predictor Q b' ctx') f (NodeRel e R) where
  update s t h a hi w := by
    simp only [CTW.predictor, hc, ← List.map_reverse]
    exact node_update hR he hb a hi w _ h
  logPredict s t h a hi := by
    simp only [CTW.predictor, hc, ← List.map_reverse]
    exact node_logPredict hR he hb a hi _ h
  copy := by
    rintro _ _ ⟨hbase, h1, h2⟩
    exact (hR.copy _ _ hbase).bind fun _ _ hu => .ok (.mk hu h1 h2)

end CTW

/-! ## `PTW` -/

/-- Equal fields, related base models. -/
structure DataRel (R : σ → τ → Prop) (d : PTWData σ) (d' : PTWData τ) : Prop where
  base : R d.base d'.base
  height : d.height = d'.height
  count : d.count = d'.count
  baseLP : d.baseLP = d'.baseLP
  leftLP : d.leftLP = d'.leftLP
  lp : d.lp = d'.lp

theorem DataRel.complete {d : PTWData σ} {d' : PTWData τ} (h : DataRel R d d') : d.complete = d'.complete := by
  simp only [PTWData.complete, h.count, h.height]

theorem DataRel.baseStep (hR : Corresponds P Q f R) {d : PTWData σ} {d' : PTWData τ} (h : DataRel R d d') (a : α) (hi : List α) (w : ℝ) :
    PyLift (DataRel R) (d.baseStep P a hi w) (d'.baseStep Q (f a) (hi.map f) w) :=
  (hR.update _ _ h.base a hi w).bind fun _ _ hp =>
    .ok ⟨hp.2, h.height, h.count, by simp only [h.baseLP, hp.1], h.leftLP, h.lp⟩

/-- Trees of one shape with equal fields and related base models. -/
inductive TreeRel (R : σ → τ → Prop) : PTWNode σ → PTWNode τ → Prop
  | leaf {d : PTWData σ} {d' : PTWData τ} : DataRel R d d' → TreeRel R (.leaf d) (.leaf d')
  | inner {d : PTWData σ} {d' : PTWData τ} {r : PTWNode σ} {r' : PTWNode τ} : DataRel R d d' → TreeRel R r r' → TreeRel R (.inner d r) (.inner d' r')

theorem TreeRel.data {n : PTWNode σ} {n' : PTWNode τ} (h : TreeRel R n n') : DataRel R n.data n'.data := by
  cases h with
  | leaf h => exact h
  | inner h _ => exact h

theorem tree_combine {d : PTWData σ} {d' : PTWData τ} (h : DataRel R d d') {r : PTWNode σ} {r' : PTWNode τ} (hr : TreeRel R r r') :
    TreeRel R (PTWNode.combine d r) (PTWNode.combine d' r') := by
  refine .inner ⟨h.base, h.height, ?_, h.baseLP, h.leftLP, ?_⟩ hr
  · simp only [h.count]
  · simp only [h.baseLP, h.leftLP, h.height, hr.data.baseLP, hr.data.height, hr.data.lp]

theorem tree_leafUpdate (hR : Corresponds P Q f R) {d : PTWData σ} {d' : PTWData τ} (h : DataRel R d d') (a : α) (hi : List α) (w : ℝ) :
    PyLift (TreeRel R) (PTWNode.leafUpdate P d a hi w) (PTWNode.leafUpdate Q d' (f a) (hi.map f) w) :=
  (h.baseStep hR a hi w).bind fun _ _ hd =>
    .ok (.leaf ⟨hd.base, hd.height, by simp only [hd.count], hd.baseLP, hd.leftLP, hd.baseLP⟩)

theorem tree_promoted (hR : Corresponds P Q f R) {v : Py σ} {v' : Py τ} (hv : PyLift R v v') {m : ℕ} {d : PTWData σ} {d' : PTWData τ} (h : DataRel R d d')
    (a : α) (hi : List α) (w : ℝ) : PyLift (TreeRel R) (PTWNode.promoted P v m d a hi w) (PTWNode.promoted Q v' m d' (f a) (hi.map f) w) :=
  hv.bind fun _ _ hv =>
    (DataRel.baseStep hR (d := { d with leftLP := d.lp, height := d.height + 1 })
      (d' := { d' with leftLP := d'.lp, height := d'.height + 1 })
      ⟨h.base, by simp only [h.height], h.count, h.baseLP, h.lp, h.lp⟩ a hi w).bind fun _ _ hd =>
      (tree_leafUpdate hR (d := PTWData.new _ m) (d' := PTWData.new _ m) ⟨hv, rfl, rfl, rfl, rfl, rfl⟩ a hi w).bind
        fun _ _ hr => .ok (tree_combine hd hr)

theorem tree_update (hR : Corresponds P Q f R) {v : Py σ} {v' : Py τ} (hv : PyLift R v v') {m : ℕ} {n : PTWNode σ} {n' : PTWNode τ} (h : TreeRel R n n')
    (a : α) (hi : List α) (w : ℝ) : PyLift (TreeRel R) (n.update P v m a hi w) (n'.update Q v' m (f a) (hi.map f) w) := by
  induction h with
  | leaf h =>
    simp only [PTWNode.update, h.complete]
    split
    · exact tree_promoted hR hv h a hi w
    · exact tree_leafUpdate hR h a hi w
  | inner h _ ih =>
    simp only [PTWNode.update, h.complete]
    split
    · exact tree_promoted hR hv h a hi w
    · exact (h.baseStep hR a hi w).bind fun _ _ hd => ih.bind fun _ _ hr => .ok (tree_combine hd hr)

theorem tree_logPredict (hR : Corresponds P Q f R) {n : PTWNode σ} {n' : PTWNode τ} (h : TreeRel R n n') (a : α) (hi : List α) :
    PyLift (fun p q => p.1 = q.1 ∧ TreeRel R p.2 q.2) (n.logPredict P a hi) (n'.logPredict Q (f a) (hi.map f)) := by
  induction h with
  | leaf h =>
    refine (hR.logPredict _ _ h.base a hi).bind ?_
    rintro ⟨q, b⟩ ⟨q', b'⟩ ⟨rfl, hb⟩
    simp only [h.complete, h.baseLP, h.lp, h.height]
    split <;>
      exact .ok ⟨rfl, .leaf ⟨hb, by simp only [h.height], by simp only [h.count], by simp only [h.baseLP], by simp only [h.leftLP], by simp only [h.lp]⟩⟩
  | inner h hr ih =>
    refine (hR.logPredict _ _ h.base a hi).bind ?_
    rintro ⟨q, b⟩ ⟨q', b'⟩ ⟨rfl, hb⟩
    simp only [h.complete, h.baseLP, h.lp, h.height, h.leftLP]
    split
    · exact .ok ⟨rfl, .inner ⟨hb, by simp only [h.height], by simp only [h.count], by simp only [h.baseLP], by simp only [h.leftLP], by simp only [h.lp]⟩ hr⟩
    · refine ih.bind ?_
      rintro ⟨⟨x, y, z⟩, r⟩ ⟨⟨x', y', z'⟩, r'⟩ ⟨he, hr'⟩
      simp only [Prod.mk.injEq] at he
      obtain ⟨rfl, rfl, rfl⟩ := he
      exact .ok ⟨rfl, .inner ⟨hb, by simp only [h.height], by simp only [h.count], by simp only [h.baseLP], by simp only [h.leftLP], by simp only [h.lp]⟩ hr'⟩

theorem tree_mapNodes {n : PTWNode σ} {n' : PTWNode τ} (h : TreeRel R n n') (left : ℝ) :
    List.Forall₂ (PairRel R) (n.mapNodes left) (n'.mapNodes left) := by
  induction h generalizing left with
  | leaf h => exact .cons ⟨h.base, by simp only [h.baseLP]⟩ .nil
  | inner h _ ih =>
    simp only [PTWNode.mapNodes, h.leftLP]
    exact .cons ⟨h.base, by simp only [h.baseLP]⟩ (ih _)

structure PTWRel (R : σ → τ → Prop) (s : PTW σ) (t : PTW τ) : Prop where
  tree : TreeRel R s.tree t.tree
  logProb : s.logProb = t.logProb
  adj : s.adj = t.adj

theorem ptw_init {b : σ} {b' : τ} (h : R b b') (m : ℕ) : PTWRel R (PTW.init b m) (PTW.init b' m) :=
  ⟨.leaf ⟨h, rfl, rfl, rfl, rfl, rfl⟩, rfl, rfl⟩

theorem PTWRel.adjusted {s : PTW σ} {t : PTW τ} (h : PTWRel R s t) : s.adjusted = t.adjusted := by
  simp only [PTW.adjusted, h.tree.data.complete, h.tree.data.lp, h.tree.data.baseLP, h.adj]

theorem ptw_update (hR : Corresponds P Q f R) {v : Py σ} {v' : Py τ} (hv : PyLift R v v') {m : ℕ} {s : PTW σ} {t : PTW τ} (h : PTWRel R s t)
    (a : α) (hi : List α) (w : ℝ) :
    PyLift (fun p q => p.1 = q.1 ∧ PTWRel R p.2 q.2) (s.update P v m a hi w) (t.update Q v' m (f a) (hi.map f) w) :=
  (tree_update hR hv h.tree a hi w).bind fun _ _ hn =>
    .ok ⟨by simp only [hn.data.lp, h.adjusted, h.logProb], hn, by simp only [hn.data.lp, h.adjusted], h.adjusted⟩

theorem ptw_logPredict (hR : Corresponds P Q f R) {s : PTW σ} {t : PTW τ} (h : PTWRel R s t) (a : α) (hi : List α) :
    PyLift (fun p q => p.1 = q.1 ∧ PTWRel R p.2 q.2) (s.logPredict P a hi) (t.logPredict Q (f a) (hi.map f)) := by
  refine (tree_logPredict hR h.tree a hi).bind ?_
  rintro ⟨⟨x, y, z⟩, r⟩ ⟨⟨x', y', z'⟩, r'⟩ ⟨he, hr'⟩
  simp only [Prod.mk.injEq] at he
  obtain ⟨rfl, rfl, rfl⟩ := he
  exact .ok ⟨by simp only [h.adjusted, h.logProb], hr', h.logProb, h.adj⟩

theorem ptw_map {s : PTW σ} {t : PTW τ} (h : PTWRel R s t) : PyLift R s.map t.map := by
  have := tree_mapNodes h.tree 0
  simp only [PTW.map]
  generalize s.tree.mapNodes 0 = l at this ⊢
  generalize t.tree.mapNodes 0 = l' at this ⊢
  cases this with
  | nil => exact .error _
  | cons h1 h2 => exact .ok (maxByKey h2 h1)

theorem ptw (hR : Corresponds P Q f R) {b : σ} {b' : τ} (hb : R b b') (m : ℕ) :
    Corresponds (PTW.predictor P b m) (PTW.predictor Q b' m) f (PTWRel R) where
  update s t h a hi w := ptw_update hR (.ok hb) h a hi w
  logPredict s t h a hi := ptw_logPredict hR h a hi
  copy _ _ _ := .error _

theorem ptwFixedLength (hR : Corresponds P Q f R) {b : σ} {b' : τ} (hb : R b b') (m height : ℕ) :
    Corresponds (PTWFixedLength.predictor P b m height) (PTWFixedLength.predictor Q b' m height) f (PTWRel R) where
  update s t h a hi w := (tree_update hR (.ok hb) h.tree a hi w).bind fun _ _ hn =>
    .ok ⟨by simp only [hn.data.lp, hn.data.baseLP, hn.data.height, h.logProb], hn,
      by simp only [hn.data.lp, hn.data.baseLP, hn.data.height], h.adj⟩
  logPredict s t h a hi := by
    refine (tree_logPredict hR h.tree a hi).bind ?_
    rintro ⟨⟨x, y, z⟩, r⟩ ⟨⟨x', y', z'⟩, r'⟩ ⟨he, hr'⟩
    simp only [Prod.mk.injEq] at he
    obtain ⟨rfl, rfl, rfl⟩ := he
    exact .ok ⟨by simp only [h.logProb], hr', h.logProb, h.adj⟩
  copy _ _ _ := .error _

/-! ## Stores and `FMN` -/

/-- Two stores that go through related states when related models are added. -/
structure StoreRel {S S' : Type} (St : Store S σ) (St' : Store S' τ) (R : σ → τ → Prop) (RS : S → S' → Prop) : Prop where
  empty : RS St.empty St'.empty
  lazyAdd : ∀ s t, RS s t → ∀ x y, PyLift R x y → PyLift RS (St.lazyAdd s x) (St'.lazyAdd t y)
  items : ∀ s t, RS s t → List.Forall₂ R (St.items s) (St'.items t)

theorem logStore_add {s : LogStore σ} {t : LogStore τ} (h : List.Forall₂ (fun p q => R p.1 q.1 ∧ p.2 = q.2) s t) {x : σ} {y : τ} (hx : R x y) :
    List.Forall₂ (fun p q => R p.1 q.1 ∧ p.2 = q.2) (s.add x) (t.add y) := by
  induction h generalizing x y with
  | nil => exact .cons ⟨hx, rfl⟩ .nil
  | @cons p q l l' h1 h2 ih =>
    obtain ⟨u, b⟩ := p
    obtain ⟨v, c⟩ := q
    obtain ⟨h1, rfl⟩ := h1
    cases b with
    | true => exact .cons ⟨hx, rfl⟩ (ih h1)
    | false => exact .cons ⟨hx, rfl⟩ h2

theorem logStore : StoreRel (LogStore.store σ) (LogStore.store τ) R (List.Forall₂ (fun p q => R p.1 q.1 ∧ p.2 = q.2)) where
  empty := .nil
  lazyAdd s t h x y hx := hx.bind fun _ _ hu => .ok (logStore_add h hu)
  items s t h := by
    simp only [LogStore.store, LogStore.items]
    induction h with
    | nil => exact .nil
    | cons h1 _ ih => exact .cons h1.1 ih

/-- Equal fields, related items. -/
structure UniformRel (R : σ → τ → Prop) (s : LogStoreUniform σ) (t : LogStoreUniform τ) : Prop where
  items : List.Forall₂ R s.items t.items
  gap : s.gap = t.gap
  index : s.indexToRemove = t.indexToRemove
  skip : s.numToSkip = t.numToSkip

theorem forall₂_eraseIdx {l : List σ} {l' : List τ} (h : List.Forall₂ R l l') (i : ℕ) : List.Forall₂ R (l.eraseIdx i) (l'.eraseIdx i) := by
  induction h generalizing i with
  | nil => exact .nil
  | cons h1 h2 ih =>
    cases i with
    | zero => exact h2
    | succ i => exact .cons h1 (ih i)

theorem forall₂_snoc {l : List σ} {l' : List τ} (h : List.Forall₂ R l l') {x : σ} {y : τ} (hx : R x y) : List.Forall₂ R (l ++ [x]) (l' ++ [y]) := by
  induction h with
  | nil => exact .cons hx .nil
  | cons h1 _ ih => exact .cons h1 ih

theorem uniform_add {s : LogStoreUniform σ} {t : LogStoreUniform τ} (h : UniformRel R s t) {x : σ} {y : τ} (hx : R x y) :
    UniformRel R (s.add x) (t.add y) := by
  simp only [LogStoreUniform.add, ← h.gap, ← h.index, ← h.skip]
  split
  · exact ⟨h.items, rfl, rfl, rfl⟩
  · have hl : List.Forall₂ R (if 0 < s.indexToRemove then (s.items ++ [x]).eraseIdx s.indexToRemove.toNat else s.items ++ [x])
        (if 0 < s.indexToRemove then (t.items ++ [y]).eraseIdx s.indexToRemove.toNat else t.items ++ [y]) := by
      split
      · exact forall₂_eraseIdx (forall₂_snoc h.items hx) _
      · exact forall₂_snoc h.items hx
    rw [hl.length_eq]
    by_cases hc : ((if 0 < s.indexToRemove then (t.items ++ [y]).eraseIdx s.indexToRemove.toNat else t.items ++ [y]).length : ℤ) ≤ s.indexToRemove + 1
    · rw [if_pos hc, if_pos hc]
      exact ⟨hl, rfl, rfl, rfl⟩
    · rw [if_neg hc, if_neg hc]
      exact ⟨hl, rfl, rfl, rfl⟩

theorem logStoreUniform : StoreRel (LogStoreUniform.store σ) (LogStoreUniform.store τ) R (UniformRel R) where
  empty := ⟨.nil, rfl, rfl, rfl⟩
  lazyAdd s t h x y hx := by
    simp only [LogStoreUniform.store, ← h.skip]
    split
    · exact .ok ⟨h.items, h.gap, h.index, rfl⟩
    · exact hx.bind fun _ _ hu => .ok (uniform_add h hu)
  items s t h := List.rel_reverse h.items

section FMN

variable {S S' : Type} {St : Store S σ} {St' : Store S' τ} {RS : S → S' → Prop}

structure FMNRel (R : σ → τ → Prop) (RS : S → S' → Prop) (s : FMN S σ) (t : FMN S' τ) : Prop where
  ptw : PTWRel (AvRel R) s.ptw t.ptw
  store : RS s.store t.store
  t : s.t = t.t

theorem copies (hR : Corresponds P Q f R) {l : List σ} {l' : List τ} (h : List.Forall₂ R l l') :
    PyLift (List.Forall₂ R) (FMN.copies P l) (FMN.copies Q l') := by
  induction h with
  | nil => exact .ok .nil
  | cons h1 _ ih => exact (hR.copy _ _ h1).bind fun _ _ hu => ih.bind fun _ _ hl => .ok (.cons hu hl)

theorem modelFactory (hR : Corresponds P Q f R) {l : List σ} {l' : List τ} (h : List.Forall₂ R l l') :
    PyLift (AvRel R) (FMN.modelFactory P l) (FMN.modelFactory Q l') :=
  (copies hR h).bind fun _ _ hl => av_init hl

theorem best (hR : Corresponds P Q f R) {p : PTW (Averager σ)} {q : PTW (Averager τ)} (h : PTWRel (AvRel R) p q) :
    PyLift R (FMN.best P p) (FMN.best Q q) :=
  (ptw_map h).bind fun _ _ ha => (av_map ha).bind fun _ _ hb => hR.copy _ _ hb

theorem fmn_init (hR : Corresponds P Q f R) (hS : StoreRel St St' R RS) {b : σ} {b' : τ} (hb : R b b') (m : ℕ) :
    PyLift (FMNRel R RS) (FMN.init St P b m) (FMN.init St' Q b' m) :=
  (hS.lazyAdd _ _ hS.empty _ _ (.ok hb)).bind fun _ _ hs => (modelFactory hR (hS.items _ _ hs)).bind fun _ _ hv => .ok ⟨ptw_init hv m, hs, rfl⟩

theorem fmn (hR : Corresponds P Q f R) (hS : StoreRel St St' R RS) (m : ℕ) :
    Corresponds (FMN.predictor St P m) (FMN.predictor St' Q m) f (FMNRel R RS) where
  update s t h a hi w := by
    simp only [FMN.predictor, FMN.update]
    refine (ptw_update (averager hR) (modelFactory hR (hS.items _ _ h.store)) h.ptw a hi w).bind ?_
    rintro ⟨r, p⟩ ⟨r', p'⟩ ⟨rfl, hp⟩
    rw [h.t]
    split
    · exact (hS.lazyAdd _ _ h.store _ _ (best hR hp)).bind fun _ _ hs => .ok ⟨rfl, hp, hs, rfl⟩
    · exact .ok ⟨rfl, hp, h.store, rfl⟩
  logPredict s t h a hi := by
    refine (ptw_logPredict (averager hR) h.ptw a hi).bind ?_
    rintro ⟨r, p⟩ ⟨r', p'⟩ ⟨rfl, hp⟩
    exact .ok ⟨rfl, hp, h.store, h.t⟩
  copy _ _ _ := .error _

end FMN

end Relabel

end Verif
