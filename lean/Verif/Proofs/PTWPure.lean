import Verif.Proofs.Copy
import Verif.Model.FMN

/-! Partition trees with related base models answer alike. -/

namespace Verif

open Predictor

/-- Two computations fail alike, or succeed with related results. -/
def PyRel {β : Type} (R : β → β → Prop) (x y : Py β) : Prop :=
  (∃ e, x = .error e ∧ y = .error e) ∨ ∃ u v, x = .ok u ∧ y = .ok v ∧ R u v

theorem PyRel.bind {β γ : Type} {R : β → β → Prop} {S : γ → γ → Prop} {x y : Py β} (h : PyRel R x y)
    {f g : β → Py γ} (hfg : ∀ u v, R u v → PyRel S (f u) (g v)) : PyRel S (x >>= f) (y >>= g) := by
  rcases h with ⟨e, rfl, rfl⟩ | ⟨u, v, rfl, rfl, h⟩
  · exact .inl ⟨e, rfl, rfl⟩
  · exact hfg u v h

theorem PyRel.ok {β : Type} {R : β → β → Prop} {u v : β} (h : R u v) : PyRel R (.ok u) (.ok v) :=
  .inr ⟨u, v, rfl, rfl, h⟩

theorem PyRel.of_same {σ : Type} {R : σ → σ → Prop} {x y : Py (ℝ × σ)} (h : SameResult R x y) :
    PyRel (fun p q => p.1 = q.1 ∧ R p.2 q.2) x y := by
  rcases sameResult_ok h with ⟨e, h1, h2⟩ | ⟨r, s, t, h1, h2, h3⟩
  · exact .inl ⟨e, h1, h2⟩
  · exact .inr ⟨_, _, h1, h2, rfl, h3⟩

theorem PyRel.to_same {σ : Type} {R : σ → σ → Prop} {x y : Py (ℝ × σ)}
    (h : PyRel (fun p q => p.1 = q.1 ∧ R p.2 q.2) x y) : SameResult R x y := by
  rcases h with ⟨e, rfl, rfl⟩ | ⟨⟨r, s⟩, ⟨r', t⟩, rfl, rfl, h1, h2⟩
  · rfl
  · exact ⟨h1, h2⟩

theorem Predictor.Indist.symm {σ α : Type} {P : Predictor σ α} {s t : σ} (h : Indist P s t) : Indist P t s := by
  obtain ⟨R, hR, hst⟩ := h
  have flip : ∀ {x y : Py (ℝ × σ)}, SameResult R x y → SameResult (fun a b => R b a) y x := by
    intro x y hxy
    rcases sameResult_ok hxy with ⟨e, rfl, rfl⟩ | ⟨r, a, b, rfl, rfl, h⟩
    · rfl
    · exact ⟨rfl, h⟩
  exact ⟨fun a b => R b a, fun a b hab => ⟨fun x h w => flip ((hR _ _ hab).1 x h w), fun x h => flip ((hR _ _ hab).2 x h)⟩, hst⟩

theorem Predictor.Indist.trans {σ α : Type} {P : Predictor σ α} {s t u : σ} (h1 : Indist P s t) (h2 : Indist P t u) :
    Indist P s u := by
  have comp : ∀ {x y z : Py (ℝ × σ)}, SameResult (Indist P) x y → SameResult (Indist P) y z →
      SameResult (fun a c => ∃ b, Indist P a b ∧ Indist P b c) x z := by
    intro x y z hxy hyz
    rcases sameResult_ok hxy with ⟨e, rfl, rfl⟩ | ⟨r, a, b, rfl, rfl, h⟩
    · rcases sameResult_ok hyz with ⟨e', h3, rfl⟩ | ⟨r, a, b, h3, _, h⟩
      · exact Except.error.inj h3
      · cases h3
    · rcases sameResult_ok hyz with ⟨e', h3, rfl⟩ | ⟨r', a', b', h3, rfl, h'⟩
      · cases h3
      · cases h3
        exact ⟨rfl, _, h, h'⟩
  refine ⟨fun a c => ∃ b, Indist P a b ∧ Indist P b c, ?_, t, h1, h2⟩
  rintro a c ⟨b, hab, hbc⟩
  exact ⟨fun x h w => comp ((indist_bisimulation P _ _ hab).1 x h w) ((indist_bisimulation P _ _ hbc).1 x h w),
    fun x h => comp ((indist_bisimulation P _ _ hab).2 x h) ((indist_bisimulation P _ _ hbc).2 x h)⟩

namespace PTWData

variable {σ α : Type} {P : Predictor σ α} {R : σ → σ → Prop}

/-- Equal fields, related base models. -/
structure Eqv (R : σ → σ → Prop) (d d' : PTWData σ) : Prop where
  base : R d.base d'.base
  height : d.height = d'.height
  count : d.count = d'.count
  baseLP : d.baseLP = d'.baseLP
  leftLP : d.leftLP = d'.leftLP
  lp : d.lp = d'.lp

theorem Eqv.complete {d d' : PTWData σ} (h : Eqv R d d') : d.complete = d'.complete := by
  simp only [PTWData.complete, h.count, h.height]

theorem Eqv.baseStep (hR : Bisimulation P R) {d d' : PTWData σ} (h : Eqv R d d') (a : α) (hi : List α) (w : ℝ) :
    PyRel (Eqv R) (d.baseStep P a hi w) (d'.baseStep P a hi w) :=
  (PyRel.of_same ((hR _ _ h.base).1 a hi w)).bind fun _ _ hp =>
    .ok ⟨hp.2, h.height, h.count, by simp only [h.baseLP, hp.1], h.leftLP, h.lp⟩

end PTWData

namespace PTWNode

open PTWData

variable {σ α : Type} {P : Predictor σ α} {R : σ → σ → Prop} {m : ℕ}

/-- Trees of one shape with equal fields and related base models. -/
inductive Eqv (R : σ → σ → Prop) : PTWNode σ → PTWNode σ → Prop
  | leaf {d d' : PTWData σ} : PTWData.Eqv R d d' → Eqv R (.leaf d) (.leaf d')
  | inner {d d' : PTWData σ} {r r' : PTWNode σ} : PTWData.Eqv R d d' → Eqv R r r' → Eqv R (.inner d r) (.inner d' r')

theorem Eqv.data {n n' : PTWNode σ} (h : Eqv R n n') : PTWData.Eqv R n.data n'.data := by
  cases h with
  | leaf h => exact h
  | inner h _ => exact h

theorem eqv_combine {d d' : PTWData σ} (h : PTWData.Eqv R d d') {r r' : PTWNode σ} (hr : Eqv R r r') :
    Eqv R (combine d r) (combine d' r') := by
  refine .inner ⟨h.base, h.height, ?_, h.baseLP, h.leftLP, ?_⟩ hr
  · simp only [h.count]
  · simp only [h.baseLP, h.leftLP, h.height, hr.data.baseLP, hr.data.height, hr.data.lp]

theorem eqv_leafUpdate (hR : Bisimulation P R) {d d' : PTWData σ} (h : PTWData.Eqv R d d') (a : α) (hi : List α) (w : ℝ) :
    PyRel (Eqv R) (leafUpdate P d a hi w) (leafUpdate P d' a hi w) :=
  (h.baseStep hR a hi w).bind fun _ _ hd =>
    .ok (.leaf ⟨hd.base, hd.height, by simp only [hd.count], hd.baseLP, hd.leftLP, hd.baseLP⟩)

theorem eqv_promoted (hR : Bisimulation P R) {f f' : Py σ} (hf : PyRel R f f') {d d' : PTWData σ} (h : PTWData.Eqv R d d')
    (a : α) (hi : List α) (w : ℝ) : PyRel (Eqv R) (promoted P f m d a hi w) (promoted P f' m d' a hi w) :=
  hf.bind fun _ _ hv =>
    (PTWData.Eqv.baseStep hR (d := { d with leftLP := d.lp, height := d.height + 1 })
      (d' := { d' with leftLP := d'.lp, height := d'.height + 1 })
      ⟨h.base, by simp only [h.height], h.count, h.baseLP, h.lp, h.lp⟩ a hi w).bind fun _ _ hd =>
      (eqv_leafUpdate hR (d := PTWData.new _ m) (d' := PTWData.new _ m) ⟨hv, rfl, rfl, rfl, rfl, rfl⟩ a hi w).bind
        fun _ _ hr => .ok (eqv_combine hd hr)

theorem eqv_update (hR : Bisimulation P R) {f f' : Py σ} (hf : PyRel R f f') {n n' : PTWNode σ} (h : Eqv R n n')
    (a : α) (hi : List α) (w : ℝ) : PyRel (Eqv R) (n.update P f m a hi w) (n'.update P f' m a hi w) := by
  induction h with
  | leaf h =>
    simp only [update, h.complete]
    split
    · exact eqv_promoted hR hf h a hi w
    · exact eqv_leafUpdate hR h a hi w
  | inner h _ ih =>
    simp only [update, h.complete]
    split
    · exact eqv_promoted hR hf h a hi w
    · exact (h.baseStep hR a hi w).bind fun _ _ hd => ih.bind fun _ _ hr => .ok (eqv_combine hd hr)

theorem eqv_logPredict (hR : Bisimulation P R) {n n' : PTWNode σ} (h : Eqv R n n') (a : α) (hi : List α) :
    PyRel (fun p q => p.1 = q.1 ∧ Eqv R p.2 q.2) (n.logPredict P a hi) (n'.logPredict P a hi) := by
  induction h with
  | leaf h =>
    refine (PyRel.of_same ((hR _ _ h.base).2 a hi)).bind ?_
    rintro ⟨q, b⟩ ⟨q', b'⟩ ⟨rfl, hb⟩
    simp only [h.complete, h.baseLP, h.lp, h.height]
    split
    · exact .ok ⟨rfl, .leaf ⟨hb, by simp only [h.height], by simp only [h.count], by simp only [h.baseLP], by simp only [h.leftLP], by simp only [h.lp]⟩⟩
    · exact .ok ⟨rfl, .leaf ⟨hb, by simp only [h.height], by simp only [h.count], by simp only [h.baseLP], by simp only [h.leftLP], by simp only [h.lp]⟩⟩
  | inner h hr ih =>
    refine (PyRel.of_same ((hR _ _ h.base).2 a hi)).bind ?_
    rintro ⟨q, b⟩ ⟨q', b'⟩ ⟨rfl, hb⟩
    simp only [h.complete, h.baseLP, h.lp, h.height, h.leftLP]
    split
    · exact .ok ⟨rfl, .inner ⟨hb, by simp only [h.height], by simp only [h.count], by simp only [h.baseLP], by simp only [h.leftLP], by simp only [h.lp]⟩ hr⟩
    · refine ih.bind ?_
      rintro ⟨⟨x, y, z⟩, r⟩ ⟨⟨x', y', z'⟩, r'⟩ ⟨he, hr'⟩
      simp only [Prod.mk.injEq] at he
      obtain ⟨rfl, rfl, rfl⟩ := he
      exact .ok ⟨rfl, .inner ⟨hb, by simp only [h.height], by simp only [h.count], by simp only [h.baseLP], by simp only [h.leftLP], by simp only [h.lp]⟩ hr'⟩

/-- `log_predict` only replaces base models by what their own `log_predict` leaves. -/
theorem logPredict_eqv (hrefl : ∀ s, R s s) {a : α} {hi : List α}
    (hR : ∀ s q t, P.logPredict s a hi = .ok (q, t) → R s t) {n t : PTWNode σ} {v : ℝ × ℝ × ℕ}
    (h : n.logPredict P a hi = .ok (v, t)) : Eqv R n t := by
  have refl : ∀ n : PTWNode σ, Eqv R n n := by
    intro n
    induction n with
    | leaf d => exact .leaf ⟨hrefl _, rfl, rfl, rfl, rfl, rfl⟩
    | inner d r ih => exact .inner ⟨hrefl _, rfl, rfl, rfl, rfl, rfl⟩ ih
  induction n generalizing t v with
  | leaf d =>
    simp only [logPredict, bind_eq_ok, Prod.exists] at h
    obtain ⟨q, b, h1, h2⟩ := h
    split at h2 <;> simp only [pure_eq_ok, Except.ok.injEq, Prod.mk.injEq] at h2 <;> obtain ⟨_, rfl⟩ := h2 <;>
      exact .leaf ⟨hR _ _ _ h1, rfl, rfl, rfl, rfl, rfl⟩
  | inner d r ih =>
    simp only [logPredict, bind_eq_ok, Prod.exists] at h
    obtain ⟨q, b, h1, h2⟩ := h
    split at h2
    · simp only [pure_eq_ok, Except.ok.injEq, Prod.mk.injEq] at h2
      obtain ⟨_, rfl⟩ := h2
      exact .inner ⟨hR _ _ _ h1, rfl, rfl, rfl, rfl, rfl⟩ (refl r)
    · simp only [bind_eq_ok, Prod.exists, pure_eq_ok, Except.ok.injEq, Prod.mk.injEq] at h2
      obtain ⟨x, y, z, r', h3, _, rfl⟩ := h2
      exact .inner ⟨hR _ _ _ h1, rfl, rfl, rfl, rfl, rfl⟩ (ih h3)

theorem eqv_mapNodes {n n' : PTWNode σ} (h : Eqv R n n') (left : ℝ) :
    List.Forall₂ (fun p q => R p.1 q.1 ∧ p.2 = q.2) (n.mapNodes left) (n'.mapNodes left) := by
  induction h generalizing left with
  | leaf h => exact .cons ⟨h.base, by simp only [h.baseLP]⟩ .nil
  | inner h _ ih =>
    simp only [mapNodes, h.leftLP]
    exact .cons ⟨h.base, by simp only [h.baseLP]⟩ (ih _)

end PTWNode

theorem eqv_maxByKey {σ : Type} {R : σ → σ → Prop} {l l' : List (σ × ℝ)}
    (h : List.Forall₂ (fun p q => R p.1 q.1 ∧ p.2 = q.2) l l') {b b' : σ × ℝ} (hb : R b.1 b'.1 ∧ b.2 = b'.2) :
    R (Averager.maxByKey b l).1 (Averager.maxByKey b' l').1 := by
  induction h generalizing b b' with
  | nil => exact hb.1
  | @cons p q l l' hpq _ ih =>
    simp only [Averager.maxByKey]
    apply ih
    rw [hb.2, hpq.2]
    split
    · exact hpq
    · exact hb

namespace PTW

variable {σ α : Type} {P : Predictor σ α} {R : σ → σ → Prop} {m : ℕ}

structure Eqv (R : σ → σ → Prop) (s t : PTW σ) : Prop where
  tree : PTWNode.Eqv R s.tree t.tree
  logProb : s.logProb = t.logProb
  adj : s.adj = t.adj

theorem Eqv.adjusted {s t : PTW σ} (h : Eqv R s t) : s.adjusted = t.adjusted := by
  simp only [PTW.adjusted, h.tree.data.complete, h.tree.data.lp, h.tree.data.baseLP, h.adj]

theorem eqv_update (hR : Bisimulation P R) {f f' : Py σ} (hf : PyRel R f f') {s t : PTW σ} (h : Eqv R s t)
    (a : α) (hi : List α) (w : ℝ) :
    PyRel (fun p q => p.1 = q.1 ∧ Eqv R p.2 q.2) (s.update P f m a hi w) (t.update P f' m a hi w) :=
  (PTWNode.eqv_update hR hf h.tree a hi w).bind fun _ _ hn =>
    .ok ⟨by simp only [hn.data.lp, h.adjusted, h.logProb], hn, by simp only [hn.data.lp, h.adjusted], h.adjusted⟩

theorem eqv_logPredict (hR : Bisimulation P R) {s t : PTW σ} (h : Eqv R s t) (a : α) (hi : List α) :
    PyRel (fun p q => p.1 = q.1 ∧ Eqv R p.2 q.2) (s.logPredict P a hi) (t.logPredict P a hi) := by
  refine (PTWNode.eqv_logPredict hR h.tree a hi).bind ?_
  rintro ⟨⟨x, y, z⟩, r⟩ ⟨⟨x', y', z'⟩, r'⟩ ⟨he, hr'⟩
  simp only [Prod.mk.injEq] at he
  obtain ⟨rfl, rfl, rfl⟩ := he
  exact .ok ⟨by simp only [h.adjusted, h.logProb], hr', h.logProb, h.adj⟩

theorem logPredict_eqv (hrefl : ∀ s, R s s) {a : α} {hi : List α}
    (hR : ∀ s q t, P.logPredict s a hi = .ok (q, t) → R s t) {s t : PTW σ} {v : ℝ}
    (h : s.logPredict P a hi = .ok (v, t)) : Eqv R s t := by
  simp only [logPredict, bind_eq_ok, Prod.exists, pure_eq_ok, Except.ok.injEq, Prod.mk.injEq] at h
  obtain ⟨x, y, z, n, h1, _, rfl⟩ := h
  exact ⟨PTWNode.logPredict_eqv hrefl hR h1, rfl, rfl⟩

theorem eqv_map {s t : PTW σ} (h : Eqv R s t) : PyRel R s.map t.map := by
  have := PTWNode.eqv_mapNodes h.tree 0
  simp only [map]
  generalize s.tree.mapNodes 0 = l at this ⊢
  generalize t.tree.mapNodes 0 = l' at this ⊢
  cases this with
  | nil => exact .inl ⟨_, rfl, rfl⟩
  | cons h1 h2 => exact .ok (eqv_maxByKey h2 h1)

theorem purePredict (hP : P.PurePredict) (fresh : σ) (m : ℕ) : (predictor P fresh m).PurePredict := fun _ a h _ _ ht =>
  ⟨Eqv (Indist P), fun _ _ hst => ⟨fun a h w => (eqv_update (indist_bisimulation P) (.ok (.refl P fresh)) hst a h w).to_same,
    fun a h => (eqv_logPredict (indist_bisimulation P) hst a h).to_same⟩,
    logPredict_eqv (Indist.refl P) (fun s q t => hP s a h q t) ht⟩

end PTW

namespace PTWFixedLength

open PTW

variable {σ α : Type} {P : Predictor σ α} {R : σ → σ → Prop} {m height : ℕ}

theorem eqv_update (hR : Bisimulation P R) {f f' : Py σ} (hf : PyRel R f f') {s t : PTW σ} (h : Eqv R s t)
    (a : α) (hi : List α) (w : ℝ) :
    PyRel (fun p q => p.1 = q.1 ∧ Eqv R p.2 q.2) (update P f m height s a hi w) (update P f' m height t a hi w) :=
  (PTWNode.eqv_update hR hf h.tree a hi w).bind fun _ _ hn =>
    .ok ⟨by simp only [hn.data.lp, hn.data.baseLP, hn.data.height, h.logProb], hn,
      by simp only [hn.data.lp, hn.data.baseLP, hn.data.height], h.adj⟩

theorem eqv_logPredict (hR : Bisimulation P R) {s t : PTW σ} (h : Eqv R s t) (a : α) (hi : List α) :
    PyRel (fun p q => p.1 = q.1 ∧ Eqv R p.2 q.2) (logPredict P height s a hi) (logPredict P height t a hi) := by
  refine (PTWNode.eqv_logPredict hR h.tree a hi).bind ?_
  rintro ⟨⟨x, y, z⟩, r⟩ ⟨⟨x', y', z'⟩, r'⟩ ⟨he, hr'⟩
  simp only [Prod.mk.injEq] at he
  obtain ⟨rfl, rfl, rfl⟩ := he
  exact .ok ⟨by simp only [h.logProb], hr', h.logProb, h.adj⟩

theorem purePredict (hP : P.PurePredict) (fresh : σ) (m height : ℕ) : (predictor P fresh m height).PurePredict := by
  intro s a h r t ht
  refine ⟨Eqv (Indist P), fun _ _ hst => ⟨fun a h w => (eqv_update (indist_bisimulation P) (.ok (.refl P fresh)) hst a h w).to_same,
    fun a h => (eqv_logPredict (indist_bisimulation P) hst a h).to_same⟩, ?_⟩
  simp only [predictor, logPredict, bind_eq_ok, Prod.exists, pure_eq_ok, Except.ok.injEq, Prod.mk.injEq] at ht
  obtain ⟨x, y, z, n, h1, _, rfl⟩ := ht
  exact ⟨PTWNode.logPredict_eqv (Indist.refl P) (fun s q t => hP s a h q t) h1, rfl, rfl⟩

end PTWFixedLength

theorem Factored.purePredict {σ α : Type} {P : Predictor σ α} (hP : P.PurePredict) : (Factored.predictor P).PurePredict := by
  intro s a h r t ht
  refine ⟨_, Factored.bisimulation, ?_⟩
  simp only [Factored.predictor, Factored.logPredict, bind_eq_ok, Prod.exists, pure_eq_ok, Except.ok.injEq, Prod.mk.injEq] at ht
  obtain ⟨i, _, x, h1, q, x', h2, _, rfl⟩ := ht
  have key : ∀ (l : List σ) (i : ℕ), pyGet l i = .ok x → List.Forall₂ (Indist P) l (l.set i x') := by
    intro l
    induction l with
    | nil => exact fun i _ => .nil
    | cons y l ih =>
      intro i hi
      cases i with
      | zero =>
        simp only [pyGet, Except.ok.injEq, List.getElem?_cons_zero] at hi
        subst hi
        exact .cons (hP _ _ _ _ _ h2) (List.forall₂_same.mpr fun z _ => .refl P z)
      | succ i => exact .cons (.refl P y) (ih i (by simpa [pyGet] using hi))
  exact key _ _ h1

/-! ## Model stores and `FMN` -/

/-- `RS` relates stores that treat related models alike. -/
structure Store.Respects {S σ : Type} (St : Store S σ) (R : σ → σ → Prop) (RS : S → S → Prop) : Prop where
  refl : ∀ s, RS s s
  lazyAdd : ∀ s s' x x', RS s s' → PyRel R x x' → PyRel RS (St.lazyAdd s x) (St.lazyAdd s' x')
  items : ∀ s s', RS s s' → List.Forall₂ R (St.items s) (St.items s')

theorem LogStore.respects {σ : Type} {R : σ → σ → Prop} (hR : ∀ x, R x x) :
    (LogStore.store σ).Respects R (List.Forall₂ fun p q => R p.1 q.1 ∧ p.2 = q.2) where
  refl s := List.forall₂_same.mpr fun p _ => ⟨hR p.1, rfl⟩
  lazyAdd := by
    intro s s' x x' hs hx
    refine hx.bind fun u v huv => .ok ?_
    induction hs generalizing u v with
    | nil => exact .cons ⟨huv, rfl⟩ .nil
    | @cons p q l l' hpq hl ih =>
      obtain ⟨p1, p2⟩ := p
      obtain ⟨q1, q2⟩ := q
      obtain ⟨h1, h2⟩ := hpq
      simp only at h1 h2
      subst h2
      cases p2 with
      | true => exact .cons ⟨huv, rfl⟩ (ih _ _ h1)
      | false => exact .cons ⟨huv, rfl⟩ hl
  items := by
    intro s s' hs
    show List.Forall₂ R (s.map Prod.fst) (s'.map Prod.fst)
    induction hs with
    | nil => exact .nil
    | cons h _ ih => exact .cons h.1 ih

/-- `LogStoreUniform` stores of one shape with related items. -/
structure LogStoreUniform.Eqv {σ : Type} (R : σ → σ → Prop) (s t : LogStoreUniform σ) : Prop where
  items : List.Forall₂ R s.items t.items
  gap : s.gap = t.gap
  idx : s.indexToRemove = t.indexToRemove
  skip : s.numToSkip = t.numToSkip

theorem forall₂_eraseIdx {β : Type} {R : β → β → Prop} {l l' : List β} (h : List.Forall₂ R l l') (i : ℕ) :
    List.Forall₂ R (l.eraseIdx i) (l'.eraseIdx i) := by
  induction h generalizing i with
  | nil => exact .nil
  | cons h1 h2 ih =>
    cases i with
    | zero => exact h2
    | succ i => exact .cons h1 (ih i)

theorem LogStoreUniform.respects {σ : Type} {R : σ → σ → Prop} (hR : ∀ x, R x x) :
    (LogStoreUniform.store σ).Respects R (LogStoreUniform.Eqv R) where
  refl s := ⟨List.forall₂_same.mpr fun p _ => hR p, rfl, rfl, rfl⟩
  lazyAdd := by
    rintro ⟨l, g, i, k⟩ ⟨l', g', i', k'⟩ x x' ⟨hl, hg, hi, hk⟩ hx
    simp only at hl hg hi hk
    subst hg hi hk
    simp only [LogStoreUniform.store]
    by_cases h0 : k = 0
    · subst h0
      simp only [ne_eq, not_true_eq_false, if_false]
      refine hx.bind fun u v huv => .ok ?_
      simp only [LogStoreUniform.add, ne_eq, not_true_eq_false, if_false]
      have h1 : List.Forall₂ R (l ++ [u]) (l' ++ [v]) := List.rel_append hl (.cons huv .nil)
      have h2 : List.Forall₂ R (if 0 < i then (l ++ [u]).eraseIdx i.toNat else l ++ [u])
          (if 0 < i then (l' ++ [v]).eraseIdx i.toNat else l' ++ [v]) := by
        split
        · exact forall₂_eraseIdx h1 _
        · exact h1
      rw [h2.length_eq]
      generalize (if 0 < i then (l ++ [u]).eraseIdx i.toNat else l ++ [u]) = x at h2 ⊢
      generalize (if 0 < i then (l' ++ [v]).eraseIdx i.toNat else l' ++ [v]) = y at h2 ⊢
      split
      · exact ⟨h2, rfl, rfl, rfl⟩
      · exact ⟨h2, rfl, rfl, rfl⟩
    · simp only [ne_eq, h0, not_false_eq_true, if_true]
      exact .ok ⟨hl, rfl, rfl, rfl⟩
  items s t h := List.rel_reverse h.items

namespace FMN

variable {S σ α : Type} {P : Predictor σ α} {St : Store S σ} {RS : S → S → Prop} {m : ℕ}

/-- Related models are copied alike. -/
theorem copy_rel (hC : P.FaithfulCopy fun _ => True) {s t : σ} (h : Indist P s t) :
    PyRel (Indist P) (P.copy s) (P.copy t) := by
  obtain ⟨s', h1, _, h2⟩ := hC s trivial
  obtain ⟨t', h3, _, h4⟩ := hC t trivial
  exact .inr ⟨s', t', h1, h3, h2.symm.trans (h.trans h4)⟩

theorem eqv_modelFactory (hC : P.FaithfulCopy fun _ => True) {l l' : List σ} (h : List.Forall₂ (Indist P) l l') :
    PyRel (Averager.Eqv P) (modelFactory P l) (modelFactory P l') := by
  have key : PyRel (List.Forall₂ (Indist P)) (copies P l) (copies P l') := by
    induction h with
    | nil => exact .ok .nil
    | cons h1 _ ih => exact (copy_rel hC h1).bind fun _ _ hy => ih.bind fun _ _ hys => .ok (.cons hy hys)
  refine key.bind fun u v huv => ?_
  simp only [Averager.init, huv.length_eq]
  cases pyDiv 1 (v.length : ℝ) with
  | error e => exact .inl ⟨e, rfl, rfl⟩
  | ok q =>
    simp only [ok_bind]
    cases pyLog q with
    | error e => exact .inl ⟨e, rfl, rfl⟩
    | ok lg =>
      refine .ok ⟨rfl, ?_⟩
      simp only [List.forall₂_map_left_iff, List.forall₂_map_right_iff]
      exact huv.imp fun _ _ hxy => ⟨hxy, by trivial⟩

theorem eqv_best (hC : P.FaithfulCopy fun _ => True) {p p' : PTW (Averager σ)} (h : PTW.Eqv (Averager.Eqv P) p p') :
    PyRel (Indist P) (best P p) (best P p') := by
  refine (PTW.eqv_map h).bind fun u v huv => ?_
  have hm : PyRel (Indist P) u.map v.map := by
    have := huv.2
    simp only [Averager.map]
    generalize u.models = l at this ⊢
    generalize v.models = l' at this ⊢
    cases this with
    | nil => exact .inl ⟨_, rfl, rfl⟩
    | cons h1 h2 => exact .ok (eqv_maxByKey h2 h1)
  exact hm.bind fun _ _ h => copy_rel hC h

structure Eqv (P : Predictor σ α) (RS : S → S → Prop) (s t : FMN S σ) : Prop where
  ptw : PTW.Eqv (Averager.Eqv P) s.ptw t.ptw
  store : RS s.store t.store
  t : s.t = t.t

theorem bisimulation (hC : P.FaithfulCopy fun _ => True) (hSt : St.Respects (Indist P) RS) :
    Bisimulation (predictor St P m) (Eqv P RS) := by
  intro s s' h
  constructor
  · intro a hi w
    refine PyRel.to_same ?_
    refine (PTW.eqv_update Averager.eqv_bisimulation (eqv_modelFactory hC (hSt.items _ _ h.store)) h.ptw a hi w).bind ?_
    rintro ⟨r, p⟩ ⟨r', p'⟩ ⟨rfl, hp⟩
    simp only [h.t]
    split
    · exact (hSt.lazyAdd _ _ _ _ h.store (eqv_best hC hp)).bind fun _ _ hs => .ok ⟨rfl, hp, hs, rfl⟩
    · exact .ok ⟨rfl, hp, h.store, rfl⟩
  · intro a hi
    refine PyRel.to_same ?_
    refine (PTW.eqv_logPredict Averager.eqv_bisimulation h.ptw a hi).bind ?_
    rintro ⟨r, p⟩ ⟨r', p'⟩ ⟨rfl, hp⟩
    exact .ok ⟨rfl, hp, h.store, h.t⟩

theorem purePredict (hP : P.PurePredict) (hC : P.FaithfulCopy fun _ => True) (hSt : St.Respects (Indist P) RS) (m : ℕ) :
    (predictor St P m).PurePredict := by
  intro s a h r t ht
  refine ⟨Eqv P RS, bisimulation hC hSt, ?_⟩
  simp only [predictor, logPredict, bind_eq_ok, Prod.exists, pure_eq_ok, Except.ok.injEq, Prod.mk.injEq] at ht
  obtain ⟨x, p, h1, _, rfl⟩ := ht
  refine ⟨PTW.logPredict_eqv (R := Averager.Eqv P) (fun s => ⟨rfl, List.forall₂_same.mpr fun p _ => ⟨.refl P p.1, rfl⟩⟩)
    (fun s q t hst => ?_) h1, hSt.refl _, rfl⟩
  simp only [Averager.predictor, Averager.logPredict, bind_eq_ok, pure_eq_ok, Except.ok.injEq, Prod.mk.injEq,
    Prod.exists] at hst
  obtain ⟨vs, ms, h1, lp, h2, rfl, rfl⟩ := hst
  refine ⟨rfl, (Averager.predictModels_ok h1).1.imp ?_⟩
  rintro p q ⟨r, hq, hw⟩
  exact ⟨hP _ _ _ _ _ hq, hw.symm⟩

end FMN

end Verif
