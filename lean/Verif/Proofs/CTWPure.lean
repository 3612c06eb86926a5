import Verif.Proofs.CTWLawful

set_option linter.unusedSectionVars false

/-! `log_predict` has no observable effect; `CTW_KT` is `CTW` over `KTBinary`. -/

namespace Verif

open Predictor

theorem sameResult_ok {σ : Type} {R : σ → σ → Prop} {x y : Py (ℝ × σ)} (h : SameResult R x y) :
    (∃ e, x = .error e ∧ y = .error e) ∨ ∃ r s t, x = .ok (r, s) ∧ y = .ok (r, t) ∧ R s t := by
  cases x with
  | error e =>
    cases y with
    | error e' => left; exact ⟨e, rfl, by rw [show e = e' from h]⟩
    | ok q => exact h.elim
  | ok p =>
    cases y with
    | error e' => exact h.elim
    | ok q =>
      obtain ⟨r, s⟩ := p
      obtain ⟨r', t⟩ := q
      obtain ⟨rfl, h2⟩ := h
      right
      exact ⟨r, s, t, rfl, rfl, h2⟩

namespace CTWNode

variable {σ κ α : Type} [DecidableEq κ] {P : Predictor σ α} {fresh : σ}

/-- The child in direction `c`, a new node if there is none yet. -/
def child (fresh : σ) (n : CTWNode σ κ) (c : κ) : CTWNode σ κ := (n.children c).getD (new fresh)

structure SameData (P : Predictor σ α) (n m : CTWNode σ κ) : Prop where
  base : Indist P n.base m.base
  baseLP : n.baseLP = m.baseLP
  childrenLP : n.childrenLP = m.childrenLP
  lp : n.lp = m.lp

/-- Equal down to depth `k`, counting absent nodes as new ones. -/
def Eqv (P : Predictor σ α) (fresh : σ) : ℕ → CTWNode σ κ → CTWNode σ κ → Prop
  | 0, n, m => SameData P n m
  | k + 1, n, m => SameData P n m ∧ ∀ c, Eqv P fresh k (n.child fresh c) (m.child fresh c)

/-- Equal at every depth. -/
def EqvAll (P : Predictor σ α) (fresh : σ) (n m : CTWNode σ κ) : Prop := ∀ k, Eqv P fresh k n m

theorem SameData.refl (n : CTWNode σ κ) : SameData P n n := ⟨Indist.refl P _, rfl, rfl, rfl⟩

theorem EqvAll.refl (n : CTWNode σ κ) : EqvAll P fresh n n := by
  intro k
  induction k generalizing n with
  | zero => exact .refl n
  | succ k ih => exact ⟨.refl n, fun c => ih _⟩

theorem eqvAll_iff {n m : CTWNode σ κ} :
    EqvAll P fresh n m ↔ SameData P n m ∧ ∀ c, EqvAll P fresh (n.child fresh c) (m.child fresh c) := by
  constructor
  · intro h
    exact ⟨h 0, fun c k => (h (k + 1)).2 c⟩
  · rintro ⟨h1, h2⟩ k
    cases k with
    | zero => exact h1
    | succ k => exact ⟨h1, fun c => h2 c k⟩

theorem child_update_self (b : σ) (x y z : ℝ) (f : κ → Option (CTWNode σ κ)) (c : κ) (ch : CTWNode σ κ) :
    (mk b x y z (Function.update f c (some ch))).child fresh c = ch := by
  simp [child]

theorem child_update_other (b : σ) (x y z : ℝ) (n : CTWNode σ κ) {c c' : κ} (h : c' ≠ c) (ch : CTWNode σ κ) :
    (mk b x y z (Function.update n.children c (some ch))).child fresh c' = n.child fresh c' := by
  simp [child, Function.update_of_ne h]

theorem eqvAll_put {n m : CTWNode σ κ} (hc : ∀ c, EqvAll P fresh (n.child fresh c) (m.child fresh c))
    {b b' : σ} (hb : Indist P b b') (x y z : ℝ) (c : κ) {ch ch' : CTWNode σ κ} (hch : EqvAll P fresh ch ch') :
    EqvAll P fresh (mk b x y z (Function.update n.children c (some ch)))
      (mk b' x y z (Function.update m.children c (some ch'))) := by
  refine eqvAll_iff.mpr ⟨⟨hb, rfl, rfl, rfl⟩, ?_⟩
  intro c'
  by_cases h : c' = c
  · subst h
    rw [child_update_self, child_update_self]
    exact hch
  · rw [child_update_other _ _ _ _ _ h, child_update_other _ _ _ _ _ h]
    exact hc c'

theorem EqvAll.update {n m : CTWNode σ κ} (h : EqvAll P fresh n m) (a : α) (hi : List α) (w : ℝ)
    (ctx : List κ) :
    SameResult (EqvAll P fresh) (n.update P fresh a hi w ctx) (m.update P fresh a hi w ctx) := by
  induction ctx generalizing n m with
  | nil =>
    obtain ⟨hd, hc⟩ := eqvAll_iff.mp h
    rcases sameResult_ok ((indist_bisimulation P _ _ hd.base).1 a hi w) with ⟨e, h1, h2⟩ | ⟨r, s, t, h1, h2, h3⟩
    · simp [CTWNode.update, h1, h2, SameResult]
    · simp only [CTWNode.update, h1, h2, ok_bind, pure_eq_ok, SameResult, hd.baseLP, hd.lp, true_and]
      refine eqvAll_iff.mpr ⟨⟨h3, rfl, hd.childrenLP, rfl⟩, ?_⟩
      intro c
      exact hc c
  | cons c cs ih =>
    obtain ⟨hd, hc⟩ := eqvAll_iff.mp h
    rcases sameResult_ok ((indist_bisimulation P _ _ hd.base).1 a hi w) with ⟨e, h1, h2⟩ | ⟨r, s, t, h1, h2, h3⟩
    · simp [CTWNode.update, h1, h2, SameResult]
    · have hcc := ih (hc c)
      unfold child at hcc
      rcases sameResult_ok hcc with ⟨e, g1, g2⟩ | ⟨rc, x, y, g1, g2, g3⟩
      · simp [CTWNode.update, h1, h2, g1, g2, SameResult]
      · simp only [CTWNode.update, h1, h2, g1, g2, ok_bind, pure_eq_ok, SameResult, hd.baseLP, hd.lp,
          hd.childrenLP, true_and]
        exact eqvAll_put hc h3 _ _ _ c g3

theorem EqvAll.logPredict {n m : CTWNode σ κ} (h : EqvAll P fresh n m) (a : α) (hi : List α)
    (ctx : List κ) :
    SameResult (EqvAll P fresh) (n.logPredict P fresh a hi ctx) (m.logPredict P fresh a hi ctx) := by
  induction ctx generalizing n m with
  | nil =>
    obtain ⟨hd, hc⟩ := eqvAll_iff.mp h
    rcases sameResult_ok ((indist_bisimulation P _ _ hd.base).2 a hi) with ⟨e, h1, h2⟩ | ⟨r, s, t, h1, h2, h3⟩
    · simp [CTWNode.logPredict, h1, h2, SameResult]
    · simp only [CTWNode.logPredict, h1, h2, ok_bind, pure_eq_ok, SameResult, hd.baseLP, hd.lp, true_and]
      refine eqvAll_iff.mpr ⟨⟨h3, rfl, hd.childrenLP, rfl⟩, ?_⟩
      intro c
      exact hc c
  | cons c cs ih =>
    obtain ⟨hd, hc⟩ := eqvAll_iff.mp h
    rcases sameResult_ok ((indist_bisimulation P _ _ hd.base).2 a hi) with ⟨e, h1, h2⟩ | ⟨r, s, t, h1, h2, h3⟩
    · simp [CTWNode.logPredict, h1, h2, SameResult]
    · have hcc := ih (hc c)
      unfold child at hcc
      rcases sameResult_ok hcc with ⟨e, g1, g2⟩ | ⟨rc, x, y, g1, g2, g3⟩
      · simp [CTWNode.logPredict, h1, h2, g1, g2, SameResult]
      · simp only [CTWNode.logPredict, h1, h2, g1, g2, ok_bind, pure_eq_ok, SameResult, hd.baseLP, hd.lp,
          hd.childrenLP, true_and]
        exact eqvAll_put hc h3 _ _ _ c g3

theorem eqvAll_bisimulation (ctx : List α → List κ) :
    Bisimulation (CTW.predictor P fresh ctx) (EqvAll P fresh) :=
  fun _ _ h => ⟨fun a hi w => h.update a hi w _, fun a hi => h.logPredict a hi _⟩

theorem logPredict_eqv (hP : P.PurePredict) {n t : CTWNode σ κ} {a : α} {hi : List α} {ctx : List κ} {r : ℝ}
    (h : n.logPredict P fresh a hi ctx = .ok (r, t)) : EqvAll P fresh n t := by
  induction ctx generalizing n t r with
  | nil =>
    simp only [CTWNode.logPredict, bind_eq_ok, pure_eq_ok, Except.ok.injEq, Prod.mk.injEq, Prod.exists] at h
    obtain ⟨q, b, hb, rfl, rfl⟩ := h
    refine eqvAll_iff.mpr ⟨⟨hP _ _ _ _ _ hb, rfl, rfl, rfl⟩, ?_⟩
    intro c
    exact .refl _
  | cons c cs ih =>
    simp only [CTWNode.logPredict, bind_eq_ok, pure_eq_ok, Except.ok.injEq, Prod.mk.injEq, Prod.exists] at h
    obtain ⟨q, b, hb, rc, ch, hch, rfl, rfl⟩ := h
    refine eqvAll_iff.mpr ⟨⟨hP _ _ _ _ _ hb, rfl, rfl, rfl⟩, ?_⟩
    intro c'
    by_cases hcc : c' = c
    · subst hcc
      rw [child_update_self]
      exact ih hch
    · rw [child_update_other _ _ _ _ _ hcc]
      exact .refl _

theorem purePredict (hP : P.PurePredict) (ctx : List α → List κ) :
    (CTW.predictor P fresh ctx).PurePredict := by
  intro n a h r t ht
  exact ⟨EqvAll P fresh, eqvAll_bisimulation ctx, logPredict_eqv hP ht⟩

end CTWNode

theorem PurePredict.of_id {σ α : Type} {P : Predictor σ α}
    (h : ∀ s a hi r t, P.logPredict s a hi = .ok (r, t) → t = s) : P.PurePredict := by
  intro s a hi r t ht
  rw [h s a hi r t ht]
  exact Indist.refl P s

theorem KT.pure {α : Type} [DecidableEq α] : (KT.predictor : Predictor (KT α) α).PurePredict := by
  apply PurePredict.of_id
  intro s a hi r t h
  simp only [KT.predictor, bind_eq_ok, pure_eq_ok, Except.ok.injEq, Prod.mk.injEq] at h
  obtain ⟨_, _, _, h⟩ := h
  exact h.symm

theorem KTBinary.pure : KTBinary.predictor.PurePredict := by
  apply PurePredict.of_id
  intro s a hi r t h
  simp only [KTBinary.predictor, bind_eq_ok, pure_eq_ok, Except.ok.injEq, Prod.mk.injEq] at h
  obtain ⟨_, _, _, h⟩ := h
  exact h.symm

theorem SAD.pure {α : Type} [DecidableEq α] : (SAD.predictor : Predictor (SAD α) α).PurePredict := by
  apply PurePredict.of_id
  intro s a hi r t h
  simp only [SAD.predictor, bind_eq_ok, pure_eq_ok, Except.ok.injEq, Prod.mk.injEq] at h
  obtain ⟨_, _, _, h⟩ := h
  exact h.symm

namespace Averager

variable {σ α : Type} {P : Predictor σ α}

/-- Same weights, indistinguishable components. -/
def Eqv (P : Predictor σ α) (s t : Averager σ) : Prop :=
  s.logProb = t.logProb ∧ List.Forall₂ (fun p q => Indist P p.1 q.1 ∧ p.2 = q.2) s.models t.models

theorem eqv_updateModels {ms ms' : List (σ × ℝ)}
    (h : List.Forall₂ (fun p q => Indist P p.1 q.1 ∧ p.2 = q.2) ms ms') (a : α) (hi : List α) (w : ℝ) :
    (∃ e, updateModels P a hi w ms = .error e ∧ updateModels P a hi w ms' = .error e) ∨
    ∃ l l', updateModels P a hi w ms = .ok l ∧ updateModels P a hi w ms' = .ok l' ∧
      List.Forall₂ (fun p q => Indist P p.1 q.1 ∧ p.2 = q.2) l l' := by
  induction h with
  | nil => right; exact ⟨[], [], rfl, rfl, .nil⟩
  | @cons p q l l' hpq _ ih =>
    obtain ⟨p1, p2⟩ := p
    obtain ⟨q1, q2⟩ := q
    obtain ⟨hI, hpq⟩ := hpq
    simp only at hI hpq
    subst hpq
    rcases sameResult_ok ((indist_bisimulation P _ _ hI).1 a hi w) with ⟨e, h1, h2⟩ | ⟨r, s, t, h1, h2, h3⟩
    · left
      exact ⟨e, by simp [updateModels, h1], by simp [updateModels, h2]⟩
    · rcases ih with ⟨e, g1, g2⟩ | ⟨x, y, g1, g2, g3⟩
      · left
        exact ⟨e, by simp [updateModels, h1, g1], by simp [updateModels, h2, g2]⟩
      · right
        exact ⟨(s, p2 + r) :: x, (t, p2 + r) :: y, by simp [updateModels, h1, g1],
          by simp [updateModels, h2, g2], .cons ⟨h3, rfl⟩ g3⟩

theorem eqv_predictModels {ms ms' : List (σ × ℝ)}
    (h : List.Forall₂ (fun p q => Indist P p.1 q.1 ∧ p.2 = q.2) ms ms') (a : α) (hi : List α) :
    (∃ e, predictModels P a hi ms = .error e ∧ predictModels P a hi ms' = .error e) ∨
    ∃ v l l', predictModels P a hi ms = .ok (v, l) ∧ predictModels P a hi ms' = .ok (v, l') ∧
      List.Forall₂ (fun p q => Indist P p.1 q.1 ∧ p.2 = q.2) l l' := by
  induction h with
  | nil => right; exact ⟨[], [], [], rfl, rfl, .nil⟩
  | @cons p q l l' hpq _ ih =>
    obtain ⟨p1, p2⟩ := p
    obtain ⟨q1, q2⟩ := q
    obtain ⟨hI, hpq⟩ := hpq
    simp only at hI hpq
    subst hpq
    rcases sameResult_ok ((indist_bisimulation P _ _ hI).2 a hi) with ⟨e, h1, h2⟩ | ⟨r, s, t, h1, h2, h3⟩
    · left
      exact ⟨e, by simp [predictModels, h1], by simp [predictModels, h2]⟩
    · rcases ih with ⟨e, g1, g2⟩ | ⟨v, x, y, g1, g2, g3⟩
      · left
        exact ⟨e, by simp [predictModels, h1, g1], by simp [predictModels, h2, g2]⟩
      · right
        exact ⟨(r + p2) :: v, (s, p2) :: x, (t, p2) :: y, by simp [predictModels, h1, g1],
          by simp [predictModels, h2, g2], .cons ⟨h3, rfl⟩ g3⟩

theorem forall₂_snd {l l' : List (σ × ℝ)}
    (h : List.Forall₂ (fun p q => Indist P p.1 q.1 ∧ p.2 = q.2) l l') :
    l.map Prod.snd = l'.map Prod.snd := by
  induction h with
  | nil => rfl
  | cons hq _ ih => simp [hq.2, ih]

theorem eqv_bisimulation : Bisimulation (predictor P) (Eqv P) := by
  intro s t h
  obtain ⟨hl, hm⟩ := h
  constructor
  · intro a hi w
    rcases eqv_updateModels hm a hi w with ⟨e, h1, h2⟩ | ⟨l, l', h1, h2, h3⟩
    · simp [predictor, update, h1, h2, SameResult]
    · simp only [predictor, update, h1, h2, ok_bind, forall₂_snd h3]
      cases logsumexp (l'.map Prod.snd) with
      | error e => simp [SameResult]
      | ok v =>
        simp only [ok_bind, pure_eq_ok, SameResult, hl, true_and]
        exact ⟨rfl, h3⟩
  · intro a hi
    rcases eqv_predictModels hm a hi with ⟨e, h1, h2⟩ | ⟨v, l, l', h1, h2, h3⟩
    · simp [predictor, logPredict, h1, h2, SameResult]
    · simp only [predictor, logPredict, h1, h2, ok_bind]
      cases logsumexp v with
      | error e => simp [SameResult]
      | ok v =>
        simp only [ok_bind, pure_eq_ok, SameResult, hl, true_and]
        exact ⟨rfl, h3⟩

theorem purePredict (hP : P.PurePredict) : (predictor P).PurePredict := by
  intro s a h r t ht
  refine ⟨Eqv P, eqv_bisimulation, ?_⟩
  simp only [predictor, logPredict, bind_eq_ok, pure_eq_ok, Except.ok.injEq, Prod.mk.injEq,
    Prod.exists] at ht
  obtain ⟨vs, ms, h1, lp, h2, rfl, rfl⟩ := ht
  refine ⟨rfl, ?_⟩
  refine (predictModels_ok h1).1.imp ?_
  rintro p q ⟨r, hq, hw⟩
  exact ⟨hP _ _ _ _ _ hq, hw.symm⟩

end Averager

namespace KNode

@[simp] theorem counts_mk (b : KTBinary) (x y z : ℝ) (ch : Bool → Option KNode) : (mk b x y z ch).counts = b := rfl
@[simp] theorem baseLP_mk (b : KTBinary) (x y z : ℝ) (ch : Bool → Option KNode) : (mk b x y z ch).baseLP = x := rfl
@[simp] theorem childrenLP_mk (b : KTBinary) (x y z : ℝ) (ch : Bool → Option KNode) :
    (mk b x y z ch).childrenLP = y := rfl
@[simp] theorem lp_mk (b : KTBinary) (x y z : ℝ) (ch : Bool → Option KNode) : (mk b x y z ch).lp = z := rfl
@[simp] theorem children_mk (b : KTBinary) (x y z : ℝ) (ch : Bool → Option KNode) :
    (mk b x y z ch).children = ch := rfl

/-- A `CTW_KT` node and a `CTW` node over `KTBinary` hold the same data, down to every depth. -/
inductive Corr : KNode → CTWNode KTBinary Bool → Prop
  | mk {k : KNode} {n : CTWNode KTBinary Bool} : k.counts = n.base → k.baseLP = n.baseLP →
      k.childrenLP = n.childrenLP → k.lp = n.lp →
      (∀ c, k.children c = none ↔ n.children c = none) →
      (∀ c x y, k.children c = some x → n.children c = some y → Corr x y) → Corr k n

/-- The two results agree. -/
def CorrResult : Py (ℝ × KNode) → Py (ℝ × CTWNode KTBinary Bool) → Prop
  | .ok (r, s), .ok (r', s') => r = r' ∧ Corr s s'
  | .error e, .error e' => e = e'
  | _, _ => False

theorem corr_new : Corr new (.new (KTBinary.init none)) := by
  refine .mk ?_ rfl rfl rfl (fun c => ⟨fun _ => rfl, fun _ => rfl⟩) ?_
  · norm_num [new, CTWNode.new, CTWNode.base, KTBinary.init]
  · intro c x y h
    simp [new] at h

theorem Corr.child {k : KNode} {n : CTWNode KTBinary Bool} (h : Corr k n) (c : Bool) :
    Corr ((k.children c).getD new) ((n.children c).getD (.new (KTBinary.init none))) := by
  obtain ⟨_, _, _, _, h5, h6⟩ := h
  cases hk : k.children c with
  | none =>
    rw [(h5 c).mp hk]
    exact corr_new
  | some x =>
    cases hn : n.children c with
    | none =>
      rw [(h5 c).mpr hn] at hk
      simp at hk
    | some y => exact h6 c x y hk hn

theorem Corr.put {k : KNode} {n : CTWNode KTBinary Bool} (h : Corr k n) (b : KTBinary) (x y z : ℝ) (c : Bool)
    {ch : KNode} {ch' : CTWNode KTBinary Bool} (hc : Corr ch ch') :
    Corr (KNode.mk b x y z (Function.update k.children c (some ch)))
      (CTWNode.mk b x y z (Function.update n.children c (some ch'))) := by
  obtain ⟨_, _, _, _, h5, h6⟩ := h
  refine .mk rfl rfl rfl rfl ?_ ?_
  · intro c'
    by_cases hcc : c' = c
    · subst hcc
      simp
    · simp [Function.update_of_ne hcc, h5]
  · intro c' x y h1 h2
    by_cases hcc : c' = c
    · subst hcc
      simp only [children_mk, CTWNode.children_mk, Function.update_self, Option.some.injEq] at h1 h2
      rw [← h1, ← h2]
      exact hc
    · simp only [children_mk, CTWNode.children_mk, Function.update_of_ne hcc] at h1 h2
      exact h6 c' x y h1 h2

theorem Corr.update {k : KNode} {n : CTWNode KTBinary Bool} (h : Corr k n) (a : Bool) (hi : List Bool) (w : ℝ)
    (ctx : List Bool) :
    CorrResult (k.update a w ctx) (n.update KTBinary.predictor (KTBinary.init none) a hi w ctx) := by
  have hlr : ∀ b : KTBinary, KTBinary.predictor.update b a hi w =
      (logRatio b a >>= fun l => pure (l, b.bump a w)) := by
    intro b
    simp [KTBinary.predictor, KTBinary.update, KTBinary.logPredict, logRatio]
  induction ctx generalizing k n with
  | nil =>
    have h' := h
    obtain ⟨h1, h2, h3, h4, h5, h6⟩ := h'
    simp only [KNode.update, CTWNode.update, hlr, h1]
    cases logRatio n.base a with
    | error e => simp [CorrResult]
    | ok l =>
      simp only [ok_bind, pure_eq_ok, CorrResult, h2, h3, h4, true_and]
      exact .mk rfl rfl rfl rfl h5 h6
  | cons c cs ih =>
    have h' := h
    obtain ⟨h1, h2, h3, h4, h5, h6⟩ := h'
    have hc := ih (h.child c)
    simp only [KNode.update, CTWNode.update, hlr, h1]
    cases logRatio n.base a with
    | error e => simp [CorrResult]
    | ok l =>
      simp only [ok_bind, pure_eq_ok]
      cases e1 : KNode.update a w cs ((k.children c).getD new) with
      | error e =>
        cases e2 : CTWNode.update KTBinary.predictor (KTBinary.init none) a hi w cs
            ((n.children c).getD (.new (KTBinary.init none))) with
        | error e' =>
          rw [e1, e2] at hc
          simpa [CorrResult] using hc
        | ok p =>
          rw [e1, e2] at hc
          exact hc.elim
      | ok q =>
        cases e2 : CTWNode.update KTBinary.predictor (KTBinary.init none) a hi w cs
            ((n.children c).getD (.new (KTBinary.init none))) with
        | error e' =>
          rw [e1, e2] at hc
          exact hc.elim
        | ok p =>
          rw [e1, e2] at hc
          obtain ⟨r, x⟩ := q
          obtain ⟨r', y⟩ := p
          obtain ⟨rfl, hxy⟩ := hc
          simp only [ok_bind, CorrResult, h2, h3, h4, true_and]
          exact h.put _ _ _ _ _ hxy

theorem Corr.logPredict {k : KNode} {n : CTWNode KTBinary Bool} (h : Corr k n) (a : Bool) (hi : List Bool)
    (ctx : List Bool) :
    CorrResult (k.logPredict a ctx) (n.logPredict KTBinary.predictor (KTBinary.init none) a hi ctx) := by
  have hlr : ∀ b : KTBinary, KTBinary.predictor.logPredict b a hi =
      (logRatio b a >>= fun l => pure (l, b)) := by
    intro b
    simp [KTBinary.predictor, KTBinary.logPredict, logRatio]
  induction ctx generalizing k n with
  | nil =>
    have h' := h
    obtain ⟨h1, h2, h3, h4, h5, h6⟩ := h'
    simp only [KNode.logPredict, CTWNode.logPredict, hlr, h1]
    cases logRatio n.base a with
    | error e => simp [CorrResult]
    | ok l =>
      simp only [ok_bind, pure_eq_ok, CorrResult, h2, h4, true_and]
      exact .mk h1 h2 h3 h4 h5 h6
  | cons c cs ih =>
    have h' := h
    obtain ⟨h1, h2, h3, h4, h5, h6⟩ := h'
    have hc := ih (h.child c)
    simp only [KNode.logPredict, CTWNode.logPredict, hlr, h1]
    cases logRatio n.base a with
    | error e => simp [CorrResult]
    | ok l =>
      simp only [ok_bind, pure_eq_ok]
      cases e1 : KNode.logPredict a cs ((k.children c).getD new) with
      | error e =>
        cases e2 : CTWNode.logPredict KTBinary.predictor (KTBinary.init none) a hi cs
            ((n.children c).getD (.new (KTBinary.init none))) with
        | error e' =>
          rw [e1, e2] at hc
          simpa [CorrResult] using hc
        | ok p =>
          rw [e1, e2] at hc
          exact hc.elim
      | ok q =>
        cases e2 : CTWNode.logPredict KTBinary.predictor (KTBinary.init none) a hi cs
            ((n.children c).getD (.new (KTBinary.init none))) with
        | error e' =>
          rw [e1, e2] at hc
          exact hc.elim
        | ok p =>
          rw [e1, e2] at hc
          obtain ⟨r, x⟩ := q
          obtain ⟨r', y⟩ := p
          obtain ⟨rfl, hxy⟩ := hc
          simp only [ok_bind, CorrResult, h2, h3, h4, true_and]
          exact h.put _ _ _ _ _ hxy

/-- Corresponding models give the same outputs to every sequence of calls. -/
theorem Corr.outputs_eq {k : KNode} {n : CTWNode KTBinary Bool} (h : Corr k n) (depth : ℕ)
    (cs : List (Call Bool)) :
    (predictor depth).outputs k cs =
      (CTW.predictor KTBinary.predictor (KTBinary.init none) (CTW.mkcontext depth false)).outputs n cs := by
  induction cs generalizing k n with
  | nil => rfl
  | cons c cs ih =>
    have hs : CorrResult ((predictor depth).step k c)
        ((CTW.predictor KTBinary.predictor (KTBinary.init none) (CTW.mkcontext depth false)).step n c) := by
      cases c with
      | update a hi w => exact h.update a hi w _
      | predict a hi => exact h.logPredict a hi _
    simp only [outputs]
    cases h1 : (predictor depth).step k c with
    | error e =>
      cases h2 : (CTW.predictor KTBinary.predictor (KTBinary.init none) (CTW.mkcontext depth false)).step n c with
      | error e' =>
        rw [h1, h2] at hs
        simp only [CorrResult] at hs
        simp [hs]
      | ok q =>
        rw [h1, h2] at hs
        exact hs.elim
    | ok p =>
      cases h2 : (CTW.predictor KTBinary.predictor (KTBinary.init none) (CTW.mkcontext depth false)).step n c with
      | error e' =>
        rw [h1, h2] at hs
        exact hs.elim
      | ok q =>
        rw [h1, h2] at hs
        obtain ⟨r, s'⟩ := p
        obtain ⟨r', t'⟩ := q
        obtain ⟨hr, hst⟩ := hs
        simp [hr, ih hst]

end KNode

namespace KTBinary

theorem logPredict_pos {s : KTBinary} (h0 : 0 < s.c0) (h1 : 0 < s.c1) (a : Bool) :
    s.logPredict a = .ok (Real.log (s.get a / (s.c0 + s.c1))) := by
  have hg : 0 < s.get a := by cases a <;> simpa [get]
  simp only [logPredict]
  rw [pyDiv_of_ne (by linarith), ok_bind, pyLog_of_pos (div_pos hg (by linarith))]

theorem lawful : predictor.Lawful (fun s => 0 < s.c0 ∧ 0 < s.c1) [false, true] (fun w => 0 ≤ w) where
  update_ok := by
    rintro s a h w ⟨h0, h1⟩ _ hw
    refine ⟨_, s.bump a w, by simp only [predictor, update, logPredict_pos h0 h1, ok_bind]; rfl, ?_⟩
    cases a
    · exact ⟨by simp only [bump]; simp; linarith, by simpa [bump] using h1⟩
    · exact ⟨by simpa [bump] using h0, by simp only [bump]; simp; linarith⟩
  predict_ok := by
    rintro s a h ⟨h0, h1⟩ _
    exact ⟨_, s, by simp only [predictor, logPredict_pos h0 h1, ok_bind]; rfl, h0, h1⟩
  coherent := by
    rintro s a h w ⟨h0, h1⟩ _ hw r s' hu
    simp only [predictor, update, logPredict_pos h0 h1, ok_bind, pure_eq_ok, Except.ok.injEq,
      Prod.mk.injEq] at hu
    exact ⟨s, by simp [predictor, logPredict_pos h0 h1, hu.1]⟩
  normalised := by
    rintro s h ⟨h0, h1⟩
    have hS : 0 < s.c0 + s.c1 := by linarith
    simp only [predictor, logPredict_pos h0 h1, ok_bind, pure_eq_ok, probOf_ok, List.map_cons, List.map_nil,
      List.sum_cons, List.sum_nil]
    rw [Real.exp_log (div_pos (by simpa [get] using h0) hS), Real.exp_log (div_pos (by simpa [get] using h1) hS)]
    simp only [get]
    field_simp
    simp

end KTBinary

end Verif
