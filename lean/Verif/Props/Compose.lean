import Verif.Spec.Compose
import Verif.Props.FMN
import Verif.Props.Copy
import Verif.Proofs.CTWLawful
import Verif.Proofs.PTWRun
import Verif.Proofs.PTWPure
import Verif.Proofs.Z
import Verif.Proofs.Convergence

/-!
# C153: whatever is put together is a model

Averages, products, context trees, partition trees and forget-me-not models over one another, in any combination and to any height.
-/

namespace Verif

open Predictor PTWNode

namespace Compose

variable {σ α : Type}

/-- The states that can be continued with updates for ever, with the properties that are claimed. -/
def Fine (P : Predictor σ α) (A : List α) (cp co : Bool) (s : σ) : Prop :=
  ∃ I : σ → Prop, P.UpdateLawful I A (fun w => 0 ≤ w) ∧ (cp = true → P.FaithfulCopy I) ∧ (co = true → P.Lawful I A fun w => 0 ≤ w) ∧ I s

variable {P : Predictor σ α} {A : List α} {cp co : Bool}

theorem fine_update : P.UpdateLawful (Fine P A cp co) A (fun w => 0 ≤ w) where
  total := by
    rintro s a h w ⟨I, h1, h2, h3, hs⟩ ha hw
    obtain ⟨r, s', g1, g2⟩ := h1.total s a h w hs ha hw
    exact ⟨r, s', g1, I, h1, h2, h3, g2⟩
  normalised := by
    rintro s h w ⟨I, h1, h2, h3, hs⟩ hw
    exact h1.normalised s h w hs hw

theorem fine_copy : P.FaithfulCopy (Fine P A true co) := by
  rintro s ⟨I, h1, h2, h3, hs⟩
  obtain ⟨t, g1, g2, g3⟩ := h2 rfl s hs
  exact ⟨t, g1, ⟨I, h1, h2, h3, g2⟩, g3⟩

theorem fine_lawful : P.Lawful (Fine P A cp true) A (fun w => 0 ≤ w) where
  update_ok := fine_update.total
  predict_ok := by
    rintro s a h ⟨I, h1, h2, h3, hs⟩ ha
    obtain ⟨r, s', g1, g2⟩ := (h3 rfl).predict_ok s a h hs ha
    exact ⟨r, s', g1, I, h1, h2, h3, g2⟩
  coherent := by
    rintro s a h w ⟨I, h1, h2, h3, hs⟩
    exact (h3 rfl).coherent s a h w hs
  normalised := by
    rintro s h ⟨I, h1, h2, h3, hs⟩
    exact (h3 rfl).normalised s h hs

/-- The three claims about a set of states that holds the state. -/
theorem Fine.mk' {I : σ → Prop} (h1 : P.UpdateLawful I A (fun w => 0 ≤ w)) (h2 : cp = true → P.FaithfulCopy I)
    (h3 : co = true → P.Lawful I A fun w => 0 ≤ w) {s : σ} (hs : I s) : Fine P A cp co s := ⟨I, h1, h2, h3, hs⟩

/-! ## Objects of different classes -/

section Sigma

variable {ι : Type} {τ : ι → Type} {Q : ∀ i, Predictor (τ i) α}

theorem sigma_bisim : Bisimulation (Predictor.either Q) (fun s t => ∃ i x y, s = ⟨i, x⟩ ∧ t = ⟨i, y⟩ ∧ Indist (Q i) x y) := by
  rintro s t ⟨i, x, y, rfl, rfl, h⟩
  constructor
  · intro a hi w
    rcases sameResult_ok ((indist_bisimulation (Q i) x y h).1 a hi w) with ⟨e, g1, g2⟩ | ⟨r, x', y', g1, g2, g3⟩
    · simp [Predictor.either, g1, g2, SameResult]
    · simp only [Predictor.either, g1, g2, ok_bind, pure_eq_ok, SameResult, true_and]
      exact ⟨i, x', y', rfl, rfl, g3⟩
  · intro a hi
    rcases sameResult_ok ((indist_bisimulation (Q i) x y h).2 a hi) with ⟨e, g1, g2⟩ | ⟨r, x', y', g1, g2, g3⟩
    · simp [Predictor.either, g1, g2, SameResult]
    · simp only [Predictor.either, g1, g2, ok_bind, pure_eq_ok, SameResult, true_and]
      exact ⟨i, x', y', rfl, rfl, g3⟩

theorem sigma_indist {i : ι} {x y : τ i} (h : Indist (Q i) x y) : Indist (Predictor.either Q) ⟨i, x⟩ ⟨i, y⟩ :=
  ⟨_, sigma_bisim, i, x, y, rfl, rfl, h⟩

theorem sigma_pure (h : ∀ i, (Q i).PurePredict) : (Predictor.either Q).PurePredict := by
  rintro ⟨i, x⟩ a hi r t ht
  simp only [Predictor.either, bind_eq_ok, pure_eq_ok, Except.ok.injEq, Prod.mk.injEq] at ht
  obtain ⟨⟨r', x'⟩, g1, rfl, rfl⟩ := ht
  exact sigma_indist (h i x a hi r' x' g1)

theorem sigma_copy {J : ∀ i, τ i → Prop} (h : ∀ i, (Q i).FaithfulCopy (J i)) : (Predictor.either Q).FaithfulCopy fun s => J s.1 s.2 := by
  rintro ⟨i, x⟩ hx
  obtain ⟨t, g1, g2, g3⟩ := h i x hx
  exact ⟨⟨i, t⟩, by simp [Predictor.either, g1], g2, sigma_indist g3⟩

theorem sigma_update {J : ∀ i, τ i → Prop} {W : ℝ → Prop} (h : ∀ i, (Q i).UpdateLawful (J i) A W) :
    (Predictor.either Q).UpdateLawful (fun s => J s.1 s.2) A W where
  total := by
    rintro ⟨i, x⟩ a hi w hx ha hw
    obtain ⟨r, x', g1, g2⟩ := (h i).total x a hi w hx ha hw
    exact ⟨r, ⟨i, x'⟩, by simp [Predictor.either, g1], g2⟩
  normalised := by
    rintro ⟨i, x⟩ hi w hx hw f hf
    refine (h i).normalised x hi w hx hw f fun a ha => ?_
    obtain ⟨s', hs'⟩ := hf a ha
    simp only [Predictor.either, bind_eq_ok, pure_eq_ok, Except.ok.injEq, Prod.mk.injEq] at hs'
    obtain ⟨⟨r', x'⟩, g1, rfl, rfl⟩ := hs'
    exact ⟨x', g1⟩

theorem sigma_lawful {J : ∀ i, τ i → Prop} {W : ℝ → Prop} (h : ∀ i, (Q i).Lawful (J i) A W) :
    (Predictor.either Q).Lawful (fun s => J s.1 s.2) A W where
  update_ok := (sigma_update fun i => (h i).updateLawful).total
  predict_ok := by
    rintro ⟨i, x⟩ a hi hx ha
    obtain ⟨r, x', g1, g2⟩ := (h i).predict_ok x a hi hx ha
    exact ⟨r, ⟨i, x'⟩, by simp [Predictor.either, g1], g2⟩
  coherent := by
    rintro ⟨i, x⟩ a hi w hx ha hw r s' hu
    simp only [Predictor.either, bind_eq_ok, pure_eq_ok, Except.ok.injEq, Prod.mk.injEq] at hu
    obtain ⟨⟨r', x'⟩, g1, rfl, rfl⟩ := hu
    obtain ⟨t, ht⟩ := (h i).coherent x a hi w hx ha hw r' x' g1
    exact ⟨⟨i, t⟩, by simp [Predictor.either, ht]⟩
  normalised := by
    rintro ⟨i, x⟩ hi hx
    rw [← (h i).normalised x hi hx]
    congr 1
    apply List.map_congr_left
    intro a _
    cases hq : (Q i).logPredict x a hi with
    | error e => simp [Predictor.either, hq, probOf]
    | ok p => simp [Predictor.either, hq, probOf]

end Sigma

/-! ## Averages and products -/

theorem snd_eq {R : σ × ℝ → σ × ℝ → Prop} {ms ns : List (σ × ℝ)} (h : List.Forall₂ (fun p q => R p q ∧ p.2 = q.2) ms ns) :
    ns.map Prod.snd = ms.map Prod.snd := by
  induction h with
  | nil => rfl
  | cons hq _ ih => simp [hq.2, ih]

theorem averager_copy {I : σ → Prop} (h : P.FaithfulCopy I) : (Averager.predictor P).FaithfulCopy (Averager.Over I) := by
  intro s hs
  obtain ⟨ms, h1, h2, h3⟩ := copyModels_faithful h s.models hs.all
  have h4 : ms.map Prod.snd = s.models.map Prod.snd := by
    exact snd_eq (R := fun p q => Indist P p.1 q.1) h3
  refine ⟨⟨ms, s.logProb⟩, by simp [Averager.predictor, Averager.copy, h1], ⟨⟨?_, ?_⟩, h2⟩, Averager.Eqv P, Averager.eqv_bisimulation, rfl, h3⟩
  · intro h0
    apply hs.inv.ne
    rw [show ms = [] from h0] at h4
    exact List.map_eq_nil_iff.1 h4.symm
  · change Real.exp s.logProb = _
    rw [hs.inv.sum, h4]

/-- A product all of whose factors, at least one, satisfy `I`. -/
def FOver (I : σ → Prop) (s : Factored σ) : Prop := s.factors ≠ [] ∧ ∀ m ∈ s.factors, I m

theorem FOver.pick {I : σ → Prop} {s : Factored σ} (hs : FOver I s) (h : List α) :
    ∃ i m, s.index h = .ok i ∧ pyGet s.factors i = .ok m ∧ I m := by
  have hl : s.factors.length ≠ 0 := by simpa using hs.1
  have hi : h.length % s.factors.length < s.factors.length := Nat.mod_lt _ (by omega)
  refine ⟨_, s.factors[h.length % s.factors.length], by rw [Factored.index, if_neg hl], ?_, hs.2 _ (List.getElem_mem hi)⟩
  simp [pyGet, List.getElem?_eq_getElem hi]

theorem FOver.set {I : σ → Prop} {s : Factored σ} (hs : FOver I s) (i : ℕ) {m : σ} (hm : I m) : FOver I ⟨s.factors.set i m⟩ := by
  refine ⟨by simpa using hs.1, ?_⟩
  intro x hx
  rcases List.mem_or_eq_of_mem_set hx with h | rfl
  · exact hs.2 x h
  · exact hm

theorem factored_update {I : σ → Prop} (h : P.UpdateLawful I A (fun w => 0 ≤ w)) :
    (Factored.predictor P).UpdateLawful (FOver I) A (fun w => 0 ≤ w) where
  total := by
    intro s a hi w hs ha hw
    obtain ⟨i, m, g1, g2, g3⟩ := hs.pick hi
    obtain ⟨r, m', g4, g5⟩ := h.total m a hi 1 g3 ha zero_le_one
    exact ⟨r, ⟨s.factors.set i m'⟩, by simp [Factored.predictor, Factored.update, g1, g2, g4], hs.set i g5⟩
  normalised := by
    intro s hi w hs hw f hf
    obtain ⟨i, m, g1, g2, g3⟩ := hs.pick hi
    refine h.normalised m hi 1 g3 zero_le_one f fun a ha => ?_
    obtain ⟨s', hs'⟩ := hf a ha
    simp only [Factored.predictor, Factored.update, g1, g2, ok_bind, bind_eq_ok, pure_eq_ok, Except.ok.injEq, Prod.mk.injEq, Prod.exists] at hs'
    obtain ⟨r, m', g4, rfl, -⟩ := hs'
    exact ⟨m', g4⟩

theorem factored_lawful {I : σ → Prop} (h : P.Lawful I A (fun w => 0 ≤ w)) :
    (Factored.predictor P).Lawful (FOver I) A (fun w => 0 ≤ w) where
  update_ok := (factored_update h.updateLawful).total
  predict_ok := by
    intro s a hi hs ha
    obtain ⟨i, m, g1, g2, g3⟩ := hs.pick hi
    obtain ⟨r, m', g4, g5⟩ := h.predict_ok m a hi g3 ha
    exact ⟨r, ⟨s.factors.set i m'⟩, by simp [Factored.predictor, Factored.logPredict, g1, g2, g4], hs.set i g5⟩
  coherent := by
    intro s a hi w hs ha hw r s' hu
    obtain ⟨i, m, g1, g2, g3⟩ := hs.pick hi
    simp only [Factored.predictor, Factored.update, g1, g2, ok_bind, bind_eq_ok, pure_eq_ok, Except.ok.injEq, Prod.mk.injEq, Prod.exists] at hu
    obtain ⟨r', m', g4, rfl, -⟩ := hu
    obtain ⟨t, ht⟩ := h.coherent m a hi 1 g3 ha zero_le_one _ _ g4
    exact ⟨⟨s.factors.set i t⟩, by simp [Factored.predictor, Factored.logPredict, g1, g2, ht]⟩
  normalised := by
    intro s hi hs
    obtain ⟨i, m, g1, g2, g3⟩ := hs.pick hi
    rw [← h.normalised m hi g3]
    congr 1
    apply List.map_congr_left
    intro a _
    cases hq : P.logPredict m a hi with
    | error e => simp [Factored.predictor, Factored.logPredict, g1, g2, hq, probOf]
    | ok p => simp [Factored.predictor, Factored.logPredict, g1, g2, hq, probOf]

theorem factored_copy {I : σ → Prop} (h : P.FaithfulCopy I) : (Factored.predictor P).FaithfulCopy (FOver I) := by
  intro s hs
  obtain ⟨ms, h1, h2, h3⟩ := mapM_faithful h s.factors hs.2
  refine ⟨⟨ms⟩, by simp [Factored.predictor, Factored.copy, h1], ⟨?_, h2⟩, _, Factored.bisimulation, h3⟩
  intro h0
  apply hs.1
  have := h3.length_eq
  simpa [show ms = [] from h0] using this

/-! ## Context trees -/

theorem ctw_copy {I : σ → Prop} (h : P.FaithfulCopy I) (fresh : σ) (d : ℕ) (ctx : List α → List Bool) :
    (CTW.predictor P fresh ctx).FaithfulCopy (CTWNode.WF fresh I d) := by
  intro n hn
  obtain ⟨b, h1, h2, h3⟩ := h n.base hn.base
  refine ⟨.mk b n.baseLP n.childrenLP n.lp n.children, by simp [CTW.predictor, h1], ?_, CTWNode.EqvAll P fresh,
    CTWNode.eqvAll_bisimulation ctx, ?_⟩
  · cases d with
    | zero => exact ⟨h2, hn.2⟩
    | succ d => exact ⟨h2, hn.2⟩
  · rw [CTWNode.eqvAll_iff]
    exact ⟨⟨h3, rfl, rfl, rfl⟩, fun c => .refl _⟩

theorem mkcontext_length {β : Type} {depth : ℕ} (hd : depth ≠ 0) (zero : β) (h : List β) : (CTW.mkcontext depth zero h).length = depth := by
  simp only [CTW.mkcontext, pyTail, if_neg hd, List.length_append, List.length_replicate, List.length_drop]
  omega

/-- The contract does not mention `copy`. -/
theorem update_withCopy {I : σ → Prop} {W : ℝ → Prop} (h : P.UpdateLawful I A W) (c : σ → Py σ) : ({ P with copy := c } : Predictor σ α).UpdateLawful I A W :=
  ⟨h.total, h.normalised⟩

theorem lawful_withCopy {I : σ → Prop} {W : ℝ → Prop} (h : P.Lawful I A W) (c : σ → Py σ) : ({ P with copy := c } : Predictor σ α).Lawful I A W :=
  ⟨h.update_ok, h.predict_ok, h.coherent, h.normalised⟩

theorem pure_withCopy (h : P.PurePredict) (c : σ → Py σ) : ({ P with copy := c } : Predictor σ α).PurePredict := by
  intro s a hi r t ht
  obtain ⟨R, hR, hst⟩ := h s a hi r t ht
  exact ⟨R, hR, hst⟩

/-! ## All of them -/

variable [DecidableEq α]

theorem fine (hA : A.Nodup) (hne : A ≠ []) {s : σ} (h : Built A cp co σ P s) : Fine P A cp co s := by
  induction h with
  | user hc hs => exact .mk' hc.lawful.updateLawful (fun _ => hc.copy) (fun _ => hc.lawful) hs
  | kt h =>
    rw [KT.init_default hA hne, Except.ok.injEq] at h
    subst h
    exact .mk' (KT.lawful hA hne) (fun _ => fun s hs => ⟨s, rfl, hs, .refl _ s⟩) (fun _ => KT.lawfulFull hA hne) (KT.good_default hne)
  | @averager cp co ι τ Q m is t _ h ih =>
    refine .mk' (Averager.updateLawful (sigma_update fun i => fine_update (P := Q i) (cp := cp) (co := co))) ?_ ?_ (Averager.over_init ?_ h)
    · rintro rfl
      exact averager_copy (sigma_copy fun i => fine_copy)
    · rintro rfl
      exact Averager.lawful (sigma_lawful fun i => fine_lawful)
    · intro x hx
      obtain ⟨i, -, rfl⟩ := List.mem_map.1 hx
      exact ih i
  | @factored cp co ι τ Q m is _ h ih =>
    refine .mk' (factored_update (sigma_update fun i => fine_update (P := Q i) (cp := cp) (co := co))) ?_ ?_ ⟨by simpa using h, ?_⟩
    · rintro rfl
      exact factored_copy (sigma_copy fun i => fine_copy)
    · rintro rfl
      exact factored_lawful (sigma_lawful fun i => fine_lawful)
    · intro x hx
      obtain ⟨i, -, rfl⟩ := List.mem_map.1 hx
      exact ih i
  | @ctwBits cp co σ P s depth zero bit _ hd ih =>
    have hc : ∀ h, ((CTW.mkcontext depth zero h).map bit).length = depth := fun h => by
      rw [List.length_map, mkcontext_length hd]
    refine .mk' (CTWNode.updateLawful (fine_update (P := P) (cp := cp) (co := co)) hc) ?_ ?_ (CTWNode.WF.new ih depth)
    · rintro rfl
      exact ctw_copy fine_copy s depth _
    · rintro rfl
      exact CTWNode.lawful fine_lawful hc
  | @ctw cp co σ P s depth zero _ hd ih =>
    have hc : ∀ h, (CTW.mkcontext depth zero h).length = depth := mkcontext_length hd zero
    refine .mk' (update_withCopy (CTWNode.updateLawful (fine_update (P := P) (cp := cp) (co := co)) hc) _) (by simp) ?_ (CTWNode.WF.new ih depth)
    rintro rfl
    exact lawful_withCopy (CTWNode.lawful fine_lawful hc) _
  | @ptw cp co σ P s m _ ih =>
    exact .mk' (PTW.updateLawful (m := m) (fine_update (P := P) (cp := cp) (co := co)) ih) (by simp) (by simp)
      ⟨[], by simp [GoodObs], PTW.inv_init, ih⟩
  | @fmn co σ P s m t _ h ih =>
    refine .mk' (updateLawful_of_runs (s0 := t) fun xs hx hi w hw => ?_) (by simp) (by simp) ⟨[], 0, by simp [GoodObs], rfl⟩
    obtain ⟨s0, r, u, h1, h2, h3⟩ := C34_FMN_normalised (LogStore.store σ) _ _ P (LogStore.lawful σ) _ A _ (fine_update (P := P) (cp := true) (co := co))
      (C50_copyable fine_copy) s ih m xs hx hi w hw
    rw [h, Except.ok.injEq] at h1
    subst h1
    exact ⟨r, u, h2, h3⟩
  | @fmnUniform co σ P s m t _ h ih =>
    refine .mk' (updateLawful_of_runs (s0 := t) fun xs hx hi w hw => ?_) (by simp) (by simp) ⟨[], 0, by simp [GoodObs], rfl⟩
    obtain ⟨s0, r, u, h1, h2, h3⟩ := C34_FMN_normalised (LogStoreUniform.store σ) _ _ P (LogStoreUniform.lawful σ) _ A _ (fine_update (P := P) (cp := true) (co := co))
      (C50_copyable fine_copy) s ih m xs hx hi w hw
    rw [h, Except.ok.injEq] at h1
    subst h1
    exact ⟨r, u, h2, h3⟩
  | trained _ hx hr ih =>
    obtain ⟨r', t', h1, h2⟩ := fine_update.run_ok ih hx
    rw [hr] at h1
    cases h1
    exact h2
  | forget _ h1 h2 ih =>
    obtain ⟨I, a1, a2, a3, a4⟩ := ih
    exact ⟨I, a1, fun h => a2 (h1 h), fun h => a3 (h2 h), a4⟩

/-- Copies answer as their originals, in whatever state. -/
theorem copyAny {s : σ} (h : Built A cp co σ P s) : (cp = true → P.FaithfulCopy fun _ => True) ∧ P.PurePredict := by
  induction h with
  | user hc hs => exact ⟨fun _ => hc.copyAny, hc.pure⟩
  | kt h => exact ⟨fun _ => fun s _ => ⟨s, rfl, trivial, .refl _ s⟩, KT.pure⟩
  | @averager cp co ι τ Q m is t _ h ih =>
    refine ⟨fun hcp s _ => ?_, Averager.purePredict (sigma_pure fun i => (ih i).2)⟩
    obtain ⟨t, h1, -, h3⟩ := C50_Averager (sigma_copy fun i => (ih i).1 hcp) s (fun _ _ => trivial)
    exact ⟨t, h1, trivial, h3⟩
  | @factored cp co ι τ Q m is _ h ih =>
    refine ⟨fun hcp s _ => ?_, Factored.purePredict (sigma_pure fun i => (ih i).2)⟩
    obtain ⟨t, h1, -, h3⟩ := C50_Factored (sigma_copy fun i => (ih i).1 hcp) s (fun _ _ => trivial)
    exact ⟨t, h1, trivial, h3⟩
  | @ctwBits cp co σ P s depth zero bit _ hd ih =>
    refine ⟨fun hcp n _ => ?_, CTWNode.purePredict ih.2 _⟩
    obtain ⟨t, h1, -, h3⟩ := C50_CTW (ih.1 hcp) s (fun h => (CTW.mkcontext depth zero h).map bit) n trivial
    exact ⟨t, h1, trivial, h3⟩
  | ctw zero _ hd ih => exact ⟨by simp, pure_withCopy (CTWNode.purePredict ih.2 _) _⟩
  | ptw m _ ih => exact ⟨by simp, PTW.purePredict ih.2 _ m⟩
  | fmn _ h ih => exact ⟨by simp, FMN.purePredict ih.2 (ih.1 rfl) (LogStore.respects (Indist.refl _)) _⟩
  | fmnUniform _ h ih => exact ⟨by simp, FMN.purePredict ih.2 (ih.1 rfl) (LogStoreUniform.respects (Indist.refl _)) _⟩
  | trained _ _ _ ih => exact ih
  | forget _ h1 _ ih => exact ⟨fun h => ih.1 (h1 h), ih.2⟩

theorem sum_flatMap {β : Type} (f : β → List ℝ) : ∀ l : List β, (l.flatMap f).sum = (l.map fun b => (f b).sum).sum
  | [] => rfl
  | b :: l => by simp [sum_flatMap f l]

theorem words_sum {I : σ → Prop} {W : ℝ → Prop} (h : P.UpdateLawful I A W) (hW : W 1) :
    ∀ (n : ℕ) (s : σ) (hi : List α), I s → ((words A n).map fun xs => P.seqProb s (drawn hi xs)).sum = 1
  | 0, s, hi, _ => by simp [words, drawn, seqProb, run, probOf]
  | n + 1, s, hi, hs => by
    rw [words, List.map_flatMap, sum_flatMap, ← h.sum_probOf hs hW hi]
    congr 1
    apply List.map_congr_left
    intro a ha
    obtain ⟨r, t, h1, h2⟩ := h.total s a hi 1 hs ha hW
    have h3 := words_sum h hW n t (hi ++ [a]) h2
    rw [List.map_map, h1, probOf_ok]
    calc _ = ((words A n).map fun xs => Real.exp r * P.seqProb t (drawn (hi ++ [a]) xs)).sum := by
          congr 1
          apply List.map_congr_left
          intro xs _
          exact seqProb_drawn h1
      _ = _ := by rw [List.sum_map_mul_left, h3, mul_one]

end Compose

variable {σ α : Type} [DecidableEq α] {P : Predictor σ α} {A : List α} {cp co : Bool} {s : σ}

/-- **C153 (a distribution over the next symbol).** Put together from the classes of model.py in any way, an object takes any sequence of
symbols from the alphabet, with any histories and any weights that are not negative, without raising; and after it the probabilities that
`update` reports for the symbols sum to one. -/
theorem C153_distribution (hA : A.Nodup) (hne : A ≠ []) (hb : Built A cp co σ P s) (xs : List (Obs α))
    (hx : ∀ o ∈ xs, o.sym ∈ A ∧ 0 ≤ o.weight) :
    ∃ r t, P.run s xs = .ok (r, t) ∧ ∀ h w, 0 ≤ w → (A.map fun a => probOf (P.update t a h w)).sum = 1 := by
  obtain ⟨r, t, h1, h2⟩ := Compose.fine_update.run_ok (Compose.fine hA hne hb) hx
  exact ⟨r, t, h1, fun h w hw => Compose.fine_update.sum_probOf h2 hw h⟩

/-- **C153 (a distribution over sequences).** The probabilities that such an object gives to all the sequences of `n` symbols sum to
one, whatever `n` is and whatever came before. -/
theorem C153_sequences (hA : A.Nodup) (hne : A ≠ []) (hb : Built A cp co σ P s) (n : ℕ) (h : List α) :
    ((words A n).map fun xs => P.seqProb s (drawn h xs)).sum = 1 :=
  Compose.words_sum Compose.fine_update zero_le_one n s h (Compose.fine hA hne hb)

/-- **C153 (predictions).** If no partition tree and no forget-me-not model is among the parts, then after any sequence `log_predict`
returns what `update` would return, for every symbol, history and weight, and the predictions sum to one. -/
theorem C153_predictions (hA : A.Nodup) (hne : A ≠ []) (hb : Built A cp true σ P s) (xs : List (Obs α))
    (hx : ∀ o ∈ xs, o.sym ∈ A ∧ 0 ≤ o.weight) :
    ∃ r t, P.run s xs = .ok (r, t) ∧ (∀ a ∈ A, ∀ h w, 0 ≤ w → ∃ q u v, P.logPredict t a h = .ok (q, u) ∧ P.update t a h w = .ok (q, v)) ∧
      ∀ h, (A.map fun a => probOf (P.logPredict t a h)).sum = 1 := by
  obtain ⟨r, t, h1, h2⟩ := Compose.fine_update.run_ok (Compose.fine hA hne hb) hx
  refine ⟨r, t, h1, fun a ha h w hw => ?_, fun h => Compose.fine_lawful.normalised t h h2⟩
  obtain ⟨q, v, g1, -⟩ := Compose.fine_update.total t a h w h2 ha hw
  obtain ⟨u, g2⟩ := Compose.fine_lawful.coherent t a h w h2 ha hw q v g1
  exact ⟨q, u, v, g2, g1⟩

/-- **C153 (asking).** Asking any such object for predictions has no effect that later calls could tell. -/
theorem C153_asking (hb : Built A cp co σ P s) : P.PurePredict := (Compose.copyAny hb).2

/-- **C153 (copies).** Without partition trees, forget-me-not models and context trees over other contexts than bits among the parts, a
copy can be made at any time, and no calls can tell it from its original. -/
theorem C153_copies (hA : A.Nodup) (hne : A ≠ []) (hb : Built A true co σ P s) (xs : List (Obs α))
    (hx : ∀ o ∈ xs, o.sym ∈ A ∧ 0 ≤ o.weight) :
    ∃ r t u, P.run s xs = .ok (r, t) ∧ P.copy t = .ok u ∧ P.Indist t u := by
  obtain ⟨r, t, h1, h2⟩ := Compose.fine_update.run_ok (Compose.fine hA hne hb) hx
  obtain ⟨u, g1, -, g2⟩ := Compose.fine_copy t h2
  exact ⟨r, t, u, h1, g1, g2⟩

namespace Compose

/-- Two classes: `KT`, and `CTW` of depth 2 over `KT`. -/
def exState : Bool → Type
  | false => KT Bool
  | true => CTWNode (KT Bool) Bool

noncomputable def exClass (k : KT Bool) : ∀ i, Predictor (exState i) Bool
  | false => KT.predictor
  | true => CTW.predictor KT.predictor k fun h => (CTW.mkcontext 2 false h).map id

def exObject (k : KT Bool) : ∀ i, exState i
  | false => k
  | true => CTW.init k

end Compose

/-- `FMN(lambda: Averager([KT([0, 1]), CTW(2), KT([0, 1])]), 1)` and what the theorems say about it: the average is a model with copies and
agreeing predictions, and the forget-me-not model over it gives one to all sequences of a length together. -/
example : ∃ (k : KT Bool) (v : Averager (Σ i, Compose.exState i)) (t : FMN (LogStore (Averager (Σ i, Compose.exState i))) (Averager (Σ i, Compose.exState i))),
    KT.init [false, true] none = .ok k ∧
    Averager.init ([false, true, false].map fun i => (⟨i, Compose.exObject k i⟩ : Σ i, Compose.exState i)) = .ok v ∧
    FMN.init (LogStore.store _) (Averager.predictor (Predictor.either (Compose.exClass k))) v 1 = .ok t ∧
    Built [false, true] true true _ (Averager.predictor (Predictor.either (Compose.exClass k))) v ∧
    Built [false, true] false false _ (FMN.predictor (LogStore.store _) (Averager.predictor (Predictor.either (Compose.exClass k))) 1) t ∧
    ∀ n, ((words [false, true] n).map fun xs =>
      (FMN.predictor (LogStore.store _) (Averager.predictor (Predictor.either (Compose.exClass k))) 1).seqProb t (drawn [] xs)).sum = 1 := by
  have hk := KT.init_default (A := [false, true]) (by simp) (by simp)
  have hkt : Built [false, true] true true _ KT.predictor _ := .kt hk
  set k : KT Bool := _ with hkdef
  have hparts : ∀ i, Built [false, true] true true _ (Compose.exClass k i) (Compose.exObject k i) := by
    intro i
    cases i with
    | false => exact hkt
    | true => exact .ctwBits false id hkt (by simp)
  obtain ⟨v, hv⟩ : ∃ v, Averager.init ([false, true, false].map fun i => (⟨i, Compose.exObject k i⟩ : Σ i, Compose.exState i)) = .ok v := by
    have h3 : (3 : ℝ) ≠ 0 := by norm_num
    simp [Averager.init, pyDiv, pyLog, h3]
  have hav := Built.averager hparts hv
  obtain ⟨t, -, -, ht, -⟩ := C34_FMN_normalised (LogStore.store _) _ _ _ (LogStore.lawful _) _ [false, true] (fun w => 0 ≤ w)
    (Compose.fine_update (cp := true) (co := true)) (C50_copyable Compose.fine_copy) v (Compose.fine (by simp) (by simp) hav) 1 [] (by simp) [] 1 zero_le_one
  have hf := Built.fmn hav ht
  exact ⟨k, v, t, hk, hv, ht, hav, hf, fun n => C153_sequences (by simp) (by simp) hf n []⟩

end Verif
