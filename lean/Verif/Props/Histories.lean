import Verif.Model.Histories
import Verif.Proofs.KT

/-!
# C169: what may be passed as a history

The models that hand their history on take whatever their parts take; `CTW` needs a list, `Factored` something that has a length.
-/

namespace Verif

variable {S σ κ α : Type}

namespace Predictor

/-- The object `P` when it is given the history `l` at every call. -/
def fix (P : Predictor σ α) (l : List α) : Predictor σ α where
  update s a _ w := P.update s a l w
  logPredict s a _ := P.logPredict s a l
  copy := P.copy

end Predictor

/-- Given `x` as history the object behaves as the one that takes lists, given `l`, and copies are the same. -/
def TakesAs (Q : HPredictor σ α) (P : Predictor σ α) (x : Hist α) (l : List α) : Prop :=
  (∀ s a w, Q.update s a x w = P.update s a l w) ∧ (∀ s a, Q.logPredict s a x = P.logPredict s a l) ∧ ∀ s, Q.copy s = P.copy s

namespace Histories

theorem given_eq {Q : HPredictor σ α} {P : Predictor σ α} {x : Hist α} {l : List α} (h : TakesAs Q P x l) : Q.given x = P.fix l := by
  obtain ⟨h1, h2, h3⟩ := h
  unfold HPredictor.given Predictor.fix
  congr 1
  · funext s a _ w; exact h1 s a w
  · funext s a _; exact h2 s a
  · funext s; exact h3 s

theorem updateModels_fix (P : Predictor σ α) (a : α) (l h : List α) (w : ℝ) (ms : List (σ × ℝ)) :
    Averager.updateModels (P.fix l) a h w ms = Averager.updateModels P a l w ms := by
  induction ms with
  | nil => rfl
  | cons m ms ih =>
    obtain ⟨m, lp⟩ := m
    simp only [Averager.updateModels, ih]
    rfl

theorem predictModels_fix (P : Predictor σ α) (a : α) (l h : List α) (ms : List (σ × ℝ)) :
    Averager.predictModels (P.fix l) a h ms = Averager.predictModels P a l ms := by
  induction ms with
  | nil => rfl
  | cons m ms ih =>
    obtain ⟨m, lp⟩ := m
    simp only [Averager.predictModels, ih]
    rfl

theorem copyModels_fix (P : Predictor σ α) (l : List α) (ms : List (σ × ℝ)) :
    Averager.copyModels (P.fix l) ms = Averager.copyModels P ms := by
  induction ms with
  | nil => rfl
  | cons m ms ih =>
    obtain ⟨m, lp⟩ := m
    simp only [Averager.copyModels, ih]
    rfl

/-- Fixing the history of the parts fixes the history of the average. -/
theorem averager_fix (P : Predictor σ α) (l : List α) : Averager.predictor (P.fix l) = (Averager.predictor P).fix l := by
  unfold Averager.predictor
  unfold Predictor.fix
  congr 1
  · funext s a h w
    exact congrArg (fun z => z >>= fun ms => logsumexp (ms.map Prod.snd) >>= fun lp => pure (lp - s.logProb, (⟨ms, lp⟩ : Averager σ)))
      (updateModels_fix P a l h w s.models)
  · funext s a h
    exact congrArg (fun z => z >>= fun p : List ℝ × List (σ × ℝ) => logsumexp p.1 >>= fun lp =>
      pure (lp - s.logProb, (⟨p.2, s.logProb⟩ : Averager σ))) (predictModels_fix P a l h s.models)
  · funext s
    exact congrArg (fun z => z >>= fun ms => pure (⟨ms, s.logProb⟩ : Averager σ)) (copyModels_fix P l s.models)

theorem node_update_fix (P : Predictor σ α) (fresh : Py σ) (h0 : ℕ) (a : α) (l h : List α) (w : ℝ) (n : PTWNode σ) :
    n.update (P.fix l) fresh h0 a h w = n.update P fresh h0 a l w := by
  induction n with
  | leaf d => rfl
  | inner d r ih => simp only [PTWNode.update, ih]; rfl

theorem node_predict_fix (P : Predictor σ α) (a : α) (l h : List α) (n : PTWNode σ) :
    n.logPredict (P.fix l) a h = n.logPredict P a l := by
  induction n with
  | leaf d => rfl
  | inner d r ih => simp only [PTWNode.logPredict, ih]; rfl

theorem ctw_update_fix [DecidableEq κ] (P : Predictor σ α) (fresh : σ) (a : α) (l h : List α) (w : ℝ) (cs : List κ) (n : CTWNode σ κ) :
    n.update (P.fix l) fresh a h w cs = n.update P fresh a l w cs := by
  induction cs generalizing n with
  | nil => rfl
  | cons c cs ih => simp only [CTWNode.update, ih]; rfl

theorem ctw_predict_fix [DecidableEq κ] (P : Predictor σ α) (fresh : σ) (a : α) (l h : List α) (cs : List κ) (n : CTWNode σ κ) :
    n.logPredict (P.fix l) fresh a h cs = n.logPredict P fresh a l cs := by
  induction cs generalizing n with
  | nil => rfl
  | cons c cs ih => simp only [CTWNode.logPredict, ih]; rfl

theorem copies_fix (P : Predictor σ α) (l : List α) (ms : List σ) : FMN.copies (P.fix l) ms = FMN.copies P ms := by
  induction ms with
  | nil => rfl
  | cons m ms ih => simp only [FMN.copies, ih]; rfl

end Histories

open Histories

/-- **C169 (estimators).** A model that does not use its history takes anything for it. -/
theorem C169_estimators (P : Predictor σ α) (hP : ∀ s a l w, P.update s a l w = P.update s a [] w)
    (hP' : ∀ s a l, P.logPredict s a l = P.logPredict s a []) (x : Hist α) (l : List α) : TakesAs (HPredictor.unused P) P x l :=
  ⟨fun s a w => (hP s a l w).symm, fun s a => (hP' s a l).symm, fun _ => rfl⟩

/-- **C169 (mixtures).** Averages, partition trees and forget-me-not models take for a history whatever their parts take, and if the parts treat it
as the list `l`, then so do they. -/
theorem C169_mixtures (Q : HPredictor σ α) (P : Predictor σ α) (x : Hist α) (l : List α) (h : TakesAs Q P x l) (fresh : σ) (m height : ℕ)
    (St : Store S σ) :
    TakesAs Q.averager (Averager.predictor P) x l ∧ TakesAs (Q.ptw fresh m) (PTW.predictor P fresh m) x l ∧
      TakesAs (Q.ptwFixedLength fresh m height) (PTWFixedLength.predictor P fresh m height) x l ∧
      TakesAs (HPredictor.fmn St Q m) (FMN.predictor St P m) x l := by
  have e := given_eq h
  refine ⟨⟨fun s a w => ?_, fun s a => ?_, fun s => ?_⟩, ⟨fun s a w => ?_, fun s a => ?_, fun s => rfl⟩,
    ⟨fun s a w => ?_, fun s a => ?_, fun s => rfl⟩, ⟨fun s a w => ?_, fun s a => ?_, fun s => rfl⟩⟩
  · simp only [HPredictor.averager, e, averager_fix]
    rfl
  · simp only [HPredictor.averager, e, averager_fix]
    rfl
  · change Averager.copy (Q.given .none) s = Averager.copy P s
    have : ∀ ms, Averager.copyModels (Q.given .none) ms = Averager.copyModels P ms := by
      intro ms
      induction ms with
      | nil => rfl
      | cons m ms ih =>
        obtain ⟨m, lp⟩ := m
        simp only [Averager.copyModels, ih, show (Q.given .none).copy m = P.copy m from h.2.2 m]
    simp only [Averager.copy, this]
  · simp only [HPredictor.ptw, e, PTW.predictor, PTW.update, node_update_fix]
  · simp only [HPredictor.ptw, e, PTW.predictor, PTW.logPredict, node_predict_fix]
  · simp only [HPredictor.ptwFixedLength, e, PTWFixedLength.predictor, PTWFixedLength.update, node_update_fix]
  · simp only [HPredictor.ptwFixedLength, e, PTWFixedLength.predictor, PTWFixedLength.logPredict, node_predict_fix]
  · have hb : ∀ p, FMN.best (P.fix l) p = FMN.best P p := fun p => rfl
    simp only [HPredictor.fmn, e, FMN.predictor, FMN.update, averager_fix, PTW.update, node_update_fix, FMN.modelFactory, copies_fix, hb]
  · simp only [HPredictor.fmn, e, FMN.predictor, FMN.logPredict, averager_fix, PTW.logPredict, node_predict_fix]

/-- **C169 (products).** `Factored` takes lists and tuples, provided that its factors do, and raises TypeError without a history. -/
theorem C169_Factored (Q : HPredictor σ α) (P : Predictor σ α) (l : List α) :
    (TakesAs Q P (.list l) l → TakesAs Q.factored (Factored.predictor P) (.list l) l) ∧
    (TakesAs Q P (.tuple l) l → TakesAs Q.factored (Factored.predictor P) (.tuple l) l) ∧
    ∀ s a w, Q.factored.update s a .none w = .error .typeError ∧ Q.factored.logPredict s a .none = .error .typeError := by
  have key : ∀ x, x.len = .ok l.length → TakesAs Q P x l → TakesAs Q.factored (Factored.predictor P) x l := by
    intro x hx h
    refine ⟨fun s a w => ?_, fun s a => ?_, fun s => ?_⟩
    · simp only [HPredictor.factored, hx, ok_bind, Factored.predictor, Factored.update, Factored.index, h.1]
      split_ifs <;> rfl
    · simp only [HPredictor.factored, hx, ok_bind, Factored.predictor, Factored.logPredict, Factored.index, h.2.1]
      split_ifs <;> rfl
    · have : (Q.given .none).copy = P.copy := funext h.2.2
      simp only [HPredictor.factored, Factored.copy, Factored.predictor, this]
  exact ⟨key _ rfl, key _ rfl, fun s a w => ⟨rfl, rfl⟩⟩

/-- **C169 (context trees).** `CTW` with its own contexts takes lists only: nothing, or a tuple, is refused with TypeError whatever its base
models take. -/
theorem C169_CTW [DecidableEq α] (Q : HPredictor σ α) (P : Predictor σ α) (fresh : σ) (depth : ℕ) (zero : α) :
    (∀ l, TakesAs Q P (.list l) l →
      TakesAs (Q.ctw fresh (Hist.mkcontext depth zero)) (CTW.predictor P fresh (CTW.mkcontext depth zero)) (.list l) l) ∧
    ∀ x, x = .none ∨ (∃ l, x = .tuple l) → ∀ n a w,
      (Q.ctw fresh (Hist.mkcontext depth zero)).update n a x w = .error .typeError ∧
      (Q.ctw fresh (Hist.mkcontext depth zero)).logPredict n a x = .error .typeError := by
  refine ⟨fun l h => ⟨fun n a w => ?_, fun n a => ?_, fun n => ?_⟩, ?_⟩
  · simp only [HPredictor.ctw, given_eq h, Hist.mkcontext, Hist.len, ok_bind, pure_eq_ok, ctw_update_fix, CTW.predictor]
    rfl
  · simp only [HPredictor.ctw, given_eq h, Hist.mkcontext, Hist.len, ok_bind, pure_eq_ok, ctw_predict_fix, CTW.predictor]
    rfl
  · simp only [HPredictor.ctw, CTW.predictor, h.2.2]
  · rintro x (rfl | ⟨l, rfl⟩) n a w <;> exact ⟨rfl, rfl⟩

/-- **C169 (`CTW_KT`).** The same for the context tree over bits. -/
theorem C169_CTW_KT (depth : ℕ) : (∀ l, TakesAs (HPredictor.ctwKT depth) (KNode.predictor depth) (.list l) l) ∧
    ∀ x, x = .none ∨ (∃ l, x = .tuple l) → ∀ n a w, (HPredictor.ctwKT depth).update n a x w = .error .typeError ∧
      (HPredictor.ctwKT depth).logPredict n a x = .error .typeError := by
  refine ⟨fun l => ⟨fun n a w => rfl, fun n a => rfl, fun n => rfl⟩, ?_⟩
  rintro x (rfl | ⟨l, rfl⟩) n a w <;> exact ⟨rfl, rfl⟩

/-- **C169 (`update_seq`).** With a list `update_seq` does what it does with lists.  Without a history, or with a tuple, it raises: after the
object has been updated with the first symbol if there is one. -/
theorem C169_update_seq (Q : HPredictor σ α) (P : Predictor σ α) (s : σ) (w : ℝ) :
    (∀ seq l rv s' h', (∀ l, TakesAs Q P (.list l) l) → P.updateSeq s seq l w = .ok (rv, s', h') →
      Q.updateSeq s seq (.list l) w = (.ok rv, s', .list h')) ∧
    ∀ x, x = .none ∨ (∃ l, x = .tuple l) → Q.updateSeq s [] x w = (.error .typeError, s, x) ∧
      ∀ a as r s', Q.update s a x w = .ok (r, s') → Q.updateSeq s (a :: as) x w = (.error .attributeError, s', x) := by
  constructor
  · intro seq l rv s' h' hQ h
    simp only [Predictor.updateSeq, bind_eq_ok, pure_eq_ok, Except.ok.injEq, Prod.mk.injEq, Prod.exists] at h
    obtain ⟨r1, s1, l1, h1, rfl, rfl, rfl⟩ := h
    have k2 : ∀ (seq l : List α) (s : σ) (rv0 : ℝ) (r1 : ℝ) (s1 : σ) (l1 : List α), P.updateSeqLoop w s seq l rv0 = .ok (r1, s1, l1) →
        Q.updateSeqLoop w s seq (.list l) rv0 = (.ok r1, s1, .list l1) := by
      intro seq
      induction seq with
      | nil =>
        intro l s rv0 r1 s1 l1 h
        simp only [Predictor.updateSeqLoop, pure_eq_ok, Except.ok.injEq, Prod.mk.injEq] at h
        obtain ⟨rfl, rfl, rfl⟩ := h
        rfl
      | cons a as ih =>
        intro l s rv0 r1 s1 l1 h
        simp only [Predictor.updateSeqLoop, bind_eq_ok, Prod.exists] at h
        obtain ⟨r, s2, h1, h2⟩ := h
        simp only [HPredictor.updateSeqLoop, (hQ l).1, h1, Hist.append]
        exact ih _ _ _ _ _ _ h2
    simp only [HPredictor.updateSeq, k2 _ _ _ _ _ _ _ h1, Hist.delTail]
  · rintro x (rfl | ⟨l, rfl⟩)
    · refine ⟨rfl, fun a as r s' h => ?_⟩
      simp only [HPredictor.updateSeq, HPredictor.updateSeqLoop, h, Hist.append]
    · refine ⟨rfl, fun a as r s' h => ?_⟩
      simp only [HPredictor.updateSeq, HPredictor.updateSeqLoop, h, Hist.append]

/-! ## Contexts that are the caller's list -/

/-- The updates that a sequence makes if each symbol after the first comes with the symbol before it as the whole history. -/
def lastOnly (w : ℝ) : List α → List α → List (Obs α)
  | _, [] => []
  | h, a :: as => ⟨a, h, w⟩ :: lastOnly w [a] as

namespace Histories

theorem shared_update [DecidableEq α] (P : Predictor σ α) (hP : ∀ s a l w, P.update s a l w = P.update s a [] w) (fresh : σ) (a : α)
    (h : List α) (w : ℝ) (cs : List α) (n : CTWNode σ α) : n.updateShared P fresh a w cs = n.update P fresh a h w cs := by
  induction cs generalizing n with
  | nil => simp only [CTWNode.updateShared, CTWNode.update, hP _ _ h]
  | cons c cs ih => simp only [CTWNode.updateShared, CTWNode.update, ih, hP _ _ h, hP _ _ (c :: cs).reverse]

theorem shared_predict [DecidableEq α] (P : Predictor σ α) (hP : ∀ s a l, P.logPredict s a l = P.logPredict s a []) (fresh : σ) (a : α)
    (h : List α) (cs : List α) (n : CTWNode σ α) : n.logPredictShared P fresh a cs = n.logPredict P fresh a h cs := by
  induction cs generalizing n with
  | nil => simp only [CTWNode.logPredictShared, CTWNode.logPredict, hP _ _ h]
  | cons c cs ih => simp only [CTWNode.logPredictShared, CTWNode.logPredict, ih, hP _ _ h, hP _ _ (c :: cs).reverse]

end Histories

/-- **C169 (a context function that returns its argument).** A context tree made with `mkcontext=lambda history: history` over base models that do
not use the history answers as a tree with the whole history as context, but every call empties the caller's list. -/
theorem C169_own_list [DecidableEq α] (P : Predictor σ α) (hP : ∀ s a l w, P.update s a l w = P.update s a [] w)
    (hP' : ∀ s a l, P.logPredict s a l = P.logPredict s a []) (fresh : σ) (n n' : CTWNode σ α) (a : α) (h h' : List α) (w r : ℝ) :
    (SharedCTW.update P fresh n a h w = .ok (r, n', h') ↔ (CTW.predictor P fresh id).update n a h w = .ok (r, n') ∧ h' = []) ∧
    (SharedCTW.logPredict P fresh n a h = .ok (r, n', h') ↔ (CTW.predictor P fresh id).logPredict n a h = .ok (r, n') ∧ h' = []) := by
  constructor
  · simp only [SharedCTW.update, shared_update P hP fresh a h, bind_eq_ok, pure_eq_ok, Except.ok.injEq, Prod.mk.injEq, Prod.exists,
      CTW.predictor, id]
    constructor
    · rintro ⟨r1, n1, h1, rfl, rfl, rfl⟩
      exact ⟨h1, rfl⟩
    · rintro ⟨h1, rfl⟩
      exact ⟨r, n', h1, rfl, rfl, rfl⟩
  · simp only [SharedCTW.logPredict, shared_predict P hP' fresh a h, bind_eq_ok, pure_eq_ok, Except.ok.injEq, Prod.mk.injEq, Prod.exists,
      CTW.predictor, id]
    constructor
    · rintro ⟨r1, n1, h1, rfl, rfl, rfl⟩
      exact ⟨h1, rfl⟩
    · rintro ⟨h1, rfl⟩
      exact ⟨r, n', h1, rfl, rfl, rfl⟩

/-- **C169 (such a function and `update_seq`).** So in `update_seq` only the first symbol meets the history; every other one has as its context the
symbol before it alone, and the history is lost. -/
theorem C169_own_list_seq [DecidableEq α] (P : Predictor σ α) (hP : ∀ s a l w, P.update s a l w = P.update s a [] w) (fresh : σ)
    (n n' : CTWNode σ α) (seq h h' : List α) (hs : seq ≠ []) (w r : ℝ) :
    SharedCTW.updateSeq P fresh n seq h w = .ok (r, n', h') ↔
      (CTW.predictor P fresh id).run n (lastOnly w h seq) = .ok (r, n') ∧ h' = [] := by
  have step : ∀ n a h, SharedCTW.update P fresh n a h w =
      ((CTW.predictor P fresh id).update n a h w >>= fun p => pure (p.1, p.2, [])) := by
    intro n a h
    simp only [SharedCTW.update, shared_update P hP fresh a h, CTW.predictor, id]
  have loop : ∀ (seq : List α) (n : CTWNode σ α) (h : List α) (rv r : ℝ) (n' : CTWNode σ α) (h' : List α), h.length ≤ 1 ∨ seq ≠ [] →
      (SharedCTW.updateSeqLoop P fresh w n seq h rv = .ok (r, n', h') →
        ∃ q, (CTW.predictor P fresh id).run n (lastOnly w h seq) = .ok (q, n') ∧ r = rv + q ∧ h'.length ≤ 1) ∧
      ∀ q, (CTW.predictor P fresh id).run n (lastOnly w h seq) = .ok (q, n') →
        ∃ h', h'.length ≤ 1 ∧ SharedCTW.updateSeqLoop P fresh w n seq h rv = .ok (rv + q, n', h') := by
    intro seq
    induction seq with
    | nil =>
      intro n h rv r n' h' hl
      have hl : h.length ≤ 1 := by simpa using hl
      constructor
      · intro hk
        simp only [SharedCTW.updateSeqLoop, pure_eq_ok, Except.ok.injEq, Prod.mk.injEq] at hk
        obtain ⟨rfl, rfl, rfl⟩ := hk
        exact ⟨0, rfl, (add_zero _).symm, hl⟩
      · intro q hq
        simp only [lastOnly, Predictor.run, pure_eq_ok, Except.ok.injEq, Prod.mk.injEq] at hq
        obtain ⟨rfl, rfl⟩ := hq
        exact ⟨h, hl, by simp [SharedCTW.updateSeqLoop, pure_eq_ok]⟩
    | cons a as ih =>
      intro n h rv r n' h' _
      constructor
      · intro hk
        simp only [SharedCTW.updateSeqLoop, step, bind_eq_ok, pure_eq_ok, Except.ok.injEq, Prod.mk.injEq, Prod.exists] at hk
        obtain ⟨r1, n1, h1, ⟨r2, n2, k1, rfl, rfl, rfl⟩, k2⟩ := hk
        obtain ⟨q, k3, rfl, k4⟩ := (ih n2 [a] (rv + r2) r n' h' (Or.inl le_rfl)).1 k2
        refine ⟨r2 + q, ?_, by ring, k4⟩
        simp only [lastOnly, Predictor.run, k1, ok_bind, k3, pure_eq_ok]
      · intro q hq
        simp only [lastOnly, Predictor.run, bind_eq_ok, pure_eq_ok, Except.ok.injEq, Prod.mk.injEq, Prod.exists] at hq
        obtain ⟨r1, n1, k1, r2, n2, k2, rfl, rfl⟩ := hq
        obtain ⟨h'', k3, k4⟩ := (ih n1 [a] (rv + r1) r n2 h' (Or.inl le_rfl)).2 r2 k2
        refine ⟨h'', k3, ?_⟩
        simp only [SharedCTW.updateSeqLoop, step, k1, ok_bind, pure_eq_ok, List.nil_append, k4]
        rw [add_assoc]
  have tail : ∀ l : List α, l.length ≤ 1 → pyDelTail l seq.length = [] := by
    intro l hl
    have : 0 < seq.length := List.length_pos_of_ne_nil hs
    unfold pyDelTail
    rw [if_neg (by omega), List.take_eq_nil_iff]
    left
    omega
  simp only [SharedCTW.updateSeq, bind_eq_ok, pure_eq_ok, Except.ok.injEq, Prod.mk.injEq, Prod.exists]
  constructor
  · rintro ⟨r1, n1, h1, k1, rfl, rfl, rfl⟩
    obtain ⟨q, k2, rfl, k3⟩ := (loop seq n h 0 r1 n1 h1 (Or.inr hs)).1 k1
    rw [zero_add]
    exact ⟨k2, tail _ k3⟩
  · rintro ⟨k1, rfl⟩
    obtain ⟨h'', k2, k3⟩ := (loop seq n h 0 r n' [] (Or.inr hs)).2 r k1
    rw [zero_add] at k3
    exact ⟨r, n', h'', k3, rfl, rfl, tail _ k2⟩

namespace Histories

theorem kt_up {c0 c1 : ℝ} (h0 : 0 < c0) (h1 : 0 < c1) (b : Bool) (h : List Bool) (w : ℝ) : KTBinary.predictor.update ⟨c0, c1⟩ b h w =
    .ok (Real.log ((if b then c1 else c0) / (c0 + c1)), KTBinary.bump ⟨c0, c1⟩ b w) := by
  have hs : c0 + c1 ≠ 0 := by positivity
  cases b
  · have : 0 < c0 / (c0 + c1) := by positivity
    simp [KTBinary.predictor, KTBinary.update, KTBinary.logPredict, KTBinary.get, pyDiv, pyLog, hs, this, ok_bind, pure_eq_ok]
  · have : 0 < c1 / (c0 + c1) := by positivity
    simp [KTBinary.predictor, KTBinary.update, KTBinary.logPredict, KTBinary.get, pyDiv, pyLog, hs, this, ok_bind, pure_eq_ok]

theorem kt_lp {c0 c1 : ℝ} (h0 : 0 < c0) (h1 : 0 < c1) (b : Bool) (h : List Bool) : KTBinary.predictor.logPredict ⟨c0, c1⟩ b h =
    .ok (Real.log ((if b then c1 else c0) / (c0 + c1)), ⟨c0, c1⟩) := by
  have hs : c0 + c1 ≠ 0 := by positivity
  cases b
  · have : 0 < c0 / (c0 + c1) := by positivity
    simp [KTBinary.predictor, KTBinary.logPredict, KTBinary.get, pyDiv, pyLog, hs, this, ok_bind, pure_eq_ok]
  · have : 0 < c1 / (c0 + c1) := by positivity
    simp [KTBinary.predictor, KTBinary.logPredict, KTBinary.get, pyDiv, pyLog, hs, this, ok_bind, pure_eq_ok]

/-- The tree after a 1 that followed a 1 and a 0 that followed a 0. -/
noncomputable def seen2 : CTWNode KTBinary Bool :=
  .mk ⟨3 / 2, 3 / 2⟩ (Real.log (1 / 8)) (Real.log (1 / 4)) (Real.log (3 / 16)) fun b =>
    some (.mk (if b then ⟨1 / 2, 3 / 2⟩ else ⟨3 / 2, 1 / 2⟩) (Real.log (1 / 2)) 0 (Real.log (1 / 2)) fun _ => none)

theorem mix_log {x y : ℝ} (hx : 0 < x) (hy : 0 < y) : log05 + logsumexp2 (Real.log x) (Real.log y) = Real.log ((x + y) / 2) := by
  rw [logsumexp2_eq, Real.exp_log hx, Real.exp_log hy, log05, ← Real.log_mul (by norm_num) (by positivity)]
  congr 1
  ring

theorem seen2_run : ∃ r, (CTW.predictor KTBinary.predictor (KTBinary.init none) id).run (CTW.init (KTBinary.init none))
    [⟨true, [true], 1⟩, ⟨false, [false], 1⟩] = .ok (r, seen2) := by
  have h1 : (CTW.predictor KTBinary.predictor (KTBinary.init none) id).update (CTW.init (KTBinary.init none)) true [true] 1 =
      .ok (Real.log (1 / 2) - 0, .mk ⟨1 / 2, 3 / 2⟩ (Real.log (1 / 2)) (Real.log (1 / 2)) (Real.log (1 / 2))
        (Function.update (fun _ => none) true (some (.mk ⟨1 / 2, 3 / 2⟩ (Real.log (1 / 2)) 0 (Real.log (1 / 2)) fun _ => none)))) := by
    simp only [CTW.predictor, id, CTW.init, CTWNode.new, KTBinary.init, List.reverse_cons, List.reverse_nil, List.nil_append, CTWNode.update,
      CTWNode.base, CTWNode.baseLP, CTWNode.childrenLP, CTWNode.lp, CTWNode.children, Option.getD_none,
      kt_up (show (0 : ℝ) < 1 / 2 by norm_num) (show (0 : ℝ) < 1 / 2 by norm_num), ok_bind, pure_eq_ok, KTBinary.bump, if_true, zero_add]
    norm_num [mix_log]
  have h2 : ∃ r, (CTW.predictor KTBinary.predictor (KTBinary.init none) id).update
      (.mk ⟨1 / 2, 3 / 2⟩ (Real.log (1 / 2)) (Real.log (1 / 2)) (Real.log (1 / 2))
        (Function.update (fun _ => none) true (some (.mk ⟨1 / 2, 3 / 2⟩ (Real.log (1 / 2)) 0 (Real.log (1 / 2)) fun _ => none))))
      false [false] 1 = .ok (r, seen2) := by
    refine ⟨Real.log (3 / 16) - Real.log (1 / 2), ?_⟩
    have e1 : Real.log (1 / 2) + Real.log (1 / 4) = Real.log (1 / 8) := by rw [← Real.log_mul (by norm_num) (by norm_num)]; norm_num
    have e2 : Real.log (1 / 2) + Real.log (1 / 2) = Real.log (1 / 4) := by rw [← Real.log_mul (by norm_num) (by norm_num)]; norm_num
    have e3 : log05 + logsumexp2 (Real.log (1 / 8)) (Real.log (1 / 4)) = Real.log (3 / 16) := by
      rw [mix_log (by norm_num) (by norm_num)]; norm_num
    have q1 : (1 / 2 : ℝ) / (1 / 2 + 3 / 2) = 1 / 4 := by norm_num
    have q2 : (1 / 2 : ℝ) / (1 / 2 + 1 / 2) = 1 / 2 := by norm_num
    have q3 : (1 / 2 : ℝ) + 1 = 3 / 2 := by norm_num
    have hf : Function.update (fun _ : Bool => (none : Option (CTWNode KTBinary Bool))) true
        (some (.mk ⟨1 / 2, 3 / 2⟩ (Real.log (1 / 2)) 0 (Real.log (1 / 2)) fun _ => none)) false = none := rfl
    simp only [CTW.predictor, id, KTBinary.init, List.reverse_cons, List.reverse_nil, List.nil_append, CTWNode.update, CTWNode.new,
      CTWNode.base, CTWNode.baseLP, CTWNode.childrenLP, CTWNode.lp, CTWNode.children, hf, Option.getD_none,
      kt_up (show (0 : ℝ) < 1 / 2 by norm_num) (show (0 : ℝ) < 1 / 2 by norm_num),
      kt_up (show (0 : ℝ) < 1 / 2 by norm_num) (show (0 : ℝ) < 3 / 2 by norm_num), ok_bind, pure_eq_ok, KTBinary.bump, Bool.false_eq_true,
      if_false, zero_add, sub_zero, q1, q2, q3, e1, e2, e3, seen2, Except.ok.injEq, Prod.mk.injEq, true_and, CTWNode.mk.injEq]
    funext b
    cases b <;> rfl
  obtain ⟨r, h2⟩ := h2
  exact ⟨_, by simp only [Predictor.run, h1, ok_bind, h2, pure_eq_ok]; rfl⟩

end Histories

/-- **C169 (such a function and predictions).** Then a prediction is not what an update with the same list reports, since the list is not the same
any more: after a 1 that followed a 1 and a 0 that followed a 0, the tree over `KTBinary` predicts a 1 after 1 with probability 2/3, and the update with the
list that was passed to `log_predict` reports 1/3. -/
theorem C169_own_list_predict : ∃ r n, (CTW.predictor KTBinary.predictor (KTBinary.init none) id).run (CTW.init (KTBinary.init none))
      [⟨true, [true], 1⟩, ⟨false, [false], 1⟩] = .ok (r, n) ∧
    ∃ n' h' n'' h'', SharedCTW.logPredict KTBinary.predictor (KTBinary.init none) n true [true] = .ok (Real.log (2 / 3), n', h') ∧
      SharedCTW.update KTBinary.predictor (KTBinary.init none) n' true h' 1 = .ok (Real.log (1 / 3), n'', h'') := by
  obtain ⟨r, hr⟩ := seen2_run
  have e1 : Real.log (1 / 8) + Real.log (1 / 2) = Real.log (1 / 16) := by rw [← Real.log_mul (by norm_num) (by norm_num)]; norm_num
  have e2 : Real.log (1 / 2) + Real.log (3 / 4) - Real.log (1 / 2) = Real.log (3 / 4) := by ring
  have e3 : Real.log (1 / 4) + Real.log (3 / 4) = Real.log (3 / 16) := by rw [← Real.log_mul (by norm_num) (by norm_num)]; norm_num
  have e4 : log05 + logsumexp2 (Real.log (1 / 16)) (Real.log (3 / 16)) - Real.log (3 / 16) = Real.log (2 / 3) := by
    rw [mix_log (by norm_num) (by norm_num), ← Real.log_div (by norm_num) (by norm_num)]; norm_num
  have e5 : Real.log (1 / 16) - Real.log (3 / 16) = Real.log (1 / 3) := by rw [← Real.log_div (by norm_num) (by norm_num)]; norm_num
  have q1 : (3 / 2 : ℝ) / (3 / 2 + 3 / 2) = 1 / 2 := by norm_num
  have q2 : (3 / 2 : ℝ) / (1 / 2 + 3 / 2) = 3 / 4 := by norm_num
  have hl : SharedCTW.logPredict KTBinary.predictor (KTBinary.init none) seen2 true [true] = .ok (Real.log (2 / 3), .mk ⟨3 / 2, 3 / 2⟩
      (Real.log (1 / 8)) (Real.log (1 / 4)) (Real.log (3 / 16)) (Function.update seen2.children true (seen2.children true)), []) := by
    simp only [SharedCTW.logPredict, List.reverse_cons, List.reverse_nil, List.nil_append, CTWNode.logPredictShared, seen2,
      CTWNode.base, CTWNode.baseLP, CTWNode.childrenLP, CTWNode.lp, CTWNode.children, Option.getD_some,
      kt_lp (show (0 : ℝ) < 3 / 2 by norm_num) (show (0 : ℝ) < 3 / 2 by norm_num),
      kt_lp (show (0 : ℝ) < 1 / 2 by norm_num) (show (0 : ℝ) < 3 / 2 by norm_num), ok_bind, pure_eq_ok, if_true, q1, q2, e1, e2, e3, e4]
  refine ⟨r, seen2, hr, _, _, .mk ⟨3 / 2, 3 / 2 + 1⟩ (Real.log (1 / 16)) (Real.log (1 / 4)) (Real.log (1 / 16))
    (Function.update seen2.children true (seen2.children true)), [], hl, ?_⟩
  simp only [SharedCTW.update, List.reverse_nil, CTWNode.updateShared, CTWNode.base, CTWNode.baseLP, CTWNode.childrenLP, CTWNode.lp,
    kt_up (show (0 : ℝ) < 3 / 2 by norm_num) (show (0 : ℝ) < 3 / 2 by norm_num), ok_bind, pure_eq_ok, if_true, q1, e1, e5]
  rfl

/-- Forget-me-not over `KTBinary` needs no history: without one it does what it does with any list. -/
example (St : Store S KTBinary) (m : ℕ) (l : List Bool) : TakesAs (HPredictor.fmn St (HPredictor.unused KTBinary.predictor) m)
    (FMN.predictor St KTBinary.predictor m) .none l :=
  (C169_mixtures _ _ _ _ (C169_estimators KTBinary.predictor (fun _ _ _ _ => rfl) (fun _ _ _ => rfl) .none l) (KTBinary.init none) m 0 St).2.2.2

/-- A context tree inside: without a history an average of context trees raises, with a list it does not. -/
example (n : CTWNode KTBinary Bool) (lp q : ℝ) (w : ℝ) :
    ((HPredictor.unused KTBinary.predictor).ctw (KTBinary.init none) (Hist.mkcontext 3 false)).averager.update ⟨[(n, lp)], q⟩ true .none w =
      .error .typeError := by
  have h := ((C169_CTW (HPredictor.unused KTBinary.predictor) KTBinary.predictor (KTBinary.init none) 3 false).2 .none (Or.inl rfl) n true w).1
  simp only [HPredictor.averager, Averager.predictor, Averager.update, Averager.updateModels, HPredictor.given, h]
  rfl

end Verif
