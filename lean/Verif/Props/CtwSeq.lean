import Verif.Model.CtwSeq
import Verif.Props.Ctw

/-!
# C80: sequences in ctw.py; C82: `ctw.SAD`; C83: shared histories
-/

namespace Verif

open Predictor

/-- All sequences of length `n` over `A`. -/
def wordsOf {α : Type} (A : List α) : ℕ → List (List α)
  | 0 => [[]]
  | n + 1 => A.flatMap fun a => (wordsOf A n).map (a :: ·)

theorem mem_wordsOf {α : Type} {A : List α} {n : ℕ} {l : List α} : l ∈ wordsOf A n ↔ l.length = n ∧ ∀ a ∈ l, a ∈ A := by
  induction n generalizing l with
  | zero => simp only [wordsOf, List.mem_singleton, List.length_eq_zero_iff]; constructor <;> simp +contextual
  | succ n ih =>
    simp only [wordsOf, List.mem_flatMap, List.mem_map]
    constructor
    · rintro ⟨a, ha, y, hy, rfl⟩
      obtain ⟨h1, h2⟩ := ih.1 hy
      simp [h1, ha]
      exact h2
    · rintro ⟨h1, h2⟩
      cases l with
      | nil => simp at h1
      | cons a l =>
        exact ⟨a, h2 a (by simp), l, ih.2 ⟨by simpa using h1, fun b hb => h2 b (List.mem_cons_of_mem _ hb)⟩, rfl⟩

theorem sum_wordsOf {α : Type} (A : List α) (n : ℕ) (f : List α → ℝ) :
    ((wordsOf A (n + 1)).map f).sum = (A.map fun a => ((wordsOf A n).map fun l => f (a :: l)).sum).sum := by
  simp only [wordsOf]
  generalize wordsOf A n = L
  induction A with
  | nil => rfl
  | cons a A ih =>
    rw [List.flatMap_cons, List.map_append, List.sum_append, ih, List.map_map, List.map_cons, List.sum_cons]
    rfl

section Seq

variable {σ α : Type} (Q : ProbSeq σ α)

/-- **C80 (update_seq).** `update_seq` returns the sum of what the single updates return, and ends in the same state. -/
theorem C80_update_seq (hQ : Q.Tracks) (s : σ) (seq : List α) (w : ℝ) :
    Q.updateSeq s seq w = Q.toPredictor.run s (seq.map fun a => ⟨a, [], w⟩) := by
  have key : ∀ (seq : List α) (s : σ), Q.updateSeqLoop w s seq =
      (Q.toPredictor.run s (seq.map fun a => ⟨a, [], w⟩)).map Prod.snd ∧
      ∀ r s', Q.toPredictor.run s (seq.map fun a => ⟨a, [], w⟩) = .ok (r, s') → Q.lp s' = Q.lp s + r := by
    intro seq
    induction seq with
    | nil =>
      intro s
      refine ⟨rfl, ?_⟩
      intro r s' h
      simp only [List.map_nil, run, pure_eq_ok, Except.ok.injEq, Prod.mk.injEq] at h
      rw [← h.1, ← h.2, add_zero]
    | cons a seq ih =>
      intro s
      simp only [ProbSeq.updateSeqLoop, List.map_cons, run, ProbSeq.toPredictor]
      cases hu : Q.update s a w with
      | error e =>
        refine ⟨rfl, ?_⟩
        intro r s' h
        simp [error_bind] at h
      | ok p =>
        obtain ⟨r0, s0⟩ := p
        obtain ⟨h1, h2⟩ := ih s0
        simp only [ok_bind]
        constructor
        · rw [h1]
          change _ = Except.map Prod.snd ((Q.toPredictor.run s0 (seq.map fun a => ⟨a, [], w⟩)).bind _)
          cases Q.toPredictor.run s0 (seq.map fun a => ⟨a, [], w⟩) with
          | error e => rfl
          | ok q => rfl
        · intro r s' h
          rw [bind_eq_ok] at h
          obtain ⟨⟨r1, s1⟩, h3, h4⟩ := h
          simp only [pure_eq_ok, Except.ok.injEq, Prod.mk.injEq] at h4
          obtain ⟨rfl, rfl⟩ := h4
          rw [h2 r1 s1 h3, hQ s a w r0 s0 hu]
          ring
  obtain ⟨h1, h2⟩ := key seq s
  rw [ProbSeq.updateSeq, h1]
  cases hr : Q.toPredictor.run s (seq.map fun a => ⟨a, [], w⟩) with
  | error e => rfl
  | ok p =>
    obtain ⟨r, s'⟩ := p
    have := h2 r s' hr
    show Except.ok (Q.lp s' - Q.lp s, s') = _
    rw [this]
    simp

variable {Q}

/-- **C80 (total probability).** Over a lawful model the probabilities that `update_seq` reports for all sequences of one length
sum to one. -/
theorem C80_update_seq_total (hQ : Q.Tracks) {I : σ → Prop} {A : List α} {W : ℝ → Prop} (hP : Q.toPredictor.Lawful I A W)
    (s : σ) (hs : I s) (w : ℝ) (hw : W w) (n : ℕ) :
    ((wordsOf A n).map fun l => probOf (Q.updateSeq s l w)).sum = 1 := by
  simp only [C80_update_seq Q hQ]
  induction n generalizing s with
  | zero => simp [wordsOf, run, pure_eq_ok, probOf]
  | succ n ih =>
    rw [sum_wordsOf, ← hP.updateLawful.sum_probOf hs hw []]
    congr 1
    refine List.map_congr_left fun a ha => ?_
    obtain ⟨r, s', h1, h2⟩ := hP.update_ok s a [] w hs ha hw
    have : ∀ l ∈ wordsOf A n, probOf (Q.toPredictor.run s ((a :: l).map fun a => (⟨a, [], w⟩ : Obs α))) =
        Real.exp r * probOf (Q.toPredictor.run s' (l.map fun a => ⟨a, [], w⟩)) := by
      intro l _
      simp only [List.map_cons, run]
      rw [h1, ok_bind]
      cases Q.toPredictor.run s' (l.map fun a => ⟨a, [], w⟩) with
      | error e => simp [error_bind, probOf]
      | ok q => simp [ok_bind, pure_eq_ok, probOf, Real.exp_add]
    rw [List.map_congr_left this, List.sum_map_mul_left, ih s' h2, mul_one, h1]
    rfl

theorem logPredictSeqLoop_acc (s : σ) (l : List α) (x : ℝ) :
    Q.logPredictSeqLoop s l x = (Q.logPredictSeqLoop s l 0).map fun p => (x + p.1, p.2) := by
  induction l generalizing s x with
  | nil => simp [ProbSeq.logPredictSeqLoop, pure_eq_ok, Except.map]
  | cons a l ih =>
    simp only [ProbSeq.logPredictSeqLoop]
    cases hp : Q.logPredict s a with
    | error e => rfl
    | ok p =>
      simp only [ok_bind, zero_add]
      rw [ih p.2 (x + p.1), ih p.2 p.1]
      cases Q.logPredictSeqLoop p.2 l 0 with
      | error e => rfl
      | ok q => simp [Except.map, add_assoc]

/-- **C80 (log_predict_seq).** `log_predict_seq` does not learn from the sequence: over a lawful model whose predictions leave it
unchanged it returns the product of the predictions for the single symbols, whatever their order, and leaves the model
unchanged; these sum to one over all sequences of one length. -/
theorem C80_log_predict_seq {I : σ → Prop} {A : List α} {W : ℝ → Prop} (hP : Q.toPredictor.Lawful I A W)
    (hpure : ∀ s a r t, I s → Q.logPredict s a = .ok (r, t) → t = s) (s : σ) (hs : I s) :
    (∀ l : List α, (∀ a ∈ l, a ∈ A) → ∃ r, Q.logPredictSeq s l = .ok (r, s) ∧
      Real.exp r = (l.map fun a => probOf (Q.logPredict s a)).prod) ∧
    ∀ n, ((wordsOf A n).map fun l => probOf (Q.logPredictSeq s l)).sum = 1 := by
  have h1 : ∀ l : List α, (∀ a ∈ l, a ∈ A) → ∃ r, Q.logPredictSeq s l = .ok (r, s) ∧
      Real.exp r = (l.map fun a => probOf (Q.logPredict s a)).prod := by
    intro l hl
    induction l with
    | nil => exact ⟨0, rfl, by simp⟩
    | cons a l ih =>
      obtain ⟨r, hr, he⟩ := ih fun b hb => hl b (List.mem_cons_of_mem _ hb)
      obtain ⟨q, t, hq, -⟩ := hP.predict_ok s a [] hs (hl a (by simp))
      change Q.logPredict s a = _ at hq
      obtain rfl := hpure s a q t hs hq
      refine ⟨q + r, ?_, ?_⟩
      · rw [ProbSeq.logPredictSeq] at hr
        rw [ProbSeq.logPredictSeq, ProbSeq.logPredictSeqLoop, hq, ok_bind]
        change Q.logPredictSeqLoop t l (0 + q) = _
        rw [logPredictSeqLoop_acc, hr]
        simp [Except.map]
      · rw [List.map_cons, List.prod_cons, hq, Real.exp_add, he]; rfl
  refine ⟨h1, fun n => ?_⟩
  have h2 : ∀ l ∈ wordsOf A n, probOf (Q.logPredictSeq s l) = (l.map fun a => probOf (Q.logPredict s a)).prod := by
    intro l hl
    obtain ⟨r, hr, he⟩ := h1 l (mem_wordsOf.1 hl).2
    rw [hr, ← he]; rfl
  rw [List.map_congr_left h2]
  clear h2
  induction n with
  | zero => simp [wordsOf]
  | succ n ih =>
    rw [sum_wordsOf]
    simp only [List.map_cons, List.prod_cons, List.sum_map_mul_left, ih, mul_one]
    exact hP.normalised s [] hs

end Seq

section CTWSeq

variable {σ α : Type} [DecidableEq α] {Q : ProbSeq σ α} {fresh : σ} (d : ℕ) (zero : α)

/-- **C80 (CTW.log_predict_seq).** `ctw.CTW.log_predict_seq` returns what `log_predict_seq` of a `model.CTW` with the same
updates returns when given the history, and the history of the model is not changed. -/
theorem C80_CTW_log_predict_seq (hQ : Q.Tracks) (hL : ∀ s a r t, Q.logPredict s a = .ok (r, t) → Q.lp t = Q.lp s)
    (hf : Q.lp fresh = 0) (xs : List (Obs α)) (r : ℝ) (s : CCTW σ α)
    (hr : (CCTW.probSeq Q fresh d zero).toPredictor.run (CCTW.init fresh) xs = .ok (r, s)) (seq : List α) :
    ∃ m, (CTW.predictor Q.toPredictor fresh (recent d zero)).run (CTW.init fresh) (addHist [] xs) = .ok (r, m) ∧
      s.history = xs.map Obs.sym ∧
      (s.logPredictSeq Q fresh d zero seq).map Prod.fst =
        ((CTW.predictor Q.toPredictor fresh (recent d zero)).logPredictSeqLoop m seq s.history 0).map Prod.fst ∧
      ∀ q t, s.logPredictSeq Q fresh d zero seq = .ok (q, t) → t.history = s.history := by
  rcases corrRes_cases (CCTW.run_corr (zero := zero) (s := CCTW.init fresh) hQ hf (.new hf d) xs) with
    ⟨e, h1, -⟩ | ⟨r', s', m, h1, h2, h3, h4⟩
  · rw [hr] at h1; simp at h1
  · rw [hr] at h1
    simp only [Except.ok.injEq, Prod.mk.injEq] at h1
    obtain ⟨rfl, rfl⟩ := h1
    refine ⟨m, h2, by simpa [CCTW.init] using h4, ?_, ?_⟩
    · have key : ∀ (seq : List α) (t : CCTWNode σ α) (m : CTWNode σ α) (h : List α) (rv : ℝ), CCTWNode.Rel Q d t m →
          (CCTW.logPredictSeqLoop Q fresh d zero t h seq rv).map Prod.fst =
            ((CTW.predictor Q.toPredictor fresh (recent d zero)).logPredictSeqLoop m seq h rv).map Prod.fst := by
        intro seq
        induction seq with
        | nil => intro t m h rv _; rfl
        | cons a seq ih =>
          intro t m h rv hrel
          simp only [CCTW.logPredictSeqLoop, Predictor.logPredictSeqLoop]
          have hc := CCTW.corr_predict (zero := zero) hL hf (s := ⟨t, h⟩) hrel a
          simp only [CCTW.logPredict] at hc
          cases ht : t.logPredict Q fresh a d (CTW.mkcontext d zero h).reverse with
          | error e =>
            rw [ht, error_bind] at hc
            rcases corrRes_cases hc with ⟨e', g1, g2⟩ | ⟨r1, s1, m1, g1, -, -⟩
            · simp only [Except.error.injEq] at g1
              rw [g2, ← g1]; rfl
            · cases g1
          | ok p =>
            obtain ⟨q, t'⟩ := p
            rw [ht, ok_bind] at hc
            rcases corrRes_cases hc with ⟨e', g1, -⟩ | ⟨r1, s1, m1, g1, g2, g3⟩
            · cases g1
            · simp only [pure_eq_ok, Except.ok.injEq, Prod.mk.injEq] at g1
              obtain ⟨rfl, rfl⟩ := g1
              rw [g2, ok_bind, ok_bind]
              exact ih t' m1 (h ++ [a]) (rv + q) g3.1
      rw [← key seq s.tree m s.history 0 h3, CCTW.logPredictSeq]
      cases CCTW.logPredictSeqLoop Q fresh d zero s.tree s.history seq 0 with
      | error e => rfl
      | ok p => rfl
    · intro q t ht
      simp only [CCTW.logPredictSeq, bind_eq_ok, pure_eq_ok, Except.ok.injEq, Prod.mk.injEq, Prod.exists] at ht
      obtain ⟨-, -, -, -, rfl⟩ := ht
      rfl

/-- **C80 (CTW.log_predict_seq, total probability).** Over a lawful base model these probabilities sum to one over all sequences
of one length. -/
theorem C80_CTW_log_predict_seq_total (hQ : Q.Tracks) (hL : ∀ s a r t, Q.logPredict s a = .ok (r, t) → Q.lp t = Q.lp s)
    (hf : Q.lp fresh = 0) (I : σ → Prop) (A : List α) (W : ℝ → Prop) (hP : Q.toPredictor.Lawful I A W) (hI : I fresh)
    (s : CCTW σ α) (hr : Reach (CCTW.probSeq Q fresh d zero).toPredictor A W (CCTW.init fresh) s) (n : ℕ) :
    ((wordsOf A n).map fun l => probOf (s.logPredictSeq Q fresh d zero l)).sum = 1 := by
  have hlaw := CCTW.lawful (d := d) (zero := zero) hQ hL hf hP
  obtain ⟨m0, hm0⟩ := hlaw.reach (s := CCTW.init fresh) ⟨_, .new hf d, CTWNode.WF.new hI d⟩ hr
  have key : ∀ (n : ℕ) (t : CCTWNode σ α) (h : List α) (x : ℝ),
      (∃ m, CCTWNode.Rel Q d t m ∧ CTWNode.WF fresh I d m) →
      ((wordsOf A n).map fun l => probOf (CCTW.logPredictSeqLoop Q fresh d zero t h l x)).sum = Real.exp x := by
    intro n
    induction n with
    | zero => intro t h x _; simp [wordsOf, CCTW.logPredictSeqLoop, pure_eq_ok, probOf]
    | succ n ih =>
      intro t h x hm
      rw [sum_wordsOf]
      have hnorm := hlaw.normalised ⟨t, h⟩ [] hm
      rw [← mul_one (Real.exp x), ← hnorm, ← List.sum_map_mul_left]
      congr 1
      refine List.map_congr_left fun a ha => ?_
      obtain ⟨r, s', h1, h2⟩ := hlaw.predict_ok ⟨t, h⟩ a [] hm ha
      rw [h1]
      change CCTW.logPredict Q fresh d zero ⟨t, h⟩ a = _ at h1
      simp only [CCTW.logPredict, bind_eq_ok, pure_eq_ok, Except.ok.injEq, Prod.mk.injEq, Prod.exists] at h1
      obtain ⟨r1, t1, h3, rfl, rfl⟩ := h1
      simp only [CCTW.logPredictSeqLoop, h3, ok_bind]
      rw [ih t1 (h ++ [a]) (x + r1) h2, Real.exp_add]
      rfl
  have := key n s.tree s.history 0 ⟨m0, hm0⟩
  rw [Real.exp_zero] at this
  rw [← this]
  congr 1
  refine List.map_congr_left fun l _ => ?_
  rw [CCTW.logPredictSeq]
  cases CCTW.logPredictSeqLoop Q fresh d zero s.tree s.history l 0 with
  | error e => rfl
  | ok p => rfl

end CTWSeq

/-- **C80 (difference).** For a new `ctw.KT()` and the sequence `0 0`, `update_seq` gives probability 3/8 and `log_predict_seq`
gives 1/4. -/
theorem C80_log_predict_seq_not_joint :
    probOf ((CKT.probSeq (α := ℕ)).updateSeq ⟨[(0, 1/2), (1, 1/2)], 0⟩ [0, 0] 1) = 3/8 ∧
    probOf ((CKT.probSeq (α := ℕ)).logPredictSeq ⟨[(0, 1/2), (1, 1/2)], 0⟩ [0, 0]) = 1/4 := by
  have h1 : ∀ x, CKT.logPredict (α := ℕ) ⟨[(0, 1/2), (1, 1/2)], x⟩ 0 = .ok (Real.log (1/2)) := by
    intro x
    simp only [CKT.logPredict, PyDict.getE, PyDict.get?, if_true, ok_bind, PyDict.values, List.map_cons, List.map_nil, List.sum_cons,
      List.sum_nil]
    rw [pyLog_of_pos (by norm_num), ok_bind, pyLog_of_pos (by norm_num), ok_bind, pure_eq_ok]
    norm_num
  have h2 : ∀ x, CKT.logPredict (α := ℕ) ⟨[(0, 1/2 + 1), (1, 1/2)], x⟩ 0 = .ok (Real.log (3/2) - Real.log 2) := by
    intro x
    simp only [CKT.logPredict, PyDict.getE, PyDict.get?, if_true, ok_bind, PyDict.values, List.map_cons, List.map_nil, List.sum_cons,
      List.sum_nil]
    rw [pyLog_of_pos (by norm_num), ok_bind, pyLog_of_pos (by norm_num), ok_bind, pure_eq_ok]
    norm_num
  constructor
  · simp only [ProbSeq.updateSeq, ProbSeq.updateSeqLoop, CKT.probSeq, CKT.update, h1, ok_bind, PyDict.getE, PyDict.get?, if_true,
      pure_eq_ok, PyDict.set, h2, probOf]
    rw [show (0 : ℝ) + Real.log (1/2) + (Real.log (3/2) - Real.log 2) - 0 = Real.log (3/8) by
      rw [← Real.log_div (by norm_num) (by norm_num), zero_add, sub_zero, ← Real.log_mul (by norm_num) (by norm_num)]
      norm_num]
    rw [Real.exp_log (by norm_num)]
  · simp only [ProbSeq.logPredictSeq, ProbSeq.logPredictSeqLoop, CKT.probSeq, h1, ok_bind, pure_eq_ok, probOf]
    rw [zero_add, Real.exp_add, Real.exp_log (by norm_num)]
    norm_num

/-- `ctw.KT` meets the hypotheses above. -/
example : (CKT.probSeq (α := ℕ)).Tracks ∧ ∃ I : CKT ℕ → Prop,
    (CKT.probSeq (α := ℕ)).toPredictor.Lawful I [0, 1] (fun w => 0 ≤ w) ∧
      (∀ s a r t, I s → CKT.probSeq.logPredict s a = .ok (r, t) → t = s) :=
  ⟨CKT.tracks, _, CKT.lawful (by decide) (by decide), fun s a r t _ h => by
    simp only [CKT.probSeq, bind_eq_ok, pure_eq_ok, Except.ok.injEq, Prod.mk.injEq] at h
    obtain ⟨_, _, _, rfl⟩ := h
    rfl⟩

/-! ## C82 -/

namespace CSAD

variable {α : Type} [DecidableEq α]

/-- The `model.SAD` with the same counts. -/
def abs (s : CSAD α) : SAD α := ⟨s.n, s.counts, s.t⟩

theorem hom : Hom (probSeq (α := α)).toPredictor SAD.predictor id (fun _ => True) (fun s t => t = s.abs) where
  update := by
    rintro s _ a h w rfl -
    change CorrRes _ (s.update a w) (s.abs.update a w)
    have h1 : s.abs.logPredict a = s.logPredict a := rfl
    rw [CSAD.update, SAD.update, h1]
    cases s.logPredict a with
    | error e => rfl
    | ok r =>
      simp only [ok_bind]
      have h2 : s.abs.counts = s.counts := rfl
      rw [h2]
      cases PyDict.getE (match s.counts.get? a with
        | some _ => s.counts
        | none => s.counts.set a 0) a with
      | error e => rfl
      | ok c => exact ⟨rfl, rfl⟩
  predict := by
    rintro s _ a h rfl
    change CorrRes _ (s.logPredict a >>= _) (s.abs.logPredict a >>= _)
    have h1 : s.abs.logPredict a = s.logPredict a := rfl
    rw [h1]
    cases s.logPredict a with
    | error e => rfl
    | ok r => exact ⟨rfl, rfl⟩

end CSAD

/-- **C82.** `ctw.SAD(n)` returns what `model.SAD(n)` returns, exceptions included, in any sequence of updates and predictions,
and its `log_prob` is the sum of what the updates returned. -/
theorem C82_ctw_SAD_eq_model_SAD {α : Type} [DecidableEq α] (n : ℤ) (cs : List (Call α)) :
    (CSAD.probSeq (α := α)).toPredictor.outputs (CSAD.init n) cs = SAD.predictor.outputs (SAD.init n) cs ∧
    (CSAD.probSeq (α := α)).Tracks ∧
    ∀ xs r s, (CSAD.probSeq (α := α)).toPredictor.run (CSAD.init n) xs = .ok (r, s) → s.logProb = r := by
  have htr : (CSAD.probSeq (α := α)).Tracks := by
    intro s a w r s' hu
    simp only [CSAD.probSeq, CSAD.update, bind_eq_ok, pure_eq_ok, Except.ok.injEq, Prod.mk.injEq] at hu
    obtain ⟨rv, -, c, -, rfl, rfl⟩ := hu
    rfl
  refine ⟨?_, htr, ?_⟩
  · have := CSAD.hom.outputs_eq (s := CSAD.init n) (t := SAD.init n) rfl cs (fun c _ => by cases c <;> trivial)
    rwa [map_call_id] at this
  · have key : ∀ (xs : List (Obs α)) (s0 s : CSAD α) (r : ℝ),
        (CSAD.probSeq (α := α)).toPredictor.run s0 xs = .ok (r, s) → s.logProb = s0.logProb + r := by
      intro xs
      induction xs with
      | nil =>
        intro s0 s r h
        simp only [run, pure_eq_ok, Except.ok.injEq, Prod.mk.injEq] at h
        rw [← h.1, ← h.2, add_zero]
      | cons o xs ih =>
        intro s0 s r h
        simp only [run, bind_eq_ok, pure_eq_ok, Except.ok.injEq, Prod.mk.injEq, Prod.exists] at h
        obtain ⟨r1, s1, h1, r2, s2, h2, rfl, rfl⟩ := h
        have := htr s0 o.sym o.weight r1 s1 h1
        change s1.logProb = s0.logProb + r1 at this
        rw [ih s1 s2 r2 h2, this, add_assoc]
    intro xs r s h
    rw [key xs _ s r h]
    simp [CSAD.init]

/-! ## C83 -/

/-- What a `model.CTW` returns when its caller keeps the history in a variable `h`, and appends to it after each update if `own`
is set; `reset` is refused when it is not set. -/
noncomputable def handed {τ α : Type} (P : Predictor τ α) : τ → List α → Bool → List (CCTW.HOp α) → List (Py (Option ℝ × List α))
  | _, _, _, [] => []
  | m, _, _, .useHistory h own :: os => .ok (none, h) :: handed P m h own os
  | m, _, own, .change h :: os => .ok (none, h) :: handed P m h own os
  | m, _, true, .reset :: os => .ok (none, []) :: handed P m [] true os
  | _, _, false, .reset :: _ => [.error .assertionError]
  | m, h, own, .update a w :: os =>
    match P.update m a h w with
    | .error e => [.error e]
    | .ok (r, m') =>
      let h' := if own then h ++ [a] else h
      .ok (some r, h') :: handed P m' h' own os
  | m, h, own, .predict a :: os =>
    match P.logPredict m a h with
    | .error e => [.error e]
    | .ok (r, m') => .ok (some r, h) :: handed P m' h own os

/-- **C83.** A `ctw.CTW` returns what a `model.CTW` returns that is handed the present content of the history list, whether the
list is its own or was set with `use_history`, whatever the caller does to that list between the calls.  It appends to the list
if and only if it owns it, and `reset_history` raises `AssertionError` if it does not. -/
theorem C83_use_history {σ α : Type} [DecidableEq α] (Q : ProbSeq σ α) (fresh : σ) (d : ℕ) (zero : α) (hQ : Q.Tracks)
    (hL : ∀ s a r t, Q.logPredict s a = .ok (r, t) → Q.lp t = Q.lp s) (hf : Q.lp fresh = 0) (os : List (CCTW.HOp α)) :
    CCTW.Shared.outputs Q fresh d zero ⟨CCTW.init fresh, true⟩ os =
      handed (CTW.predictor Q.toPredictor fresh (recent d zero)) (CTW.init fresh) [] true os := by
  suffices h : ∀ (os : List (CCTW.HOp α)) (s : CCTW.Shared σ α) (m : CTWNode σ α), CCTWNode.Rel Q d s.ctw.tree m →
      CCTW.Shared.outputs Q fresh d zero s os =
        handed (CTW.predictor Q.toPredictor fresh (recent d zero)) m s.ctw.history s.own os from
    h os ⟨CCTW.init fresh, true⟩ _ (.new hf d)
  intro os
  induction os with
  | nil => intro s m _; rfl
  | cons o os ih =>
    intro s m hr
    obtain ⟨⟨t, h⟩, own⟩ := s
    cases o with
    | useHistory h' own' => simp only [CCTW.Shared.outputs, CCTW.Shared.step, pure_eq_ok, handed, ih ⟨⟨t, h'⟩, own'⟩ m hr]
    | change h' => simp only [CCTW.Shared.outputs, CCTW.Shared.step, pure_eq_ok, handed, ih ⟨⟨t, h'⟩, own⟩ m hr]
    | reset =>
      cases own with
      | false => simp [CCTW.Shared.outputs, CCTW.Shared.step, handed]
      | true =>
        simp only [CCTW.Shared.outputs, CCTW.Shared.step, pure_eq_ok, handed, if_true, ih ⟨⟨t, []⟩, true⟩ m hr]
    | update a w =>
      have hc := CCTW.corr_update (zero := zero) hQ hf (s := ⟨t, h⟩) hr a w
      simp only [CCTW.update] at hc
      simp only [CCTW.Shared.outputs, CCTW.Shared.step, handed]
      cases ht : t.update Q fresh a w d (CTW.mkcontext d zero h).reverse with
      | error e =>
        rw [ht, error_bind] at hc
        rcases corrRes_cases hc with ⟨e', g1, g2⟩ | ⟨r1, s1, m1, g1, -, -⟩
        · simp only [Except.error.injEq] at g1
          rw [g2, ← g1]; rfl
        · cases g1
      | ok t' =>
        rw [ht, ok_bind] at hc
        rcases corrRes_cases hc with ⟨e', g1, -⟩ | ⟨r1, s1, m1, g1, g2, g3⟩
        · cases g1
        · simp only [pure_eq_ok, Except.ok.injEq, Prod.mk.injEq] at g1
          obtain ⟨rfl, rfl⟩ := g1
          rw [g2]
          simp only [ok_bind, pure_eq_ok]
          rw [ih ⟨⟨t', if own then h ++ [a] else h⟩, own⟩ m1 g3.1]
    | predict a =>
      have hc := CCTW.corr_predict (zero := zero) hL hf (s := ⟨t, h⟩) hr a
      simp only [CCTW.logPredict] at hc
      simp only [CCTW.Shared.outputs, CCTW.Shared.step, handed]
      cases ht : t.logPredict Q fresh a d (CTW.mkcontext d zero h).reverse with
      | error e =>
        rw [ht, error_bind] at hc
        rcases corrRes_cases hc with ⟨e', g1, g2⟩ | ⟨r1, s1, m1, g1, -, -⟩
        · simp only [Except.error.injEq] at g1
          rw [g2, ← g1]; rfl
        · cases g1
      | ok p =>
        obtain ⟨q, t'⟩ := p
        rw [ht, ok_bind] at hc
        rcases corrRes_cases hc with ⟨e', g1, -⟩ | ⟨r1, s1, m1, g1, g2, g3⟩
        · cases g1
        · simp only [pure_eq_ok, Except.ok.injEq, Prod.mk.injEq] at g1
          obtain ⟨rfl, rfl⟩ := g1
          rw [g2]
          simp only [ok_bind, pure_eq_ok]
          rw [ih ⟨⟨t', h⟩, own⟩ m1 g3.1]

/-- A session in which the list is shared, changed by its owner and then released; `ctw.KT` meets the hypotheses. -/
example (s0 : CKT ℕ) (h0 : s0.logProb = 0) :
    let os : List (CCTW.HOp ℕ) := [.update 1 1, .useHistory [0, 1] false, .update 0 1, .change [0, 1, 0], .predict 1, .reset]
    CCTW.Shared.outputs CKT.probSeq s0 2 0 ⟨CCTW.init s0, true⟩ os =
      handed (CTW.predictor CKT.probSeq.toPredictor s0 (recent 2 0)) (CTW.init s0) [] true os :=
  C83_use_history CKT.probSeq s0 2 0 CKT.tracks (fun s a r t h => by
    simp only [CKT.probSeq, bind_eq_ok, pure_eq_ok, Except.ok.injEq, Prod.mk.injEq] at h
    obtain ⟨_, _, _, rfl⟩ := h
    rfl) h0 _

end Verif
