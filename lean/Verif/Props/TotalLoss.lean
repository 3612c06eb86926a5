import Verif.Model.LearnersBase
import Verif.Props.LearnersMore
import Verif.Props.CtwSeq

/-!
# C159: the total loss of learners

In every program of updates, predictions and resets.
-/

namespace Verif

/-- A call of a method of a learner. -/
inductive LCall (α : Type)
  | update (a : α) | logPredict (a : α) | predict (a : α) | reset

/-- What a call returned. -/
inductive LOut
  | updated (r : ℝ) | logPredicted (r : ℝ) | predicted (p : ℝ) | done

namespace TotalLoss

variable {σ α : Type}

/-- One call. -/
noncomputable def call (L : Learner σ α) (s : σ) : LCall α → Py (LOut × σ)
  | .update a => do
    let (r, s') ← L.update s a
    pure (.updated r, s')
  | .logPredict a => do
    let (r, s') ← L.logPredict s a
    pure (.logPredicted r, s')
  | .predict a => do
    let (r, s') ← L.predict s a
    pure (.predicted r, s')
  | .reset => do
    let s' ← L.reset s
    pure (.done, s')

/-- A program of calls. -/
noncomputable def program (L : Learner σ α) : σ → List (LCall α) → Py (List LOut × σ)
  | s, [] => pure ([], s)
  | s, c :: cs => do
    let (o, s') ← call L s c
    let (os, t) ← program L s' cs
    pure (o :: os, t)

/-- The loss that a caller has seen: the sum of the losses that the updates returned since the last reset, where `before` was seen before. -/
noncomputable def seen : ℝ → List LOut → ℝ
  | before, [] => before
  | before, .updated r :: os => seen (before + -r) os
  | _, .done :: os => seen 0 os
  | before, .logPredicted _ :: os => seen before os
  | before, .predicted _ :: os => seen before os

theorem program_seen {L : Learner σ α} (hu : ∀ s a r s', L.update s a = .ok (r, s') → L.logProb s' = L.logProb s + r)
    (hp : ∀ s a r s', L.logPredict s a = .ok (r, s') → L.logProb s' = L.logProb s) (hr : ∀ s s', L.reset s = .ok s' → L.logProb s' = 0) :
    ∀ (cs : List (LCall α)) (s : σ) (os : List LOut) (t : σ), program L s cs = .ok (os, t) → L.totalLoss t = seen (L.totalLoss s) os := by
  intro cs
  induction cs with
  | nil =>
    intro s os t h
    simp only [program, pure_eq_ok, Except.ok.injEq, Prod.mk.injEq] at h
    obtain ⟨rfl, rfl⟩ := h
    rfl
  | cons c cs ih =>
    intro s os t h
    simp only [program, bind_eq_ok, pure_eq_ok, Except.ok.injEq, Prod.mk.injEq, Prod.exists] at h
    obtain ⟨o, s', h1, os', t', h2, rfl, rfl⟩ := h
    have h3 := ih s' os' t' h2
    cases c with
    | update a =>
      simp only [call, bind_eq_ok, pure_eq_ok, Except.ok.injEq, Prod.mk.injEq, Prod.exists] at h1
      obtain ⟨r, u, h4, rfl, rfl⟩ := h1
      rw [seen, h3, Learner.totalLoss, Learner.totalLoss, hu _ _ _ _ h4, neg_add]
    | logPredict a =>
      simp only [call, bind_eq_ok, pure_eq_ok, Except.ok.injEq, Prod.mk.injEq, Prod.exists] at h1
      obtain ⟨r, u, h4, rfl, rfl⟩ := h1
      rw [seen, h3, Learner.totalLoss, Learner.totalLoss, hp _ _ _ _ h4]
    | predict a =>
      simp only [call, Learner.predict, bind_eq_ok, pure_eq_ok, Except.ok.injEq, Prod.mk.injEq, Prod.exists] at h1
      obtain ⟨r, u, ⟨r', u', h4, rfl, rfl⟩, rfl, rfl⟩ := h1
      rw [seen, h3, Learner.totalLoss, Learner.totalLoss, hp _ _ _ _ h4]
    | reset =>
      simp only [call, bind_eq_ok, pure_eq_ok, Except.ok.injEq, Prod.mk.injEq] at h1
      obtain ⟨u, h4, rfl, rfl⟩ := h1
      rw [seen, h3, Learner.totalLoss, hr _ _ h4, neg_zero]

end TotalLoss

open TotalLoss

/-- **C159 (KT).** After any program of calls that do not raise, `total_loss` of a `learners.KT` is minus the sum of what `update` has
returned since it was made or reset. -/
theorem C159_KT {α : Type} [DecidableEq α] (A : List α) (s0 : LKT α) (h0 : LKT.init A = .ok s0) (cs : List (LCall α)) (os : List LOut)
    (t : LKT α) (h : program (LKT.learner A) s0 cs = .ok (os, t)) : (LKT.learner A).totalLoss t = seen 0 os := by
  have e : (LKT.learner A).totalLoss s0 = 0 := by
    simp only [LKT.init, bind_eq_ok, pure_eq_ok, Except.ok.injEq] at h0
    obtain ⟨d, -, rfl⟩ := h0
    simp [Learner.totalLoss, LKT.learner]
  rw [← e]
  refine program_seen ?_ ?_ ?_ cs s0 os t h
  · intro s a r s' h
    simp only [LKT.learner, LKT.update, bind_eq_ok, pure_eq_ok, Except.ok.injEq, Prod.mk.injEq] at h
    obtain ⟨d, -, c, -, rfl, rfl⟩ := h
    rfl
  · intro s a r s' h
    simp only [LKT.learner, bind_eq_ok, pure_eq_ok, Except.ok.injEq, Prod.mk.injEq] at h
    obtain ⟨d, -, rfl, rfl⟩ := h
    rfl
  · intro s s' h
    simp only [LKT.learner, LKT.reset, bind_eq_ok, pure_eq_ok, Except.ok.injEq] at h
    obtain ⟨d, -, rfl⟩ := h
    rfl

/-- **C159 (predict).** `predict` of a `learners.KT` with positive counts returns the count of the symbol over the number of symbols seen plus one, and
changes nothing; a symbol without a count raises KeyError. -/
theorem C159_predict {α : Type} [DecidableEq α] (A : List α) (s : LKT α) (a : α) :
    (∀ c, s.counts.get? a = some c → 0 < c → (LKT.learner A).predict s a = .ok (c / (s.numSteps + 1), s)) ∧
      (s.counts.get? a = none → (LKT.learner A).predict s a = .error .keyError) := by
  constructor
  · intro c hc h
    have hn : (0 : ℝ) < (s.numSteps : ℝ) + 1 := by positivity
    simp only [Learner.predict, LKT.learner, LKT.logPredict, PyDict.getE, hc, pyLog, if_pos h, if_pos hn, ok_bind, pure_eq_ok]
    rw [Real.exp_sub, Real.exp_log h, Real.exp_log hn]
  · intro hc
    simp only [Learner.predict, LKT.learner, LKT.logPredict, PyDict.getE, hc]
    rfl

/-- **C159 (PTW).** The same for a `learners.PTW` over any base models. (`reset` does not make it new, C69; the sum is still right.) -/
theorem C159_PTW {σ α : Type} (P : Predictor σ α) (fresh : σ) (depth : ℕ) (s0 : LPTW σ) (h0 : LPTW.init fresh depth = .ok s0)
    (cs : List (LCall α)) (os : List LOut) (t : LPTW σ) (h : program (LPTW.learner P fresh) s0 cs = .ok (os, t)) :
    (LPTW.learner P fresh).totalLoss t = seen 0 os := by
  have e : (LPTW.learner P fresh).totalLoss s0 = 0 := by
    simp only [LPTW.init, ne_eq, not_true_eq_false, if_false, Except.ok.injEq] at h0
    subst h0
    simp [Learner.totalLoss, LPTW.learner]
  rw [← e]
  refine program_seen ?_ ?_ ?_ cs s0 os t h
  · intro s a r s' h
    simp only [LPTW.learner, LPTW.update] at h
    split_ifs at h
    simp only [bind_eq_ok, pure_eq_ok, Except.ok.injEq, Prod.mk.injEq, Prod.exists] at h
    obtain ⟨d1, -, x, lp, -, part, complete, -, c1, -, d2, c2, -, rfl, rfl⟩ := h
    simp [LPTW.learner]
  · intro s a r s' h
    simp only [LPTW.learner, LPTW.logPredict, bind_eq_ok, pure_eq_ok, Except.ok.injEq, Prod.mk.injEq, Prod.exists] at h
    obtain ⟨q, u, -, pred, d, -, rfl, rfl⟩ := h
    rfl
  · intro s s' h
    simp only [LPTW.learner, Except.ok.injEq] at h
    subst h
    rfl

/-- **C159 (ctw.py has the other sign).** In ctw.py `total_loss` of an object is the sum of what `update` has returned: the logarithm of the
probability, which is minus the loss. -/
theorem C159_ctw {σ α : Type} (Q : ProbSeq σ α) (hQ : Q.Tracks) (s0 t : σ) (h0 : Q.lp s0 = 0) (xs : List (Obs α)) (r : ℝ)
    (h : Q.toPredictor.run s0 xs = .ok (r, t)) : Q.totalLoss t = r := by
  have key : ∀ (xs : List (Obs α)) (s : σ) (r : ℝ), Q.toPredictor.run s xs = .ok (r, t) → Q.lp t = Q.lp s + r := by
    intro xs
    induction xs with
    | nil =>
      intro s r h
      simp only [Predictor.run, pure_eq_ok, Except.ok.injEq, Prod.mk.injEq] at h
      obtain ⟨rfl, rfl⟩ := h
      simp
    | cons o xs ih =>
      intro s r h
      obtain ⟨r1, s1, r2, h1, h2, rfl⟩ := Predictor.run_cons_ok.mp h
      rw [ih s1 r2 h2, hQ _ _ _ _ _ h1]
      ring
  rw [ProbSeq.totalLoss, key xs s0 r h, h0, zero_add]

/-- **C159 (ctw.py, witness).** After one bit, the `total_loss` of a `ctw.KT` is `- log 2`, and that of a `learners.KT` is `log 2`. -/
theorem C159_ctw_sign : ∃ (r : ℝ) (t : CKT Bool) (r' : ℝ) (t' : LKT Bool),
    (CKT.probSeq (α := Bool)).update ⟨[(false, 1 / 2), (true, 1 / 2)], 0⟩ true 1 = .ok (r, t) ∧ CKT.probSeq.totalLoss t = -Real.log 2 ∧
    LKT.update ⟨[(false, 1 / 2), (true, 1 / 2)], 0, 0⟩ true = .ok (r', t') ∧ (LKT.learner [false, true]).totalLoss t' = Real.log 2 := by
  refine ⟨Real.log (1 / 2) - Real.log 1, ⟨[(false, 1 / 2), (true, 1 / 2 + 1)], 0 + (Real.log (1 / 2) - Real.log 1)⟩,
    Real.log (1 / 2) - Real.log (0 + 1), ⟨[(false, 1 / 2), (true, 1 / 2 + 1)], 1, 0 + (Real.log (1 / 2) - Real.log (0 + 1))⟩, ?_, ?_, ?_, ?_⟩
  · norm_num [CKT.probSeq, CKT.update, CKT.logPredict, PyDict.getE, PyDict.get?, PyDict.set, PyDict.values, pyLog, ok_bind, pure_eq_ok]
  · simp [ProbSeq.totalLoss, CKT.probSeq]
  · norm_num [LKT.update, LKT.logPredict, PyDict.getE, PyDict.get?, PyDict.set, pyLog, ok_bind, pure_eq_ok]
  · simp [Learner.totalLoss, LKT.learner]

/-- **C159 (learners.SAD cannot be used).** On every object of `learners.SAD`, new or reset, `update` raises NameError and `log_predict` and
`predict` AttributeError for every symbol; `total_loss` raises AttributeError until `reset` is called and is zero from then on. -/
theorem C159_SAD {α : Type} (n : ℕ) (a : α) :
    (∀ s : LSAD, s.update a = .error .nameError ∧ s.logPredict a = .error .attributeError ∧
      (Learner.predict (α := α) ⟨LSAD.update, LSAD.logPredict, fun s => .ok s.reset, fun s => s.logProb.getD 0⟩ s a) =
        .error .attributeError) ∧
      (LSAD.init n).totalLoss = .error .attributeError ∧ ∀ s : LSAD, s.reset.totalLoss = .ok 0 :=
  ⟨fun _ => ⟨rfl, rfl, rfl⟩, rfl, fun s => by simp [LSAD.reset, LSAD.totalLoss]⟩

/-- **C159 (from_sequence cannot be used).** Whatever the class, its arguments and the sequence: `from_sequence` raises, NameError if the
object could be made and otherwise what making it raises. -/
theorem C159_from_sequence {σ : Type} (construct : Py σ) :
    (∀ s, construct = .ok s → Learner.fromSequence construct = .error .nameError) ∧
      ∀ e, construct = .error e → Learner.fromSequence construct = .error e := by
  constructor
  · rintro s rfl
    rfl
  · rintro e rfl
    rfl

/-- An update, a prediction, a reset and an update of a `learners.KT` of bits: each update returns `log (1/2)`, and the total loss at the end
is `log 2`. -/
example : ∃ (s0 t : LKT Bool) (os : List LOut), LKT.init [false, true] = .ok s0 ∧
    program (LKT.learner [false, true]) s0 [.update true, .predict false, .reset, .update false] = .ok (os, t) ∧
    os.length = 4 ∧ (LKT.learner [false, true]).totalLoss t = Real.log 2 := by
  have h0 : LKT.init [false, true] = .ok ⟨[(false, 1 / 2), (true, 1 / 2)], 0, 0⟩ := by
    norm_num [LKT.init, KT.comprehension, pyDiv, PyDict.set, ok_bind, pure_eq_ok]
  have h1 : LKT.update (⟨[(false, 1 / 2), (true, 1 / 2)], 0, 0⟩ : LKT Bool) true =
      .ok (Real.log (1 / 2) - Real.log (0 + 1), ⟨[(false, 1 / 2), (true, 1 / 2 + 1)], 1, 0 + (Real.log (1 / 2) - Real.log (0 + 1))⟩) := by
    norm_num [LKT.update, LKT.logPredict, PyDict.getE, PyDict.get?, PyDict.set, pyLog, ok_bind, pure_eq_ok]
  have h2 : LKT.logPredict (⟨[(false, 1 / 2), (true, 1 / 2 + 1)], 1, 0 + (Real.log (1 / 2) - Real.log (0 + 1))⟩ : LKT Bool) false =
      .ok (Real.log (1 / 2) - Real.log (1 + 1)) := by
    norm_num [LKT.logPredict, PyDict.getE, PyDict.get?, pyLog, ok_bind, pure_eq_ok]
  have h3 : LKT.reset [false, true] (⟨[(false, 1 / 2), (true, 1 / 2 + 1)], 1, 0 + (Real.log (1 / 2) - Real.log (0 + 1))⟩ : LKT Bool) =
      .ok ⟨[(false, 1 / 2), (true, 1 / 2)], 0, 0⟩ := h0
  have h4 : LKT.update (⟨[(false, 1 / 2), (true, 1 / 2)], 0, 0⟩ : LKT Bool) false =
      .ok (Real.log (1 / 2) - Real.log (0 + 1), ⟨[(false, 1 / 2 + 1), (true, 1 / 2)], 1, 0 + (Real.log (1 / 2) - Real.log (0 + 1))⟩) := by
    norm_num [LKT.update, LKT.logPredict, PyDict.getE, PyDict.get?, PyDict.set, pyLog, ok_bind, pure_eq_ok]
  refine ⟨_, ⟨[(false, 1 / 2 + 1), (true, 1 / 2)], 1, 0 + (Real.log (1 / 2) - Real.log (0 + 1))⟩,
    [.updated (Real.log (1 / 2) - Real.log (0 + 1)), .predicted (Real.exp (Real.log (1 / 2) - Real.log (1 + 1))), .done,
      .updated (Real.log (1 / 2) - Real.log (0 + 1))], h0, ?_, rfl, ?_⟩
  · simp only [program, call, Learner.predict, LKT.learner, h1, h2, h3, h4, ok_bind, pure_eq_ok]
  · simp [Learner.totalLoss, LKT.learner]

end Verif
