import Verif.Model.Ctw
import Verif.Proofs.PTWRun

/-! `ctw.PTW` simulates `model.PTWFixedLength`. -/

namespace Verif

open Predictor

theorem logsumexp_two (a b : ℝ) : logsumexp [a, b] = .ok (logsumexp2 a b) := by
  rw [logsumexp_eq (by simp), logsumexp2_eq]
  simp

theorem correctL_eq (b : ℝ) (n : ℕ) (x : ℝ) : correctL b n x = .ok (PTWData.correct b n x) := by
  induction n generalizing x with
  | zero => rfl
  | succ n ih => simp only [correctL, logsumexp_two, ok_bind, ih, PTWData.correct]

theorem correct_self (b : ℝ) (n : ℕ) : PTWData.correct b n b = b := by
  induction n with
  | zero => rfl
  | succ n ih =>
    have : log05 + logsumexp2 b b = b := by
      rw [← Real.exp_eq_exp, exp_half_lse2]; ring
    rw [PTWData.correct, this, ih]

namespace ProbSeq

variable {σ α : Type}

/-- The attribute `log_prob` accumulates what `update` returns. -/
def Tracks (Q : ProbSeq σ α) : Prop := ∀ s a w r s', Q.update s a w = .ok (r, s') → Q.lp s' = Q.lp s + r

end ProbSeq

namespace CPNode

variable {σ α : Type} {Q : ProbSeq σ α} {fresh : σ}

/-- The corresponding data of a `model.PTW` node. -/
def absD (Q : ProbSeq σ α) (d : CPData σ) : PTWData σ := ⟨d.base, d.height, d.t, Q.lp d.base, d.leftLP, d.lp⟩

/-- The corresponding `model.PTW` node. -/
def abs (Q : ProbSeq σ α) : CPNode σ → PTWNode σ
  | leaf d => .leaf (absD Q d)
  | inner d r => .inner (absD Q d) (abs Q r)

@[simp] theorem data_leaf (d : CPData σ) : (leaf d).data = d := rfl
@[simp] theorem data_inner (d : CPData σ) (r : CPNode σ) : (inner d r).data = d := rfl

@[simp] theorem abs_data (n : CPNode σ) : (abs Q n).data = absD Q n.data := by cases n <;> rfl

/-- Shape invariant. -/
def WF : CPNode σ → Prop
  | leaf d => d.height = 0 ∧ d.t ≤ 1
  | inner d r => 1 ≤ d.height ∧ 2 ^ (d.height - 1) < d.t ∧ d.t ≤ 2 ^ d.height ∧ r.data.t ≠ 0 ∧ WF r

theorem WF.t_le {n : CPNode σ} (h : WF n) : n.data.t ≤ 2 ^ n.data.height := by
  cases n with
  | leaf d => obtain ⟨h1, h2⟩ := h; simp only [data, h1]; simpa using h2
  | inner d r => exact h.2.2.1

theorem WF.split {n : CPNode σ} (h : WF n) (ht : n.data.t ≠ 0) :
    n.data.atSplit = (absD Q n.data).complete := by
  rw [Bool.eq_iff_iff, PTWData.complete_iff]
  simp only [CPData.atSplit, decide_eq_true_eq, absD]
  rw [Nat.and_sub_one_eq_zero_iff_isPowerOfTwo ht]
  have hle := h.t_le
  constructor
  · rintro ⟨k, hk⟩
    cases n with
    | leaf d =>
      obtain ⟨h1, h2⟩ := h
      simp only [data] at *
      rw [h1]
      simp
      omega
    | inner d r =>
      obtain ⟨h1, h2, h3, _⟩ := h
      simp only [data] at *
      rw [hk] at h2 h3 ⊢
      have := (Nat.pow_lt_pow_iff_right (a := 2) (by norm_num)).mp h2
      exact Nat.pow_le_pow_right (by norm_num) (by omega)
  · intro h1
    exact ⟨n.data.height, le_antisymm hle h1⟩

theorem first_sim (hQ : Q.Tracks) (d : CPData σ) (a : α) (h : List α) (w : ℝ) :
    (first Q d a w).map (fun d' => PTWNode.leaf (absD Q d')) =
      PTWNode.leafUpdate Q.toPredictor (absD Q d) a h w := by
  simp only [first, PTWNode.leafUpdate, PTWData.baseStep, ProbSeq.toPredictor]
  cases hu : Q.update d.base a w with
  | error e => simp [absD, hu, bind, Except.bind, Except.map]
  | ok v =>
    obtain ⟨r, b⟩ := v
    simp [absD, hu, bind, Except.bind, Except.map, pure, Except.pure, hQ _ _ _ _ _ hu]

theorem finish_sim (d : CPData σ) (r : CPNode σ) :
    ∃ n', finish Q d r = .ok n' ∧ abs Q n' = PTWNode.combine (absD Q d) (abs Q r) ∧
      n'.data.height = d.height ∧ n'.data.t = d.t + 1 ∧ n'.data.base = d.base ∧ ∃ d', n' = inner d' r := by
  refine ⟨inner { d with
      lp := log05 + logsumexp2 (Q.lp d.base) (d.leftLP +
        PTWData.correct (Q.lp r.data.base) (d.height - r.data.height - 1) r.data.lp)
      t := d.t + 1 } r, ?_, ?_, rfl, rfl, rfl, _, rfl⟩
  · simp only [finish, correctL_eq, ok_bind, logsumexp_two, pure_eq_ok]
  · simp [abs, absD, PTWNode.combine]

theorem promote_sim (hQ : Q.Tracks) (hf : Q.lp fresh = 0) (d : CPData σ) (a : α) (h : List α) (w : ℝ) :
    (promote Q fresh d a w).map (abs Q) = PTWNode.promoted Q.toPredictor (.ok fresh) 0 (absD Q d) a h w := by
  have hfirst := first_sim hQ (CPData.new fresh) a h w
  have hnew : absD Q (CPData.new fresh) = PTWData.new fresh 0 := by simp [absD, CPData.new, PTWData.new, hf]
  rw [hnew] at hfirst
  simp only [promote, PTWNode.promoted, PTWData.baseStep, ProbSeq.toPredictor, ok_bind]
  cases hu : Q.update d.base a w with
  | error e => simp [absD, hu, bind, Except.bind, Except.map]
  | ok v =>
    obtain ⟨r, b⟩ := v
    have hl := hQ _ _ _ _ _ hu
    simp only [ok_bind, absD, hu, pure_eq_ok]
    change _ = (PTWNode.leafUpdate Q.toPredictor (PTWData.new fresh 0) a h w >>= _)
    rw [← hfirst]
    cases hr : first Q (CPData.new fresh) a w with
    | error e => simp [bind, Except.bind, Except.map]
    | ok d2 =>
      obtain ⟨n', k1, k2, _⟩ := finish_sim (Q := Q)
        { d with base := b, leftLP := d.lp, height := d.height + 1 } (leaf d2)
      simp only [ok_bind, k1, Except.map]
      rw [k2]
      simp [absD, abs, hl]

theorem update_sim (hQ : Q.Tracks) (hf : Q.lp fresh = 0) {n : CPNode σ} (hn : WF n) (a : α) (h : List α) (w : ℝ) :
    (n.update Q fresh a w).map (abs Q) = (abs Q n).update Q.toPredictor (.ok fresh) 0 a h w := by
  induction n with
  | leaf d =>
    simp only [update, abs, PTWNode.update]
    by_cases ht : d.t = 0
    · have hc : ¬ ((absD Q d).complete = true) := by
        rw [PTWData.not_complete_iff]
        simp [absD, ht]
      rw [if_pos ht, if_neg hc, ← first_sim hQ d a h w]
      cases first Q d a w <;> simp [bind, Except.bind, Except.map, pure, Except.pure, abs]
    · have hs := hn.split (Q := Q) ht
      simp only [data] at hs
      have hc : d.atSplit = true := by
        obtain ⟨h1, h2⟩ := hn
        rw [hs, PTWData.complete_iff]
        simp [absD, h1]; omega
      rw [if_neg ht, if_pos hc, if_pos (hs ▸ hc), promote_sim hQ hf]
  | inner d r ih =>
    have ht : d.t ≠ 0 := by
      exact Nat.ne_of_gt (lt_of_le_of_lt (Nat.zero_le _) hn.2.1)
    have hs := hn.split (Q := Q) ht
    simp only [data] at hs
    simp only [update, abs, PTWNode.update, if_neg ht, hs]
    by_cases hc : (absD Q d).complete = true
    · rw [if_pos hc, if_pos hc, promote_sim hQ hf]
    · rw [if_neg hc, if_neg hc]
      simp only [PTWData.baseStep, ProbSeq.toPredictor]
      cases hu : Q.update d.base a w with
      | error e => simp [absD, hu, bind, Except.bind, Except.map]
      | ok v =>
        obtain ⟨q, b⟩ := v
        have hl := hQ _ _ _ _ _ hu
        have ih' := ih hn.2.2.2.2
        simp only [ok_bind, absD, hu, pure_eq_ok]
        change _ = ((abs Q r).update Q.toPredictor (.ok fresh) 0 a h w >>= _)
        rw [← ih']
        cases hr : r.update Q fresh a w with
        | error e => simp [bind, Except.bind, Except.map]
        | ok r' =>
          obtain ⟨n', k1, k2, _⟩ := finish_sim (Q := Q) { d with base := b } r'
          simp only [ok_bind, k1, Except.map]
          rw [k2]
          simp [absD, hl]

/-- What `update` does to shape, height and time. -/
theorem update_shape {n : CPNode σ} (hn : WF n) {a : α} {w : ℝ} {n' : CPNode σ}
    (hu : n.update Q fresh a w = .ok n') :
    WF n' ∧ n'.data.t = n.data.t + 1 ∧
      n'.data.height = n.data.height + (if n.data.t ≠ 0 ∧ n.data.atSplit = true then 1 else 0) ∧
      ∃ r, Q.update n.data.base a w = .ok (r, n'.data.base) := by
  have hfirst : ∀ {d d' : CPData σ}, first Q d a w = .ok d' →
      d'.t = d.t + 1 ∧ d'.height = d.height ∧ ∃ r, Q.update d.base a w = .ok (r, d'.base) := by
    intro d d' hd
    simp only [first, bind_eq_ok, pure_eq_ok, Except.ok.injEq, Prod.exists] at hd
    obtain ⟨r, b, h1, rfl⟩ := hd
    exact ⟨rfl, rfl, r, h1⟩
  have hprom : ∀ {d : CPData σ}, d.t = 2 ^ d.height → promote Q fresh d a w = .ok n' →
      WF n' ∧ n'.data.t = d.t + 1 ∧ n'.data.height = d.height + 1 ∧ ∃ r, Q.update d.base a w = .ok (r, n'.data.base) := by
    intro d hd hp
    simp only [promote, bind_eq_ok, Prod.exists] at hp
    obtain ⟨r, b, h1, d2, h2, h3⟩ := hp
    obtain ⟨g1, g2, _⟩ := hfirst h2
    obtain ⟨n2, k1, _, k3, k4, k5, d3, rfl⟩ := finish_sim (Q := Q)
      { d with base := b, leftLP := d.lp, height := d.height + 1 } (leaf d2)
    rw [k1] at h3
    simp only [Except.ok.injEq] at h3
    subst h3
    simp only [data_inner] at k3 k4 k5
    refine ⟨⟨by omega, ?_, ?_, by rw [data_leaf, g1]; omega, ?_⟩, k4, k3, r, by rw [data_inner, k5]; exact h1⟩
    · rw [k3, k4, Nat.add_sub_cancel, hd]; omega
    · rw [k3, k4, hd, pow_succ]
      have := Nat.two_pow_pos d.height
      omega
    · exact ⟨g2, by rw [g1]; simp [CPData.new]⟩
  cases n with
  | leaf d =>
    simp only [update] at hu
    by_cases ht : d.t = 0
    · rw [if_pos ht] at hu
      simp only [bind_eq_ok, pure_eq_ok, Except.ok.injEq] at hu
      obtain ⟨d', h1, rfl⟩ := hu
      obtain ⟨g1, g2, g3⟩ := hfirst h1
      refine ⟨⟨by rw [g2]; exact hn.1, by omega⟩, g1, ?_, g3⟩
      simp [g2, ht]
    · have h1 : d.t = 1 := by have := hn.2; omega
      have hc : d.atSplit = true := by simp [CPData.atSplit, h1]
      rw [if_neg ht, if_pos hc] at hu
      obtain ⟨g1, g2, g3, g4⟩ := hprom (by rw [hn.1, h1]; rfl) hu
      refine ⟨g1, g2, ?_, g4⟩
      simp [g3, ht, hc]
  | inner d r =>
    obtain ⟨w1, w2, w3, w5, w4⟩ := hn
    have ht : d.t ≠ 0 := Nat.ne_of_gt (lt_of_le_of_lt (Nat.zero_le _) w2)
    have hs := WF.split (Q := Q) (n := inner d r) ⟨w1, w2, w3, w5, w4⟩ ht
    simp only [data] at hs
    simp only [update, if_neg ht] at hu
    by_cases hc : d.atSplit = true
    · rw [if_pos hc] at hu
      have hcomp := hs ▸ hc
      rw [PTWData.complete_iff] at hcomp
      obtain ⟨g1, g2, g3, g4⟩ := hprom (le_antisymm w3 hcomp) hu
      refine ⟨g1, g2, ?_, g4⟩
      simp [g3, ht, hc]
    · rw [if_neg hc] at hu
      have hcomp := hs ▸ hc
      rw [PTWData.not_complete_iff] at hcomp
      simp only [bind_eq_ok, Prod.exists] at hu
      obtain ⟨q, b, h1, r', h2, h3⟩ := hu
      obtain ⟨n2, k1, _, k3, k4, k5, d3, rfl⟩ := finish_sim (Q := Q) { d with base := b } r'
      rw [k1] at h3
      simp only [Except.ok.injEq] at h3
      subst h3
      simp only [data_inner] at k3 k4 k5
      obtain ⟨hwr, hwt, _⟩ := update_shape w4 h2
      refine ⟨⟨by omega, by rw [k3, k4]; omega, ?_, by omega, hwr⟩, k4, by simp [k3, hc], q,
        by simp only [data_inner, k5]; exact h1⟩
      rw [k3, k4]
      have : d.t < 2 ^ d.height := hcomp
      omega

section Predict

variable {I : σ → Prop} {A : List α} {W : ℝ → Prop}

/-- `log_predict` does not change `log_prob`, and asking again gives the same answer. -/
def Stable (Q : ProbSeq σ α) (I : σ → Prop) : Prop :=
  ∀ s a r t, I s → Q.logPredict s a = .ok (r, t) → Q.lp t = Q.lp s ∧ ∃ u, Q.logPredict t a = .ok (r, u)

/-- `log_predict` of a node is the change of its probability under `update`, taking a promotion into account.  It changes
at most the base models. -/
theorem logPredict_ok (hQ : Q.Tracks) (hf : Q.lp fresh = 0) (hP : Q.toPredictor.Lawful I A W) (hIf : I fresh)
    (hst : Stable Q I) {n : CPNode σ} (hn : WF n)
    (hI : PTWNode.All I (abs Q n)) {a : α} (ha : a ∈ A) {w : ℝ} (hw : W w) {n' : CPNode σ}
    (hu : n.update Q fresh a w = .ok n') :
    ∃ n2, n.logPredict Q fresh a = .ok (n'.data.lp - n.data.lp, n2) ∧
      (∃ q b, Q.logPredict n.data.base a = .ok (q, b) ∧ n2.data = { n.data with base := b }) ∧
      ((∀ s a r t, I s → Q.logPredict s a = .ok (r, t) → t = s) → n2 = n) := by
  have hpred : ∀ {s r s'}, I s → Q.update s a w = .ok (r, s') →
      ∃ t, Q.logPredict s a = .ok (r, t) ∧ Q.lp s' = Q.lp s + r := by
    intro s r s' hs hus
    obtain ⟨t, h1⟩ := hP.coherent s a [] w hs ha hw r s' hus
    exact ⟨t, h1, hQ _ _ _ _ _ hus⟩
  have hfirst : ∀ {d d' : CPData σ}, first Q d a w = .ok d' →
      ∃ r b, Q.update d.base a w = .ok (r, b) ∧ d' = { d with base := b, lp := Q.lp b, t := d.t + 1 } := by
    intro d d' hd
    simp only [first, bind_eq_ok, pure_eq_ok, Except.ok.injEq, Prod.exists] at hd
    obtain ⟨r, b, h1, rfl⟩ := hd
    exact ⟨r, b, h1, rfl⟩
  have hprom : ∀ {d : CPData σ} {n' : CPNode σ}, I d.base → promote Q fresh d a w = .ok n' →
      ∃ q b, Q.logPredict d.base a = .ok (q, b) ∧
        splitPredict Q fresh d a (Q.lp d.base + q) = .ok (n'.data.lp - d.lp) := by
    intro d n' hd hp
    simp only [promote, bind_eq_ok, Prod.exists] at hp
    obtain ⟨r, b, h1, d2, h2, h3⟩ := hp
    obtain ⟨r2, b2, g1, rfl⟩ := hfirst h2
    obtain ⟨t1, p1, p2⟩ := hpred hd h1
    obtain ⟨t2, p3, p4⟩ := hpred hIf g1
    simp only [finish, correctL_eq, ok_bind, logsumexp_two, pure_eq_ok, Except.ok.injEq, CPData.new, data_leaf] at h3
    subst h3
    refine ⟨r, t1, p1, ?_⟩
    simp only [splitPredict, p3, ok_bind, correctL_eq, logsumexp_two, pure_eq_ok, data_inner]
    rw [p2, p4, hf, zero_add]
    simp
  induction n generalizing n' with
  | leaf d =>
    simp only [update] at hu
    by_cases ht : d.t = 0
    · rw [if_pos ht] at hu
      simp only [bind_eq_ok, pure_eq_ok, Except.ok.injEq] at hu
      obtain ⟨d', h1, rfl⟩ := hu
      obtain ⟨r, b, g1, rfl⟩ := hfirst h1
      obtain ⟨t, p1, p2⟩ := hpred (s := d.base) hI g1
      refine ⟨leaf { d with base := t }, ?_, ⟨r, t, p1, rfl⟩, fun hpure => by rw [hpure d.base a r t hI p1]⟩
      simp only [logPredict, p1, ok_bind, if_pos ht, pure_eq_ok, data_leaf, p2]
    · have h1 : d.t = 1 := by have := hn.2; omega
      have hc : d.atSplit = true := by simp [CPData.atSplit, h1]
      rw [if_neg ht, if_pos hc] at hu
      obtain ⟨q, b, g1, g2⟩ := hprom hI hu
      have g1' : Q.logPredict d.base a = .ok (q, b) := g1
      refine ⟨leaf { d with base := b }, ?_, ⟨q, b, g1, rfl⟩, fun hpure => by rw [hpure d.base a q b hI g1]⟩
      simp only [logPredict, g1', ok_bind, ht, if_false, hc, if_true, g2, pure_eq_ok, data_leaf]
  | inner d r ih =>
    obtain ⟨w1, w2, w3, w5, w4⟩ := hn
    have ht : d.t ≠ 0 := Nat.ne_of_gt (lt_of_le_of_lt (Nat.zero_le _) w2)
    simp only [update, if_neg ht] at hu
    by_cases hc : d.atSplit = true
    · rw [if_pos hc] at hu
      obtain ⟨q, b, g1, g2⟩ := hprom hI.1 hu
      have g1' : Q.logPredict d.base a = .ok (q, b) := g1
      refine ⟨inner { d with base := b } r, ?_, ⟨q, b, g1, rfl⟩, fun hpure => by rw [hpure d.base a q b hI.1 g1]⟩
      simp only [logPredict, g1', ok_bind, ht, if_false, hc, if_true, g2, pure_eq_ok, data_inner]
    · rw [if_neg hc] at hu
      simp only [bind_eq_ok, Prod.exists] at hu
      obtain ⟨q, b, h1, r', h2, h3⟩ := hu
      obtain ⟨tb, p1, p2⟩ := hpred (s := d.base) hI.1 h1
      obtain ⟨r2, ih1, ⟨rq', rb, ih2, ih3⟩, ih4⟩ := ih w4 hI.2 h2
      obtain ⟨_, _, s3, rq, s4⟩ := update_shape w4 h2
      have hIr : I r.data.base := by
        have := hI.2.data
        simpa [absD] using this
      obtain ⟨rb', p3, p4⟩ := hpred hIr s4
      have heq := p3.symm.trans ih2
      simp only [Except.ok.injEq, Prod.mk.injEq] at heq
      obtain ⟨rfl, rfl⟩ := heq
      obtain ⟨k1, u, k2⟩ := hst _ _ _ _ hIr p3
      simp only [finish, correctL_eq, ok_bind, logsumexp_two, pure_eq_ok, Except.ok.injEq] at h3
      subst h3
      have hh : d.height - r.data.height - (if r.data.atSplit = true then 1 else 0) - 1 =
          d.height - r'.data.height - 1 := by
        rw [s3]
        by_cases hs : r.data.atSplit = true <;> simp [hs, w5]
        omega
      refine ⟨inner { d with base := tb } r2, ?_, ⟨q, tb, p1, rfl⟩, fun hpure => by
        rw [hpure d.base a q tb hI.1 p1, ih4 hpure]⟩
      have e1 : r2.data.lp = r.data.lp := by rw [ih3]
      have e2 : r2.data.height = r.data.height := by rw [ih3]
      have e3 : r2.data.base = rb' := by rw [ih3]
      have e4 : r2.data.atSplit = r.data.atSplit := by rw [ih3]; rfl
      simp only [logPredict, p1, ok_bind, ht, if_false, hc, ih1, e1, e2, e3, e4, k1, k2, correctL_eq, logsumexp_two,
        pure_eq_ok, data_inner, hh, p2, p4, add_sub_cancel]
      simp

end Predict

end CPNode

namespace CPTW

open PTWNode

variable {σ α : Type} {Q : ProbSeq σ α} {fr : ℕ → σ} {height : ℕ}

/-- A state reached by observing `xs` when the factory returns `fr t` at time `t`. -/
structure Inv (Q : ProbSeq σ α) (fr : ℕ → σ) (height : ℕ) (s : CPTW σ) (xs : List (Obs α)) : Prop where
  wf : s.tree.WF
  rep : Rep Q.toPredictor fr 0 0 (s.tree.abs Q) xs
  lp : Real.exp s.logProb = ptwProb (blockProb Q.toPredictor fr) 0 height 0 xs
  length : xs.length ≤ 2 ^ height

theorem inv_init (hf : Q.lp (fr 0) = 0) : Inv Q fr height (init (fr 0)) [] where
  wf := ⟨rfl, by simp [CPData.new]⟩
  rep := by
    have : CPNode.abs Q (init (fr 0)).tree = .leaf (PTWData.new (fr 0) 0) := by
      simp [init, CPNode.abs, CPNode.absD, CPData.new, PTWData.new, hf]
    rw [this]
    exact rep_new 0
  lp := by rw [ptwProb_nil (blockProb_nil _ _)]; simp [init]
  length := by simp

theorem Inv.t_eq {s : CPTW σ} {xs : List (Obs α)} (hi : Inv Q fr height s xs) : s.tree.data.t = xs.length := by
  have := hi.rep.core.count
  rwa [CPNode.abs_data] at this

theorem Inv.height_eq {s : CPTW σ} {xs : List (Obs α)} (hi : Inv Q fr height s xs) :
    s.tree.data.height = levelsFor 0 xs.length := by
  have := hi.rep.height
  rw [CPNode.abs_data, zero_add] at this
  exact this

/-- One step of the tree. -/
theorem Inv.tree_step (hQ : Q.Tracks) (hf : ∀ t, Q.lp (fr t) = 0) {s : CPTW σ} {xs : List (Obs α)}
    (hi : Inv Q fr height s xs) {o : Obs α} {n : CPNode σ}
    (hn : s.tree.update Q (fr xs.length) o.sym o.weight = .ok n) :
    n.WF ∧ (s.tree.abs Q).update Q.toPredictor (.ok (fr xs.length)) 0 o.sym o.hist o.weight = .ok (n.abs Q) ∧
      Rep Q.toPredictor fr 0 0 (n.abs Q) (xs ++ [o]) ∧
      n.data.height = levelsFor 0 (xs.length + 1) := by
  have hsim := CPNode.update_sim hQ (hf xs.length) hi.wf o.sym o.hist o.weight
  rw [hn] at hsim
  have h1 : (s.tree.abs Q).update Q.toPredictor (.ok (fr xs.length)) 0 o.sym o.hist o.weight = .ok (n.abs Q) := hsim.symm
  have h2 := hi.rep.update (by rw [zero_add]; exact h1)
  have h3 := h2.height
  rw [CPNode.abs_data, zero_add, List.length_append, List.length_singleton] at h3
  exact ⟨(CPNode.update_shape hi.wf hn).1, h1, h2, h3⟩

theorem Inv.update (hQ : Q.Tracks) (hf : ∀ t, Q.lp (fr t) = 0) {s s' : CPTW σ} {xs : List (Obs α)}
    (hi : Inv Q fr height s xs) {o : Obs α} {r : ℝ}
    (hu : s.update Q (fr xs.length) height o.sym o.weight = .ok (r, s')) :
    Inv Q fr height s' (xs ++ [o]) ∧ r = s'.logProb - s.logProb ∧
      (s.tree.abs Q).update Q.toPredictor (.ok (fr xs.length)) 0 o.sym o.hist o.weight = .ok (s'.tree.abs Q) := by
  simp only [CPTW.update, bind_eq_ok] at hu
  obtain ⟨n, hn, hu⟩ := hu
  obtain ⟨h1, h2, h3, h4⟩ := hi.tree_step hQ hf hn
  split_ifs at hu with hh
  simp only [correctL_eq, ok_bind, pure_eq_ok, Except.ok.injEq, Prod.mk.injEq] at hu
  obtain ⟨rfl, rfl⟩ := hu
  rw [h4, not_lt] at hh
  refine ⟨⟨h1, h3, ?_, ?_⟩, rfl, h2⟩
  · have := h3.correct (k := height) (by simpa using hh)
    rw [CPNode.abs_data, zero_add] at this
    exact this
  · rw [List.length_append, List.length_singleton]
    have := levelsFor_spec 0 (xs.length + 1)
    rw [zero_add] at this
    exact this.trans (Nat.pow_le_pow_right (by norm_num) hh)

theorem Inv.run (hQ : Q.Tracks) {fresh : σ} (hf : Q.lp fresh = 0) {s s' : CPTW σ} {xs ys : List (Obs α)}
    (hi : Inv Q (fun _ => fresh) height s xs) {r : ℝ}
    (hr : (probSeq Q fresh height).toPredictor.run s ys = .ok (r, s')) :
    Inv Q (fun _ => fresh) height s' (xs ++ ys) ∧ r = s'.logProb - s.logProb := by
  induction ys generalizing xs s r with
  | nil =>
    simp only [Predictor.run, pure_eq_ok, Except.ok.injEq, Prod.mk.injEq] at hr
    obtain ⟨rfl, rfl⟩ := hr
    rw [List.append_nil]
    exact ⟨hi, by ring⟩
  | cons o ys ih =>
    rw [run_cons_ok] at hr
    obtain ⟨r1, s1, r2, h1, h2, rfl⟩ := hr
    obtain ⟨g1, g2, _⟩ := hi.update hQ (fun _ => hf) (o := o) h1
    obtain ⟨g3, g4⟩ := ih g1 h2
    rw [List.append_assoc, List.singleton_append] at g3
    exact ⟨g3, by rw [g4, g2]; ring⟩

variable {I : σ → Prop} {A : List α} {W : ℝ → Prop}

theorem Inv.total (hQ : Q.Tracks) (hf : ∀ t, Q.lp (fr t) = 0) (hP : Q.toPredictor.Total I A W) (hIf : ∀ t, I (fr t))
    {s : CPTW σ} {xs : List (Obs α)} (hi : Inv Q fr height s xs) (hs : All I (s.tree.abs Q)) {a : α} (ha : a ∈ A)
    {w : ℝ} (hw : W w) :
    (xs.length < 2 ^ height → ∃ r s', s.update Q (fr xs.length) height a w = .ok (r, s') ∧ All I (s'.tree.abs Q)) ∧
      (xs.length = 2 ^ height → s.update Q (fr xs.length) height a w = .error .assertionError) := by
  obtain ⟨n0, g1, g2⟩ := hs.update (m := 0) hP (hIf xs.length) ha [] hw
  have hsim := CPNode.update_sim hQ (hf xs.length) hi.wf a [] w
  rw [g1] at hsim
  obtain ⟨n, hn, rfl⟩ : ∃ n, s.tree.update Q (fr xs.length) a w = .ok n ∧ n0 = n.abs Q := by
    cases hc : s.tree.update Q (fr xs.length) a w with
    | error e => rw [hc] at hsim; simp [Except.map] at hsim
    | ok n => rw [hc] at hsim; simp only [Except.map, Except.ok.injEq] at hsim; exact ⟨n, rfl, hsim.symm⟩
  obtain ⟨_, _, _, h4⟩ := hi.tree_step hQ hf (o := ⟨a, [], w⟩) hn
  have hmin : ∀ k, xs.length + 1 ≤ 2 ^ k ↔ levelsFor 0 (xs.length + 1) ≤ k := by
    intro k
    constructor
    · intro h; exact levelsFor_min (by simpa using h)
    · intro h
      have := levelsFor_spec 0 (xs.length + 1)
      rw [zero_add] at this
      exact this.trans (Nat.pow_le_pow_right (by norm_num) h)
  constructor
  · intro hl
    have hh : ¬ height < n.data.height := by
      rw [h4, not_lt, ← hmin]; exact hl
    refine ⟨PTWData.correct (Q.lp n.data.base) (height - n.data.height) n.data.lp - s.logProb,
      ⟨n, PTWData.correct (Q.lp n.data.base) (height - n.data.height) n.data.lp⟩, ?_, g2⟩
    · simp only [CPTW.update, hn, ok_bind, if_neg hh, correctL_eq, pure_eq_ok]
  · intro hl
    have hh : height < n.data.height := by
      rw [h4, ← not_le, ← hmin]; omega
    simp only [CPTW.update, hn, ok_bind, if_pos hh]

theorem Inv.run_total (hQ : Q.Tracks) {fresh : σ} (hf : Q.lp fresh = 0) (hP : Q.toPredictor.UpdateLawful I A W) (hIf : I fresh)
    {s : CPTW σ} {xs ys : List (Obs α)} (hi : Inv Q (fun _ => fresh) height s xs) (hs : All I (s.tree.abs Q))
    (hy : GoodObs A W ys) :
    ((xs ++ ys).length ≤ 2 ^ height → ∃ r s', (probSeq Q fresh height).toPredictor.run s ys = .ok (r, s') ∧
      Inv Q (fun _ => fresh) height s' (xs ++ ys) ∧ All I (s'.tree.abs Q)) ∧
    (2 ^ height < (xs ++ ys).length → (probSeq Q fresh height).toPredictor.run s ys = .error .assertionError) := by
  induction ys generalizing xs s with
  | nil =>
    rw [List.append_nil]
    refine ⟨fun _ => ⟨0, s, rfl, hi, hs⟩, fun h => ?_⟩
    have := hi.length
    omega
  | cons o ys ih =>
    obtain ⟨ho, hy⟩ : (o.sym ∈ A ∧ W o.weight) ∧ GoodObs A W ys :=
      ⟨hy o (by simp), fun p hp => hy p (by simp [hp])⟩
    obtain ⟨t1, t2⟩ := hi.total hQ (fun _ => hf) hP.total (fun _ => hIf) hs ho.1 ho.2
    rcases hi.length.lt_or_eq with hl | hl
    · obtain ⟨r1, s1, h1, h2⟩ := t1 hl
      obtain ⟨g1, g2, _⟩ := hi.update hQ (fun _ => hf) (o := o) h1
      obtain ⟨ih1, ih2⟩ := ih g1 h2 hy
      rw [List.append_assoc, List.singleton_append] at ih1 ih2
      constructor
      · intro h
        obtain ⟨r2, s2, k1, k2, k3⟩ := ih1 h
        exact ⟨r1 + r2, s2, run_cons_ok.mpr ⟨r1, s1, r2, h1, k1, rfl⟩, k2, k3⟩
      · intro h
        have e1 : (probSeq Q fresh height).toPredictor.update s o.sym o.hist o.weight = .ok (r1, s1) := h1
        simp only [Predictor.run, e1, ok_bind, ih2 h]
        rfl
    · constructor
      · intro h
        rw [List.length_append, List.length_cons] at h
        omega
      · intro _
        have e1 : (probSeq Q fresh height).toPredictor.update s o.sym o.hist o.weight = .error .assertionError := t2 hl
        simp only [Predictor.run, e1]
        rfl

/-- `log_predict` returns what `update` returns. -/
theorem Inv.predict (hQ : Q.Tracks) (hf : ∀ t, Q.lp (fr t) = 0) (hP : Q.toPredictor.Lawful I A W) (hIf : ∀ t, I (fr t))
    (hst : CPNode.Stable Q I)
    {s s' : CPTW σ} {xs : List (Obs α)} (hi : Inv Q fr height s xs) (hs : All I (s.tree.abs Q)) {a : α} (ha : a ∈ A)
    {w : ℝ} (hw : W w) {r : ℝ} (hu : s.update Q (fr xs.length) height a w = .ok (r, s')) :
    ∃ t, s.logPredict Q (fr xs.length) height a = .ok (r, t) ∧
      ((∀ s a r t, I s → Q.logPredict s a = .ok (r, t) → t = s) → t = s) := by
  simp only [CPTW.update, bind_eq_ok] at hu
  obtain ⟨n, hn, hu⟩ := hu
  obtain ⟨n2, hp, ⟨q', b, hb, hd⟩, hpu⟩ := CPNode.logPredict_ok hQ (hf xs.length) hP (hIf xs.length) hst hi.wf hs ha hw hn
  obtain ⟨_, _, h3, q, h4⟩ := CPNode.update_shape hi.wf hn
  split_ifs at hu with hh
  simp only [correctL_eq, ok_bind, pure_eq_ok, Except.ok.injEq, Prod.mk.injEq] at hu
  obtain ⟨rfl, rfl⟩ := hu
  have hIb : I s.tree.data.base := by
    have := hs.data
    rwa [CPNode.abs_data] at this
  obtain ⟨t0, h1⟩ := hP.coherent _ a [] w hIb ha hw q _ h4
  have heq := h1.symm.trans hb
  simp only [Except.ok.injEq, Prod.mk.injEq] at heq
  obtain ⟨rfl, rfl⟩ := heq
  obtain ⟨k1, u, k2⟩ := hst _ _ _ _ hIb hb
  refine ⟨⟨n2, s.logProb⟩, ?_, fun hpure => by rw [hpu hpure]⟩
  have e1 : n2.data.lp = s.tree.data.lp := by rw [hd]
  have e2 : n2.data.height = s.tree.data.height := by rw [hd]
  have e3 : n2.data.base = t0 := by rw [hd]
  have e4 : n2.data.atSplit = s.tree.data.atSplit := by rw [hd]; rfl
  simp only [CPTW.logPredict, hp, ok_bind, e1, e2, e3, e4, k1, k2, correctL_eq, pure_eq_ok, Except.ok.injEq,
    Prod.mk.injEq]
  rw [← hQ _ _ _ _ _ h4]
  by_cases ht : s.tree.data.t = 0
  · -- no symbol yet: the node probability is the base probability and corrections change nothing
    have hlp : n.data.lp = Q.lp n.data.base := by
      obtain ⟨⟨d⟩ | ⟨d, r⟩, l⟩ := s
      · have ht' : d.t = 0 := ht
        simp only [CPNode.update, if_pos ht', bind_eq_ok, pure_eq_ok, Except.ok.injEq, CPNode.first, Prod.exists] at hn
        obtain ⟨_, ⟨r, b, _, rfl⟩, rfl⟩ := hn
        rfl
      · have h0 := hi.wf.2.1
        have ht' : d.t = 0 := ht
        rw [ht'] at h0
        simp at h0
    rw [add_sub_cancel, hlp, correct_self, correct_self]
    exact ⟨rfl, trivial⟩
  · simp only [ht, ne_eq, not_false_eq_true, true_and] at h3
    rw [h3]
    constructor
    · congr 2
      ring
    · trivial

end CPTW

end Verif
