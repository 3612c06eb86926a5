import Verif.Model.RoundingFast
import Verif.Proofs.CTWHom
import Verif.Proofs.RoundingAC

/-! `CTW`, `CTW_KT` and the C code in the same arithmetic. -/

namespace Verif

open Predictor

namespace KNode

variable (R : Arith)

theorem Corr.rUpdate {k : KNode} {n : CTWNode KTBinary Bool} (h : Corr k n) (a : Bool) (hi : List Bool) (w : ℝ) (ctx : List Bool) :
    CorrResult (R.kUpdate a w ctx k) (R.ctwUpdate R.ktPredictor (KTBinary.init none) a hi w ctx n) := by
  induction ctx generalizing k n with
  | nil =>
    have h' := h
    obtain ⟨h1, h2, h3, h4, h5, h6⟩ := h'
    simp only [Arith.kUpdate, Arith.ctwUpdate, Arith.ktPredictor, Arith.ktUpdate, Arith.ktLogPredict, h1]
    cases R.pyDiv (n.base.get a) (R.add n.base.c0 n.base.c1) with
    | error e => simp [CorrResult]
    | ok q =>
      simp only [ok_bind]
      cases R.pyLog q with
      | error e => simp [CorrResult]
      | ok l =>
        simp only [ok_bind, pure_eq_ok, CorrResult, h2, h3, h4, true_and]
        exact .mk rfl rfl rfl rfl h5 h6
  | cons c cs ih =>
    have h' := h
    obtain ⟨h1, h2, h3, h4, h5, h6⟩ := h'
    have hc := ih (h.child c)
    simp only [Arith.kUpdate, Arith.ctwUpdate]
    have hu : R.ktPredictor.update n.base a hi w = (R.pyDiv (k.counts.get a) (R.add k.counts.c0 k.counts.c1) >>= fun q => R.pyLog q >>= fun l =>
        pure (l, R.ktBump k.counts a w)) := by
      simp only [Arith.ktPredictor, Arith.ktUpdate, Arith.ktLogPredict, h1, bind_assoc]
    rw [hu]
    cases R.pyDiv (k.counts.get a) (R.add k.counts.c0 k.counts.c1) with
    | error e => simp [CorrResult]
    | ok q =>
      simp only [ok_bind]
      cases R.pyLog q with
      | error e => simp [CorrResult]
      | ok l =>
        simp only [ok_bind, pure_eq_ok]
        cases e1 : R.kUpdate a w cs ((k.children c).getD new) with
        | error e =>
          cases e2 : R.ctwUpdate R.ktPredictor (KTBinary.init none) a hi w cs ((n.children c).getD (.new (KTBinary.init none))) with
          | error e' =>
            rw [e1, e2] at hc
            simpa [CorrResult] using hc
          | ok p =>
            rw [e1, e2] at hc
            exact hc.elim
        | ok q =>
          cases e2 : R.ctwUpdate R.ktPredictor (KTBinary.init none) a hi w cs ((n.children c).getD (.new (KTBinary.init none))) with
          | error e' =>
            rw [e1, e2] at hc
            exact hc.elim
          | ok p =>
            rw [e1, e2] at hc
            obtain ⟨r, x⟩ := q
            obtain ⟨r', y⟩ := p
            obtain ⟨rfl, hxy⟩ := hc
            simp only [ok_bind, h2, h3, h4]
            cases R.logsumexp2 (R.add n.baseLP l) (R.add n.childrenLP r) with
            | error e => simp [CorrResult]
            | ok l2 =>
              simp only [ok_bind, CorrResult, true_and]
              exact h.put _ _ _ _ _ hxy

theorem Corr.rLogPredict {k : KNode} {n : CTWNode KTBinary Bool} (h : Corr k n) (a : Bool) (hi : List Bool) (ctx : List Bool) :
    CorrResult (R.kLogPredict a ctx k) (R.ctwLogPredict R.ktPredictor (KTBinary.init none) a hi ctx n) := by
  induction ctx generalizing k n with
  | nil =>
    have h' := h
    obtain ⟨h1, h2, h3, h4, h5, h6⟩ := h'
    simp only [Arith.kLogPredict, Arith.ctwLogPredict, Arith.ktPredictor, Arith.ktLogPredict, h1]
    cases R.pyDiv (n.base.get a) (R.add n.base.c0 n.base.c1) with
    | error e => simp [CorrResult]
    | ok q =>
      simp only [ok_bind]
      cases R.pyLog q with
      | error e => simp [CorrResult]
      | ok l =>
        simp only [ok_bind, pure_eq_ok, CorrResult, h2, h4, true_and]
        exact .mk h1 h2 h3 h4 h5 h6
  | cons c cs ih =>
    have h' := h
    obtain ⟨h1, h2, h3, h4, h5, h6⟩ := h'
    have hc := ih (h.child c)
    simp only [Arith.kLogPredict, Arith.ctwLogPredict]
    have hu : R.ktPredictor.logPredict n.base a hi = (R.pyDiv (k.counts.get a) (R.add k.counts.c0 k.counts.c1) >>= fun q => R.pyLog q >>= fun l =>
        pure (l, k.counts)) := by
      simp only [Arith.ktPredictor, Arith.ktLogPredict, h1, bind_assoc]
    rw [hu]
    cases R.pyDiv (k.counts.get a) (R.add k.counts.c0 k.counts.c1) with
    | error e => simp [CorrResult]
    | ok q =>
      simp only [ok_bind]
      cases R.pyLog q with
      | error e => simp [CorrResult]
      | ok l =>
        simp only [ok_bind, pure_eq_ok]
        cases e1 : R.kLogPredict a cs ((k.children c).getD new) with
        | error e =>
          cases e2 : R.ctwLogPredict R.ktPredictor (KTBinary.init none) a hi cs ((n.children c).getD (.new (KTBinary.init none))) with
          | error e' =>
            rw [e1, e2] at hc
            simpa [CorrResult] using hc
          | ok p =>
            rw [e1, e2] at hc
            exact hc.elim
        | ok q =>
          cases e2 : R.ctwLogPredict R.ktPredictor (KTBinary.init none) a hi cs ((n.children c).getD (.new (KTBinary.init none))) with
          | error e' =>
            rw [e1, e2] at hc
            exact hc.elim
          | ok p =>
            rw [e1, e2] at hc
            obtain ⟨r, x⟩ := q
            obtain ⟨r', y⟩ := p
            obtain ⟨rfl, hxy⟩ := hc
            simp only [ok_bind, h2, h3, h4]
            cases R.logsumexp2 (R.add n.baseLP l) (R.add n.childrenLP r) with
            | error e => simp [CorrResult]
            | ok l2 =>
              simp only [ok_bind, CorrResult, true_and]
              exact h.put _ _ _ _ _ hxy

theorem Corr.rOutputs_eq {k : KNode} {n : CTWNode KTBinary Bool} (h : Corr k n) (depth : ℕ) (cs : List (Call Bool)) :
    (R.kPredictor depth).outputs k cs = (R.ctwPredictor R.ktPredictor (KTBinary.init none) (CTW.mkcontext depth false)).outputs n cs := by
  induction cs generalizing k n with
  | nil => rfl
  | cons c cs ih =>
    have hs : CorrResult ((R.kPredictor depth).step k c)
        ((R.ctwPredictor R.ktPredictor (KTBinary.init none) (CTW.mkcontext depth false)).step n c) := by
      cases c with
      | update a hi w => exact h.rUpdate R a hi w _
      | predict a hi => exact h.rLogPredict R a hi _
    simp only [outputs]
    cases e1 : (R.kPredictor depth).step k c with
    | error e =>
      cases e2 : (R.ctwPredictor R.ktPredictor (KTBinary.init none) (CTW.mkcontext depth false)).step n c with
      | error e' =>
        rw [e1, e2] at hs
        rw [show e = e' from hs]
      | ok p =>
        rw [e1, e2] at hs
        exact hs.elim
    | ok q =>
      cases e2 : (R.ctwPredictor R.ktPredictor (KTBinary.init none) (CTW.mkcontext depth false)).step n c with
      | error e' =>
        rw [e1, e2] at hs
        exact hs.elim
      | ok p =>
        rw [e1, e2] at hs
        obtain ⟨r, x⟩ := q
        obtain ⟨r', y⟩ := p
        obtain ⟨rfl, hxy⟩ := hs
        simp only [ih hxy]

end KNode

namespace Fast

variable {R : Arith} {ε : ℝ}

/-- The counts of a C node and a `KTBinary` in an arithmetic: numbers to which adding zero changes nothing. -/
def RBinR (R : Arith) (s : Fin 2 → ℝ) (t : KTBinary) : Prop :=
  t.c0 = s 0 ∧ t.c1 = s 1 ∧ 0 < s 0 ∧ 0 < s 1 ∧ R.add 0 (s 0) = s 0

theorem add_pos' (hR : R.Accurate ε) {x y : ℝ} (h : 0 < x + y) : 0 < R.add x y := by
  have := hR.add x y
  rw [abs_of_pos h, abs_le] at this
  have h2 := hR.small
  nlinarith [this.1]

theorem lse_arg_pos (hR : R.Accurate ε) {x y : ℝ} (h : x ≤ y) : 0 < R.add 1 (R.exp (R.sub x y)) := by
  have h1 := hR.sub x y
  have h2 : R.sub x y ≤ 0 := by
    rw [abs_of_nonpos (sub_nonpos.2 h), abs_le] at h1
    have h3 := hR.small
    nlinarith [h1.2, hR.nonneg]
  exact add_pos' hR (by linarith [(hR.exp _ h2).1])

/-- Python's `logsumexp2` and that of the C code give the same number. -/
theorem lse_eq (hR : R.Accurate ε) (hadd : ∀ x y, R.add x y = R.add y x) (x y : ℝ) : R.logsumexp2 x y = .ok (R.cLogsumexp2 x y) := by
  rw [Arith.logsumexp2, Arith.cLogsumexp2]
  rcases lt_trichotomy x y with h | h | h
  · rw [if_pos h, if_neg (not_lt.2 h.le), Arith.pyLog, if_pos (lse_arg_pos hR h.le), ok_bind, pure_eq_ok, hadd y]
  · subst h
    rw [if_neg (lt_irrefl _), if_neg (lt_irrefl _), Arith.pyLog, if_pos (lse_arg_pos hR le_rfl), ok_bind, pure_eq_ok, hadd x]
  · rw [if_neg (not_lt.2 h.le), if_pos h, Arith.pyLog, if_pos (lse_arg_pos hR h.le), ok_bind, pure_eq_ok, hadd x]

theorem RBinR.ratio (hR : R.Accurate ε) {s : Fin 2 → ℝ} {t : KTBinary} (h : RBinR R s t) (a : Fin 2) :
    R.ktLogPredict t (bit a) = .ok (R.cRatio s a) := by
  obtain ⟨h0, h1, h2, h3, h4⟩ := h
  have hs : R.cSum s = R.add t.c0 t.c1 := by
    simp [Arith.cSum, List.finRange_succ, h4, h0, h1]
  have hp : 0 < R.add t.c0 t.c1 := add_pos' hR (by rw [h0, h1]; linarith)
  have hg : t.get (bit a) = s a := by
    fin_cases a
    · simp [bit_zero, KTBinary.get, h0]
    · simp [bit_one, KTBinary.get, h1]
  have hsa : 0 < s a := by fin_cases a; exacts [h2, h3]
  have hd : 0 < R.div (s a) (R.add t.c0 t.c1) := by
    have := hR.div (s a) _ hp.ne'
    have hq : 0 < s a / R.add t.c0 t.c1 := div_pos hsa hp
    rw [abs_of_pos hq, abs_le] at this
    have h2 := hR.small
    nlinarith [this.1]
  rw [Arith.ktLogPredict, Arith.pyDiv, if_neg hp.ne', ok_bind, hg, Arith.pyLog, if_pos hd, Arith.cRatio, hs]

theorem RBinR.bump (hR : R.Accurate ε) (hid : ∀ x y, R.add 0 (R.add x y) = R.add x y) {s : Fin 2 → ℝ} {t : KTBinary} (h : RBinR R s t) (a : Fin 2)
    {w : ℝ} (hw : 0 ≤ w) : RBinR R (Function.update s a (R.add (s a) w)) (R.ktBump t (bit a) w) := by
  obtain ⟨h0, h1, h2, h3, h4⟩ := h
  fin_cases a
  · refine ⟨?_, ?_, ?_, ?_, ?_⟩ <;> simp [bit_zero, Arith.ktBump, h0, h1, h3, hid]
    exact add_pos' hR (by linarith)
  · refine ⟨?_, ?_, ?_, ?_, ?_⟩ <;> simp [bit_one, Arith.ktBump, h0, h1, h2, h4]
    exact add_pos' hR (by linarith)

variable (hR : R.Accurate ε) (hadd : ∀ x y, R.add x y = R.add y x) (hid : ∀ x y, R.add 0 (R.add x y) = R.add x y) {fresh : Fin 2 → ℝ} {fresh' : KTBinary}
  (hf : RBinR R fresh fresh')
include hR hadd hid hf

theorem c_update {n : CTWNode (Fin 2 → ℝ) (Fin 2)} {m : CTWNode KTBinary Bool} (h : CTWNode.TCorr (RBinR R) bit n m) (a : Fin 2) (hi : List Bool) {w : ℝ}
    (hw : 0 ≤ w) (ctx : List (Fin 2)) :
    CorrRes (CTWNode.TCorr (RBinR R) bit) (.ok (R.cUpdate fresh a w ctx n)) (R.ctwUpdate R.ktPredictor fresh' (bit a) hi w (ctx.map bit) m) := by
  induction ctx generalizing n m with
  | nil =>
    have h' := h
    obtain ⟨h1, h2, h3, h4, h5, h6⟩ := h'
    simp only [Arith.cUpdate, List.map_nil, Arith.ctwUpdate, Arith.ktPredictor, Arith.ktUpdate, h1.ratio hR, ok_bind, pure_eq_ok, CorrRes, h2, h3, h4, true_and]
    exact .mk (h1.bump hR hid a hw) rfl rfl rfl h5 h6
  | cons c cs ih =>
    have h' := h
    obtain ⟨h1, h2, h3, h4, h5, h6⟩ := h'
    simp only [Arith.cUpdate, List.map_cons, Arith.ctwUpdate]
    have hu : R.ktPredictor.update m.base (bit a) hi w = .ok (R.cRatio n.base a, R.ktBump m.base (bit a) w) := by
      simp only [Arith.ktPredictor, Arith.ktUpdate, h1.ratio hR, ok_bind, pure_eq_ok]
    rw [hu]
    rcases corrRes_cases (ih (h.child hf c)) with ⟨e', k1, k2⟩ | ⟨r', s', t', k1, k2, k3⟩
    · cases k1
    · rw [Except.ok.injEq] at k1
      rw [k1, k2]
      simp only [ok_bind, lse_eq hR hadd, pure_eq_ok, CorrRes, h2, h3, h4, true_and]
      exact h.put (h1.bump hR hid a hw) _ _ _ _ k3

omit hid in
theorem c_logPredict {n : CTWNode (Fin 2 → ℝ) (Fin 2)} {m : CTWNode KTBinary Bool} (h : CTWNode.TCorr (RBinR R) bit n m) (a : Fin 2) (hi : List Bool)
    (ctx : List (Fin 2)) :
    CorrRes (CTWNode.TCorr (RBinR R) bit) (.ok (R.cLogPredict fresh a ctx n)) (R.ctwLogPredict R.ktPredictor fresh' (bit a) hi (ctx.map bit) m) := by
  induction ctx generalizing n m with
  | nil =>
    have h' := h
    obtain ⟨h1, h2, h3, h4, h5, h6⟩ := h'
    simp only [Arith.cLogPredict, List.map_nil, Arith.ctwLogPredict, Arith.ktPredictor, h1.ratio hR, ok_bind, pure_eq_ok, CorrRes, h2, h4, true_and]
    exact .mk h1 h2 h3 h4 h5 h6
  | cons c cs ih =>
    have h' := h
    obtain ⟨h1, h2, h3, h4, h5, h6⟩ := h'
    simp only [Arith.cLogPredict, List.map_cons, Arith.ctwLogPredict]
    have hu : R.ktPredictor.logPredict m.base (bit a) hi = .ok (R.cRatio n.base a, m.base) := by
      simp only [Arith.ktPredictor, h1.ratio hR, ok_bind, pure_eq_ok]
    rw [hu]
    rcases corrRes_cases (ih (h.child hf c)) with ⟨e', k1, k2⟩ | ⟨r', s', t', k1, k2, k3⟩
    · cases k1
    · rw [Except.ok.injEq] at k1
      rw [k1, k2]
      simp only [ok_bind, lse_eq hR hadd, pure_eq_ok, CorrRes, h2, h3, h4, true_and]
      exact h.put h1 _ _ _ _ k3

end Fast

end Verif
