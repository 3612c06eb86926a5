import Verif.Proofs.KT

/-! Lemmas about `update_seq` and `log_predict_seq`, and about runs of `KT`. -/

set_option linter.unusedSectionVars false

namespace Verif

/-- The observations made by presenting `seq` after `hist`: symbol number `i` comes with the history
`hist` followed by the first `i` symbols. -/
def seqObs {α : Type} (hist : List α) (w : ℝ) (seq : List α) : List (Obs α) :=
  seq.zipIdx.map fun p => ⟨p.1, hist ++ seq.take p.2, w⟩

theorem seqObs_cons {α : Type} (hist : List α) (w : ℝ) (a : α) (seq : List α) :
    seqObs hist w (a :: seq) = ⟨a, hist, w⟩ :: seqObs (hist ++ [a]) w seq := by
  unfold seqObs
  rw [List.zipIdx_cons]
  simp only [List.map_cons, List.take_zero, List.append_nil, zero_add]
  congr 1
  rw [show (1 : ℕ) = 0 + 1 from rfl, List.zipIdx_succ, List.map_map]
  apply List.map_congr_left
  intro p _
  simp

namespace Predictor

variable {σ α : Type} {P : Predictor σ α}

theorem updateSeqLoop_ok {w : ℝ} {s s' : σ} {seq h h' : List α} {rv r : ℝ} :
    P.updateSeqLoop w s seq h rv = .ok (r, s', h') ↔
      ∃ q, P.run s (seqObs h w seq) = .ok (q, s') ∧ r = rv + q ∧ h' = h ++ seq := by
  induction seq generalizing s h rv with
  | nil =>
    simp only [updateSeqLoop, pure_eq_ok, Except.ok.injEq, Prod.mk.injEq, seqObs, List.zipIdx_nil,
      List.map_nil, run]
    constructor
    · rintro ⟨rfl, rfl, rfl⟩
      exact ⟨0, ⟨rfl, rfl⟩, by simp, by simp⟩
    · rintro ⟨q, ⟨rfl, rfl⟩, rfl, rfl⟩
      simp
  | cons a seq ih =>
    rw [seqObs_cons]
    simp only [updateSeqLoop, run_cons_ok]
    constructor
    · intro hh
      obtain ⟨⟨r1, s1⟩, h1, h2⟩ := bind_eq_ok.mp hh
      obtain ⟨q, h3, rfl, rfl⟩ := ih.mp h2
      exact ⟨r1 + q, ⟨r1, s1, q, h1, h3, rfl⟩, by ring, by simp⟩
    · rintro ⟨q, ⟨r1, s1, r2, h1, h2, rfl⟩, rfl, rfl⟩
      rw [h1]
      simp only [ok_bind]
      exact ih.mpr ⟨r2, h2, by ring, by simp⟩

/-- A sequence of `log_predict` calls. -/
noncomputable def predRun (P : Predictor σ α) (s : σ) : List (Obs α) → Py (ℝ × σ)
  | [] => pure (0, s)
  | o :: os => do
    let (r, s') ← P.logPredict s o.sym o.hist
    let (r', s'') ← predRun P s' os
    pure (r + r', s'')

theorem predRun_cons_ok {s : σ} {o : Obs α} {os : List (Obs α)} {r : ℝ} {s'' : σ} :
    P.predRun s (o :: os) = .ok (r, s'') ↔ ∃ r1 s' r2, P.logPredict s o.sym o.hist = .ok (r1, s') ∧
      P.predRun s' os = .ok (r2, s'') ∧ r = r1 + r2 := by
  rw [show P.predRun s (o :: os) = (do
      let (r, s') ← P.logPredict s o.sym o.hist
      let (r', s'') ← P.predRun s' os
      pure (r + r', s'')) from rfl]
  constructor
  · intro h
    obtain ⟨⟨r1, s'⟩, h1, h⟩ := bind_eq_ok.mp h
    obtain ⟨⟨r2, t⟩, h2, h⟩ := bind_eq_ok.mp h
    simp only [pure_eq_ok, Except.ok.injEq, Prod.mk.injEq] at h
    exact ⟨r1, s', r2, h1, by rw [h2, h.2], h.1.symm⟩
  · rintro ⟨r1, s', r2, h1, h2, rfl⟩
    simp [h1, h2]

theorem logPredictSeqLoop_ok {w : ℝ} {s s' : σ} {seq h h' : List α} {rv r : ℝ} :
    P.logPredictSeqLoop s seq h rv = .ok (r, s', h') ↔
      ∃ q, P.predRun s (seqObs h w seq) = .ok (q, s') ∧ r = rv + q ∧ h' = h ++ seq := by
  induction seq generalizing s h rv with
  | nil =>
    simp only [logPredictSeqLoop, pure_eq_ok, Except.ok.injEq, Prod.mk.injEq, seqObs, List.zipIdx_nil,
      List.map_nil, predRun]
    constructor
    · rintro ⟨rfl, rfl, rfl⟩
      exact ⟨0, ⟨rfl, rfl⟩, by simp, by simp⟩
    · rintro ⟨q, ⟨rfl, rfl⟩, rfl, rfl⟩
      simp
  | cons a seq ih =>
    rw [seqObs_cons]
    simp only [logPredictSeqLoop, predRun_cons_ok]
    constructor
    · intro hh
      obtain ⟨⟨r1, s1⟩, h1, h2⟩ := bind_eq_ok.mp hh
      obtain ⟨q, h3, rfl, rfl⟩ := ih.mp h2
      exact ⟨r1 + q, ⟨r1, s1, q, h1, h3, rfl⟩, by ring, by simp⟩
    · rintro ⟨q, ⟨r1, s1, r2, h1, h2, rfl⟩, rfl, rfl⟩
      rw [h1]
      simp only [ok_bind]
      exact ih.mpr ⟨r2, h2, by ring, by simp⟩

theorem pyDelTail_append {h seq : List α} (hne : seq ≠ []) : pyDelTail (h ++ seq) seq.length = h := by
  have : seq.length ≠ 0 := by simpa using hne
  simp [pyDelTail, this]

end Predictor

namespace KT

variable {α : Type} [DecidableEq α]

open PyDict

/-- A run of `KT` over symbols that all carry the weight `w`. -/
noncomputable def runSyms (w : ℝ) (s : KT α) : List α → Py (ℝ × KT α)
  | [] => pure (0, s)
  | a :: as => do
    let (r, s') ← s.update a w
    let (r', s'') ← runSyms w s' as
    pure (r + r', s'')

theorem run_eq_runSyms {w : ℝ} {xs : List (Obs α)} (hx : ∀ o ∈ xs, o.weight = w) (s : KT α) :
    predictor.run s xs = runSyms w s (xs.map Obs.sym) := by
  induction xs generalizing s with
  | nil => rfl
  | cons o xs ih =>
    simp only [Predictor.run, List.map_cons, runSyms]
    rw [show predictor.update s o.sym o.hist o.weight = s.update o.sym w by
      rw [← hx o (by simp)]; rfl]
    congr 1
    funext p
    rw [ih (fun o ho => hx o (by simp [ho]))]

theorem runSyms_cons_ok {w : ℝ} {s : KT α} {a : α} {as : List α} {r : ℝ} {s'' : KT α} :
    runSyms w s (a :: as) = .ok (r, s'') ↔ ∃ r1 s' r2, s.update a w = .ok (r1, s') ∧
      runSyms w s' as = .ok (r2, s'') ∧ r = r1 + r2 := by
  rw [show runSyms w s (a :: as) = (do
      let (r, s') ← s.update a w
      let (r', s'') ← runSyms w s' as
      pure (r + r', s'')) from rfl]
  constructor
  · intro h
    obtain ⟨⟨r1, s'⟩, h1, h⟩ := bind_eq_ok.mp h
    obtain ⟨⟨r2, t⟩, h2, h⟩ := bind_eq_ok.mp h
    simp only [pure_eq_ok, Except.ok.injEq, Prod.mk.injEq] at h
    exact ⟨r1, s', r2, h1, by rw [h2, h.2], h.1.symm⟩
  · rintro ⟨r1, s', r2, h1, h2, rfl⟩
    simp [h1, h2]

theorem runSyms_perm {A : List α} {w : ℝ} (hw : 0 ≤ w) {l l' : List α} (hp : l.Perm l') :
    ∀ {s : KT α}, Good A s → (∀ a ∈ l, a ∈ A) → ∀ {r s'}, runSyms w s l = .ok (r, s') →
      runSyms w s l' = .ok (r, s') := by
  induction hp with
  | nil => intro s _ _ r s' h; exact h
  | @cons a l l' hp ih =>
    intro s hs hl r s' h
    obtain ⟨r1, t, r2, h1, h2, rfl⟩ := runSyms_cons_ok.mp h
    obtain ⟨c, hc, _⟩ := hs.get (hl a (by simp))
    have hu := hs.update (hl a (by simp)) hc w
    rw [hu] at h1
    simp only [Except.ok.injEq, Prod.mk.injEq] at h1
    obtain ⟨rfl, rfl⟩ := h1
    exact runSyms_cons_ok.mpr ⟨_, _, r2, hu,
      ih (hs.step (hl a (by simp)) hc hw) (fun b hb => hl b (by simp [hb])) h2, rfl⟩
  | @swap a b l =>
    intro s hs hl r s' h
    by_cases hab : a = b
    · subst hab
      exact h
    have hA : A ≠ [] := List.ne_nil_of_mem (hl a (by simp))
    have hS := hs.sum_pos hA
    obtain ⟨ca, hca, hca0⟩ := hs.get (hl a (by simp))
    obtain ⟨cb, hcb, hcb0⟩ := hs.get (hl b (by simp))
    obtain ⟨r1, t, r2, h1, h2, rfl⟩ := runSyms_cons_ok.mp h
    obtain ⟨r3, u, r4, h3, h4, rfl⟩ := runSyms_cons_ok.mp h2
    have hub := hs.update (hl b (by simp)) hcb w
    rw [hub] at h1
    simp only [Except.ok.injEq, Prod.mk.injEq] at h1
    obtain ⟨rfl, rfl⟩ := h1
    have hsb := hs.step (hl b (by simp)) hcb hw
    have hca' : PyDict.get? (s.counts.set b (cb + w)) a = some ca := by
      rw [get?_set_other _ _ hab]; exact hca
    have huab := hsb.update (hl a (by simp)) hca' w
    rw [huab] at h3
    simp only [Except.ok.injEq, Prod.mk.injEq] at h3
    obtain ⟨rfl, rfl⟩ := h3
    -- the other order
    have hua := hs.update (hl a (by simp)) hca w
    have hsa := hs.step (hl a (by simp)) hca hw
    have hcb' : PyDict.get? (s.counts.set a (ca + w)) b = some cb := by
      rw [get?_set_other _ _ (Ne.symm hab)]; exact hcb
    have huba := hsa.update (hl b (by simp)) hcb' w
    have hcomm : PyDict.set (PyDict.set s.counts b (cb + w)) a (ca + w) =
        PyDict.set (PyDict.set s.counts a (ca + w)) b (cb + w) :=
      set_comm _ _ (Ne.symm hab) (by rw [hs.keys]; exact hl b (by simp)) (by rw [hs.keys]; exact hl a (by simp))
    refine runSyms_cons_ok.mpr ⟨_, _, _, hua, runSyms_cons_ok.mpr ⟨_, _, r4, huba, ?_, rfl⟩, ?_⟩
    · simp only at h4 ⊢
      rw [← hcomm]
      exact h4
    · simp only
      have hSw : 0 < s.sumCounts + w := by linarith
      rw [Real.log_div hcb0.ne' hS.ne', Real.log_div hca0.ne' hSw.ne',
        Real.log_div hca0.ne' hS.ne', Real.log_div hcb0.ne' hSw.ne']
      ring
  | trans _ _ ih1 ih2 =>
    rename_i l1 l2 l3 hp1 hp2
    intro s hs hl r s' h
    exact ih2 hs (fun b hb => hl b (hp1.mem_iff.mpr hb)) (ih1 hs hl h)

end KT

end Verif
