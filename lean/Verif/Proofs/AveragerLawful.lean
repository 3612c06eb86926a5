import Verif.Proofs.Averager

/-! `Averager` keeps the contracts of its components; so do `KT` and `KTBinary`. -/

namespace Verif

theorem sum_map_sum_comm {ι κ : Type} (l : List ι) (m : List κ) (f : ι → κ → ℝ) :
    (l.map fun i => (m.map fun j => f i j).sum).sum = (m.map fun j => (l.map fun i => f i j).sum).sum := by
  induction l with
  | nil => simp
  | cons i l ih => simp [ih, List.sum_map_add]

namespace KT

variable {α : Type} [DecidableEq α]

theorem lawfulFull {A : List α} (hA : A.Nodup) (hne : A ≠ []) :
    (predictor : Predictor (KT α) α).Lawful (Good A) A (fun w => 0 ≤ w) where
  update_ok := (lawful hA hne).total
  predict_ok := by
    intro s a h hs ha
    obtain ⟨c, hc, _⟩ := hs.get ha
    exact ⟨_, s, by simp only [predictor, hs.logPredict ha hc, ok_bind]; rfl, hs⟩
  coherent := coherent
  normalised := by
    intro s h hs
    rw [← (lawful hA hne).sum_probOf hs (w := 1) zero_le_one h]
    congr 1
    apply List.map_congr_left
    intro a ha
    obtain ⟨r, s', hu, _⟩ := (lawful hA hne).total s a h 1 hs ha zero_le_one
    obtain ⟨t, ht⟩ := coherent s a h 1 hs ha zero_le_one r s' hu
    rw [hu, ht]
    rfl

end KT

namespace Averager

variable {σ α : Type} {P : Predictor σ α}

/-- A well-formed `Averager` all of whose components satisfy `I`. -/
structure Over (I : σ → Prop) (s : Averager σ) : Prop where
  inv : Inv s
  all : ∀ p ∈ s.models, I p.1

theorem forall₂_all {R : σ × ℝ → σ × ℝ → Prop} {I : σ → Prop} {l l' : List (σ × ℝ)}
    (h : List.Forall₂ R l l') (hl : ∀ p ∈ l, I p.1) (hR : ∀ p q, I p.1 → R p q → I q.1) :
    ∀ q ∈ l', I q.1 := by
  induction h with
  | nil => simp
  | cons hq _ ih =>
    intro q hq'
    rcases List.mem_cons.mp hq' with rfl | hq'
    · exact hR _ _ (hl _ (by simp)) hq
    · exact ih (fun p hp => hl p (by simp [hp])) q hq'

theorem updateLawful {I : σ → Prop} {A : List α} {W : ℝ → Prop} (hP : P.UpdateLawful I A W) :
    (predictor P).UpdateLawful (Over I) A W where
  total := by
    intro s a h w hs ha hw
    obtain ⟨r, s', hu⟩ := update_total hs.inv (P := P) (a := a) (h := h) (w := w) (fun p hp => by
      obtain ⟨r, t, h1, _⟩ := hP.total p.1 a h w (hs.all p hp) ha hw
      exact ⟨r, t, h1⟩)
    refine ⟨r, s', hu, hs.inv.update hu, ?_⟩
    refine forall₂_all ((update_ok hs.inv.ne).mp hu).1 hs.all ?_
    intro p q hp hq
    obtain ⟨r, t, h1, h2⟩ := hP.total p.1 a h w hp ha hw
    rw [h1] at hq
    simp only [Except.ok.injEq, Prod.mk.injEq] at hq
    exact hq.2 ▸ h2
  normalised := by
    intro s h w hs hw f hf
    have h1 : (A.map fun a => Real.exp (f a) * Real.exp s.logProb).sum = Real.exp s.logProb := by
      rw [List.map_congr_left (g := fun a =>
        (s.models.map fun p => Real.exp p.2 * Predictor.probOf (P.update p.1 a h w)).sum)]
      · rw [sum_map_sum_comm, hs.inv.sum]
        congr 1
        rw [List.map_map]
        apply List.map_congr_left
        intro p hp
        rw [List.sum_map_mul_left, hP.sum_probOf (hs.all p hp) hw h, mul_one]
        rfl
      · intro a ha
        obtain ⟨s', hu⟩ := hf a ha
        exact probOf_update hs.inv hu
    rw [List.sum_map_mul_right] at h1
    exact mul_right_cancel₀ (Real.exp_pos s.logProb).ne' (by rw [h1, one_mul])

theorem lawful {I : σ → Prop} {A : List α} {W : ℝ → Prop} (hP : P.Lawful I A W) :
    (predictor P).Lawful (Over I) A W where
  update_ok := (updateLawful hP.updateLawful).total
  predict_ok := by
    intro s a h hs ha
    obtain ⟨r, s', hu⟩ := logPredict_total hs.inv (P := P) (a := a) (h := h) (fun p hp => by
      obtain ⟨r, t, h1, _⟩ := hP.predict_ok p.1 a h (hs.all p hp) ha
      exact ⟨r, t, h1⟩)
    refine ⟨r, s', hu, hs.inv.logPredict hu, ?_⟩
    simp only [Averager.logPredict, bind_eq_ok, pure_eq_ok, Except.ok.injEq, Prod.mk.injEq,
      Prod.exists] at hu
    obtain ⟨vs, ms, h1, lp, h2, rfl, rfl⟩ := hu
    refine forall₂_all (predictModels_ok h1).1 hs.all ?_
    rintro p q hp ⟨r, hq, _⟩
    obtain ⟨r, t, h1, h2⟩ := hP.predict_ok p.1 a h hp ha
    rw [h1] at hq
    simp only [Except.ok.injEq, Prod.mk.injEq] at hq
    exact hq.2 ▸ h2
  coherent := by
    intro s a h w hs ha hw r s' hu
    obtain ⟨r', t, hp⟩ := logPredict_total hs.inv (P := P) (a := a) (h := h) (fun p hp => by
      obtain ⟨r, t, h1, _⟩ := hP.predict_ok p.1 a h (hs.all p hp) ha
      exact ⟨r, t, h1⟩)
    have e1 := probOf_update hs.inv hu
    have e2 := probOf_logPredict hp
    have : (s.models.map fun p => Real.exp p.2 * Predictor.probOf (P.update p.1 a h w)) =
        s.models.map fun p => Real.exp p.2 * Predictor.probOf (P.logPredict p.1 a h) := by
      apply List.map_congr_left
      intro p hp
      obtain ⟨r, s1, h1, _⟩ := hP.update_ok p.1 a h w (hs.all p hp) ha hw
      obtain ⟨t, ht⟩ := hP.coherent p.1 a h w (hs.all p hp) ha hw r s1 h1
      rw [h1, ht]
      rfl
    rw [this, ← e2] at e1
    have := Real.exp_injective (mul_right_cancel₀ (Real.exp_pos s.logProb).ne' e1)
    exact ⟨t, by rw [this]; exact hp⟩
  normalised := by
    intro s h hs
    have h1 : (A.map fun a => Predictor.probOf ((predictor P).logPredict s a h) * Real.exp s.logProb).sum =
        Real.exp s.logProb := by
      rw [List.map_congr_left (g := fun a =>
        (s.models.map fun p => Real.exp p.2 * Predictor.probOf (P.logPredict p.1 a h)).sum)]
      · rw [sum_map_sum_comm, hs.inv.sum]
        congr 1
        rw [List.map_map]
        apply List.map_congr_left
        intro p hp
        rw [List.sum_map_mul_left, hP.normalised p.1 h (hs.all p hp), mul_one]
        rfl
      · intro a ha
        obtain ⟨r, s', hu⟩ := logPredict_total hs.inv (P := P) (a := a) (h := h) (fun p hp => by
          obtain ⟨r, t, h1, _⟩ := hP.predict_ok p.1 a h (hs.all p hp) ha
          exact ⟨r, t, h1⟩)
        have := probOf_logPredict hu
        change Predictor.probOf (Averager.logPredict P s a h) * _ = _
        rw [hu]
        exact this
    rw [List.sum_map_mul_right] at h1
    exact mul_right_cancel₀ (Real.exp_pos s.logProb).ne' (by rw [h1, one_mul])

theorem over_init {I : σ → Prop} {ms : List σ} (hm : ∀ m ∈ ms, I m) {s : Averager σ} (h : init ms = .ok s) :
    Over I s := by
  refine ⟨inv_init h, ?_⟩
  obtain ⟨_, rfl⟩ := init_ok.mp h
  intro p hp
  simp only [List.mem_map] at hp
  obtain ⟨m, hm', rfl⟩ := hp
  exact hm m hm'

end Averager

end Verif
