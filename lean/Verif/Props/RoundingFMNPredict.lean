import Verif.Spec.RoundingFMNPredict
import Verif.Proofs.RoundingFMNPredict
import Verif.Props.RoundingFMN
import Verif.Props.RoundingPredict

/-!
# C127: predictions of the forget-me-not process in rounded arithmetic
-/

namespace Verif

open Arith Predictor

variable {R : Arith} {ε : ℝ} {S S' σ σ' α : Type}

namespace Arith

theorem _root_.Verif.FMN.NearStep.mono {St : Store S σ} {P : Predictor σ α} {m : ℕ} {δ δ' : ℝ} (hδ : δ ≤ δ') {s s' : FMN S σ}
    {o : Obs α} {r : ℝ} (h : FMN.NearStep St P m δ s o r s') : FMN.NearStep St P m δ' s o r s' := by
  have hmax : ∀ {τ : Type} {l : List (τ × ℝ)} {x : τ}, FMN.NearMax δ l x → FMN.NearMax δ' l x := by
    rintro τ l x ⟨k, h1, h2⟩
    exact ⟨k, h1, fun y hy => by linarith [h2 y hy]⟩
  obtain ⟨p, hp, h1⟩ := h
  refine ⟨p, hp, ?_⟩
  split
  · next hper =>
    rw [if_pos hper] at h1
    obtain ⟨b, c, st, ⟨a, ha, hb⟩, h2⟩ := h1
    exact ⟨b, c, st, ⟨a, hmax ha, hmax hb⟩, h2⟩
  · next hper =>
    rw [if_neg hper] at h1
    exact h1

theorem _root_.Verif.FMN.NearCalls.mono {St : Store S σ} {P : Predictor σ α} {m : ℕ} {δ δ' : ℝ} (hδ : δ ≤ δ') {s : FMN S σ} {cs : List (Call α)}
    {rs : List ℝ} (h : FMN.NearCalls St P m δ s cs rs) : FMN.NearCalls St P m δ' s cs rs := by
  induction h with
  | nil s => exact .nil s
  | update h1 _ ih => exact .update (h1.mono hδ) ih
  | predict h1 _ ih => exact .predict h1 ih

theorem FmnSim.calls {P' : Predictor σ' α} {P : Predictor σ α} {A : Obs α → Prop} {T H h0 : ℕ} {β ρ G L : ℝ} {Sim : Rel σ' σ}
    {St' : Store S' σ'} {St : Store S σ} {Rl : (σ' → σ → Prop) → ℕ → S' → S → Prop}
    (hSt : StoreSim St' St Rl) (hC : CopySim P' P Sim) (hR : R.Accurate ε) (hB : BaseSim P' P A T β ρ Sim) (hP : PredSim P' P A T β ρ Sim)
    (hβ : 0 ≤ β) (hρ : 0 ≤ ρ) (hγ : 0 ≤ Sim.γ) (hεG : 0 ≤ ε * G) (hL : Real.log (T + 1 : ℕ) ≤ L) (hN : 64 * (T + 1 : ℕ) * ε ≤ 1)
    (hG1 : L + T * (ρ + avErr ε β G Sim.γ T (T + 1)) ≤ G) (hG2 : T * (8 * (ρ + fmnErr ε β G Sim.γ T H + 5 * (ε * G))) + 2 ≤ G)
    (hG3 : T * (ρ + 1 + (fmnErr ε β G Sim.γ T H + 3 * (ε * G))) + 2 ≤ G) (hTH : T ≤ 2 ^ H) (cs : List (Call α))
    (hA : ∀ c ∈ cs, match c with | .update a h w => A ⟨a, h, w⟩ | .predict a h => ∃ w, A ⟨a, h, w⟩) :
    ∀ {t : ℕ} {s' : FMN S' σ'} {s : FMN S σ}, t + updates cs < T → FmnSim Rl Sim ε β ρ G L T h0 H t s' s →
    ∃ rs, FMN.NearCalls St P h0 (2 * T * (fmnErr ε β G Sim.γ T H + 4 * (ε * G))) s cs rs ∧
      FMN.Returns (2 * T * (5 * fmnErr ε β G Sim.γ T H + 21 * (ε * G))) (R.fmnPredictor St' P' h0) s' cs rs := by
  have e0 := hR.nonneg
  have hE0 : 0 ≤ fmnErr ε β G Sim.γ T H := by
    simp only [fmnErr, ptwErr, fmnBase, avErr]
    positivity
  have hgap : ∀ {t : ℕ} {s' : FMN S' σ'} {s : FMN S σ}, FmnSim Rl Sim ε β ρ G L T h0 H t s' s →
      |s'.ptw.logProb - s.ptw.logProb| ≤ t * (5 * fmnErr ε β G Sim.γ T H + 21 * (ε * G)) := by
    rintro t s' s ⟨-, -, -, ⟨-, -, g0⟩, -⟩
    simp only [fmnErr] at g0 ⊢
    exact g0
  have hbnd : ∀ {t : ℕ}, t < T → (2 * t + 1) * (5 * fmnErr ε β G Sim.γ T H + 21 * (ε * G)) + 2 * (ε * G) ≤
      2 * T * (5 * fmnErr ε β G Sim.γ T H + 21 * (ε * G)) := by
    intro t ht
    have h1 : (t : ℝ) + 1 ≤ T := by exact_mod_cast ht
    have h2 := mul_le_mul_of_nonneg_right h1 (by linarith : 0 ≤ 5 * fmnErr ε β G Sim.γ T H + 21 * (ε * G))
    linarith
  have hL0 : 0 ≤ L := le_trans (Real.log_nonneg (by push_cast; linarith [(Nat.cast_nonneg T : (0 : ℝ) ≤ T)])) hL
  induction cs with
  | nil => exact fun {t s' s} _ _ => ⟨[], .nil s, .nil⟩
  | cons c cs ih =>
    intro t s' s ht hs
    have hc := hA c (by simp)
    have hA' := fun c hc => hA c (List.mem_cons_of_mem _ hc)
    have g0 := hgap hs
    cases c with
    | update a h w =>
      simp only [updates] at ht
      obtain ⟨r', q', r, q, a1, a2, a3, a4, a5, -⟩ := FmnSim.step hSt hC hR hB hβ hρ hγ hεG hL hN hG1 hG2 hG3 hTH (by omega) hs hc
      obtain ⟨rs, b1, b2⟩ := ih hA' (by omega) a3
      have g1 := hgap a3
      have e1 : (R.fmnPredictor St' P' h0).step s' (.update a h w) = .ok (r', q') := a1
      refine ⟨r :: rs, .update a2 b1, ?_⟩
      simp only [FMN.Returns, outputs, e1, List.forall₂_cons]
      refine ⟨⟨r', rfl, le_trans ?_ (hbnd (t := t) (by omega))⟩, b2⟩
      push_cast at g1
      rw [a4]
      rw [abs_le] at *
      constructor <;> linarith [a5.1, a5.2, g0.1, g0.2, g1.1, g1.2]
    | predict a h =>
      simp only [updates] at ht
      obtain ⟨w, hw⟩ := hc
      obtain ⟨r', q', r, q, a1, a2, a3, -, a5⟩ := FmnSim.predict hR hB hP hβ hρ hγ hεG hL0 hN hG1 hG2 hTH (by omega) hs hw
      obtain ⟨rs, b1, b2⟩ := ih hA' (by omega) a3
      have e1 : (R.fmnPredictor St' P' h0).step s' (.predict a h) = .ok (r', q') := a1
      refine ⟨r :: rs, .predict a2 b1, ?_⟩
      simp only [FMN.Returns, outputs, e1, List.forall₂_cons]
      refine ⟨⟨r', rfl, le_trans ?_ (hbnd (t := t) (by omega))⟩, b2⟩
      rw [abs_le] at *
      constructor <;> linarith [a5.1, a5.2, g0.1, g0.2]

/-- `FMN` over a model with small errors, with any store. -/
theorem fmn_near_calls {P' : Predictor σ' α} {P : Predictor σ α} {β ρ c : ℝ} {Sim : Rel σ' σ} {f' : σ'} {f : σ} (B : List α)
    {St' : Store S' σ'} {St : Store S σ} {Rl : (σ' → σ → Prop) → ℕ → S' → S → Prop} (hSt : StoreSim St' St Rl) (hC : CopySim P' P Sim)
    (hR : R.Accurate ε) (m H : ℕ) (cs : List (Call α)) (hx : ∀ c ∈ cs, c.Plain B) (hTH : updates cs + 1 ≤ 2 ^ H) (hm : m ≤ H)
    (hB : BaseSim P' P (fun o => o.sym ∈ B ∧ o.weight = 1) (updates cs + 1) β ρ Sim)
    (hP : PredSim P' P (fun o => o.sym ∈ B ∧ o.weight = 1) (updates cs + 1) β ρ Sim)
    (hβ0 : 0 ≤ β) (hβ : β ≤ c * (ε * (10 * ((updates cs + 1 : ℕ) : ℝ) * ρ + 4))) (hc : 1 ≤ c) (hρ : 69 / 100 ≤ ρ)
    (hL : Real.log (updates cs + 1 + 1 : ℕ) ≤ ρ) (hγ : Sim.γ = 0) (hf : Sim.sim 0 f' f)
    (hε : 1000 * ((H : ℝ) + 2 + c) * ε * ((updates cs + 1 : ℕ) : ℝ) ≤ 1) :
    ∃ s' s rs, R.fmnInit St' P' f' m = .ok s' ∧ FMN.init St P f m = .ok s ∧
      FMN.NearCalls St P m ((18 * H + 48 + 2 * c) * ε * (updates cs + 1) ^ 2 * (10 * ρ + 4)) s cs rs ∧
      FMN.Returns ((90 * H + 242 + 10 * c) * ε * (updates cs + 1) ^ 2 * (10 * ρ + 4)) (R.fmnPredictor St' P' m) s' cs rs := by
  have e0 := hR.nonneg
  have hTd : (updates cs : ℝ) + 1 = ((updates cs + 1 : ℕ) : ℝ) := by push_cast; rfl
  rw [hTd]
  set T := updates cs + 1 with hTdef
  have hT : 1 ≤ T := by omega
  have h1 : (1 : ℝ) ≤ T := by exact_mod_cast hT
  have hH0 : (0 : ℝ) ≤ H := Nat.cast_nonneg H
  set G := 10 * (T : ℝ) * ρ + 4 with hGd
  have hTρ : 69 / 100 * (T : ℝ) ≤ T * ρ := by nlinarith
  have hρT : ρ ≤ T * ρ := le_mul_of_one_le_left (by linarith) h1
  have hG0 : 0 ≤ G := by linarith
  have hεG : 0 ≤ ε * G := mul_nonneg e0 hG0
  have hav0 : 24 * ((T + 1 : ℕ) : ℝ) * ε ≤ 6 * (ε * G) := by
    push_cast
    have := mul_le_mul_of_nonneg_right (by linarith : 24 * ((T : ℝ) + 1) ≤ 6 * G) e0
    linarith
  have hav : avErr ε β G 0 T (T + 1) ≤ (8 + c) * (ε * G) := by
    simp only [avErr]
    linarith
  have hErr : fmnErr ε β G 0 T H ≤ (9 * H + 20 + c) * (ε * G) := by
    simp only [fmnErr, ptwErr, fmnBase]
    linarith
  have hroom : ∀ d : ℝ, 0 ≤ d → d ≤ 9 * H + 26 + c → T * (d * (ε * G)) ≤ 9 / 1000 * G := by
    intro d hd hdH
    have k1 : d * (ε * T) ≤ (9 * H + 18 + 9 * c) * (ε * T) := mul_le_mul_of_nonneg_right (by linarith) (by positivity)
    have k2 : d * (ε * T) * G ≤ 9 / 1000 * G := mul_le_mul_of_nonneg_right (by linarith) hG0
    linarith
  have hmul : ∀ x d : ℝ, 0 ≤ d → d ≤ 9 * H + 26 + c → x ≤ d * (ε * G) → T * x ≤ 9 / 1000 * G := fun x d hd hdH hx =>
    le_trans (mul_le_mul_of_nonneg_left hx (by linarith)) (hroom d hd hdH)
  have r1 := hmul _ (8 + c) (by linarith) (by linarith) hav
  have r2 := hmul _ (9 * H + 20 + c) (by linarith) (by linarith) hErr
  have r3 := hmul _ 5 (by norm_num) (by linarith) (le_refl (5 * (ε * G)))
  have hG1 : ρ + T * (ρ + avErr ε β G 0 T (T + 1)) ≤ G := by
    rw [mul_add]
    linarith
  have hG2 : T * (8 * (ρ + fmnErr ε β G 0 T H + 5 * (ε * G))) + 2 ≤ G := by
    have : T * (8 * (ρ + fmnErr ε β G 0 T H + 5 * (ε * G))) = 8 * (T * ρ) + 8 * (T * fmnErr ε β G 0 T H) + 8 * (T * (5 * (ε * G))) := by ring
    linarith
  have hG3 : T * (ρ + 1 + (fmnErr ε β G 0 T H + 3 * (ε * G))) + 2 ≤ G := by
    have h3 := hmul _ 3 (by norm_num) (by linarith) (le_refl (3 * (ε * G)))
    have : T * (ρ + 1 + (fmnErr ε β G 0 T H + 3 * (ε * G))) = T * ρ + T + T * fmnErr ε β G 0 T H + T * (3 * (ε * G)) := by ring
    linarith
  have hN : 64 * ((T + 1 : ℕ) : ℝ) * ε ≤ 1 := by
    push_cast
    have k1 : 0 ≤ (H + (c - 1)) * (ε * T) := by
      have : 0 ≤ ε * T := by positivity
      exact mul_nonneg (by linarith) this
    have k2 : ε ≤ ε * T := le_mul_of_one_le_right e0 h1
    linarith
  rw [← hγ] at hG1 hG2 hG3 hErr
  obtain ⟨s', s, i1, i2, i3, -⟩ := FmnSim.init (G := G) (h0 := m) hSt hC hR hB hγ.ge hL hm hf
  obtain ⟨rs, k1, k2⟩ := FmnSim.calls hSt hC hR hB hP hβ0 (by linarith) hγ.ge hεG hL hN hG1 hG2 hG3 hTH cs (by
    intro c hc
    have := hx c hc
    cases c with
    | update a h w => exact this
    | predict a h => exact ⟨1, this, rfl⟩) (by omega) i3
  have hfin : T * (ε * G) ≤ ε * T ^ 2 * (10 * ρ + 4) := by
    have : ε * T * (10 * T * ρ + 4) ≤ ε * T * (10 * T * ρ + 4 * T) := mul_le_mul_of_nonneg_left (by linarith) (by positivity)
    calc T * (ε * G) = ε * T * (10 * T * ρ + 4) := by rw [hGd]; ring
      _ ≤ _ := this
      _ = _ := by ring
  have g1 := mul_le_mul_of_nonneg_left hErr (by positivity : (0 : ℝ) ≤ T)
  refine ⟨s', s, rs, i1, i2, ?_, ?_⟩
  · refine FMN.NearCalls.mono ?_ k1
    have g2 := mul_le_mul_of_nonneg_left hfin (by linarith : (0 : ℝ) ≤ 18 * H + 48 + 2 * c)
    calc 2 * (T : ℝ) * (fmnErr ε β G Sim.γ T H + 4 * (ε * G)) ≤ (18 * H + 48 + 2 * c) * (T * (ε * G)) := by linarith
      _ ≤ _ := g2
      _ = _ := by ring
  · refine k2.imp ?_
    rintro o r ⟨r', e1, e2⟩
    refine ⟨r', e1, le_trans e2 ?_⟩
    have g2 := mul_le_mul_of_nonneg_left hfin (by linarith : (0 : ℝ) ≤ 90 * H + 242 + 10 * c)
    calc 2 * (T : ℝ) * (5 * fmnErr ε β G Sim.γ T H + 21 * (ε * G)) ≤ (90 * H + 242 + 10 * c) * (T * (ε * G)) := by linarith
      _ ≤ _ := g2
      _ = _ := by ring

end Arith

/-- **C127 (`KTBinary`).** Take `FMN` over `KTBinary` with either store, and call `update` and `log_predict` in any order.  In rounded arithmetic no call
raises.  Every number returned is near that of a run in exact arithmetic which stores, at the end of each period, a model that is the best one up to a
difference of the same order. -/
theorem C127_KTBinary (hR : R.Accurate ε) (m H : ℕ) (cs : List (Call Bool)) (hx : ∀ c ∈ cs, c.Plain [false, true]) (hTH : updates cs + 1 ≤ 2 ^ H)
    (hm : m ≤ H) (hε : 1000 * ((H : ℝ) + 3) * ε * ((updates cs + 1 : ℕ) : ℝ) ≤ 1) :
    let ℓ := 10 * Real.log (2 * ((updates cs + 1 : ℕ) : ℝ)) + 4
    let δ := (18 * H + 50) * ε * (updates cs + 1) ^ 2 * ℓ
    let Δ := (90 * H + 252) * ε * (updates cs + 1) ^ 2 * ℓ
    (∃ s' s rs, R.fmnInit (LogStore.store _) R.ktPredictor (KTBinary.init none) m = .ok s' ∧
      FMN.init (LogStore.store _) KTBinary.predictor (KTBinary.init none) m = .ok s ∧
      FMN.NearCalls (LogStore.store _) KTBinary.predictor m δ s cs rs ∧
      FMN.Returns Δ (R.fmnPredictor (LogStore.store _) R.ktPredictor m) s' cs rs) ∧
    ∃ s' s rs, R.fmnInit (LogStoreUniform.store _) R.ktPredictor (KTBinary.init none) m = .ok s' ∧
      FMN.init (LogStoreUniform.store _) KTBinary.predictor (KTBinary.init none) m = .ok s ∧
      FMN.NearCalls (LogStoreUniform.store _) KTBinary.predictor m δ s cs rs ∧
      FMN.Returns Δ (R.fmnPredictor (LogStoreUniform.store _) R.ktPredictor m) s' cs rs := by
  intro ℓ δ Δ
  have e0 := hR.nonneg
  have hB := ktBase hR (updates cs + 1)
  have h1 : (1 : ℝ) ≤ (updates cs + 1 : ℕ) := by exact_mod_cast (by omega : 1 ≤ updates cs + 1)
  have hρ := log_ge (by omega : 1 ≤ updates cs + 1)
  have hβ : ε * (Real.log (2 * ((updates cs + 1 : ℕ) : ℝ)) + 5 * ((updates cs + 1 : ℕ) : ℝ)) ≤
      1 * (ε * (10 * ((updates cs + 1 : ℕ) : ℝ) * Real.log (2 * ((updates cs + 1 : ℕ) : ℝ)) + 4)) := by
    rw [one_mul]
    refine mul_le_mul_of_nonneg_left ?_ e0
    generalize Real.log (2 * ((updates cs + 1 : ℕ) : ℝ)) = ρ at *
    nlinarith
  have hL : Real.log (updates cs + 1 + 1 : ℕ) ≤ Real.log (2 * ((updates cs + 1 : ℕ) : ℝ)) :=
    Real.log_le_log (by positivity) (by push_cast at h1 ⊢; linarith)
  have hB' : BaseSim R.ktPredictor KTBinary.predictor (fun o => o.sym ∈ [false, true] ∧ o.weight = 1) (updates cs + 1) _ _ (ktRel ε) :=
    ⟨fun m s' s o hm hs ho => hB.step m s' s o hm hs ho.2, hB.gap⟩
  have hP : PredSim R.ktPredictor KTBinary.predictor (fun o => o.sym ∈ [false, true] ∧ o.weight = 1) (updates cs + 1)
      (ε * (Real.log (2 * ((updates cs + 1 : ℕ) : ℝ)) + 5 * ((updates cs + 1 : ℕ) : ℝ))) (Real.log (2 * ((updates cs + 1 : ℕ) : ℝ))) (ktRel ε) := by
    refine hB'.predSim ?_ ?_
    · intro s a h w r t e
      simp only [ktPredictor, ktUpdate, bind_eq_ok, pure_eq_ok, Except.ok.injEq, Prod.mk.injEq] at e ⊢
      obtain ⟨x, e1, rfl, -⟩ := e
      exact ⟨x, e1, rfl, trivial⟩
    · intro s a h w r t e
      simp only [KTBinary.predictor, KTBinary.update, bind_eq_ok, pure_eq_ok, Except.ok.injEq, Prod.mk.injEq] at e ⊢
      obtain ⟨x, e1, rfl, -⟩ := e
      exact ⟨x, e1, rfl, trivial⟩
  have hβ0 : 0 ≤ ε * (Real.log (2 * ((updates cs + 1 : ℕ) : ℝ)) + 5 * ((updates cs + 1 : ℕ) : ℝ)) := mul_nonneg e0 (by linarith)
  have c1 : (18 * (H : ℝ) + 48 + 2 * 1) = 18 * H + 50 := by ring
  have c2 : (90 * (H : ℝ) + 242 + 10 * 1) = 90 * H + 252 := by ring
  have h3 : 1000 * ((H : ℝ) + 2 + 1) * ε * ((updates cs + 1 : ℕ) : ℝ) ≤ 1 := by rw [show (H : ℝ) + 2 + 1 = H + 3 by ring]; exact hε
  have k1 := fmn_near_calls [false, true] logStore_sim ktCopy hR m H cs hx hTH hm hB' hP hβ0 hβ le_rfl hρ hL rfl (KtSim.init : KtSim ε 0 _ _) h3
  have k2 := fmn_near_calls [false, true] uniStore_sim ktCopy hR m H cs hx hTH hm hB' hP hβ0 hβ le_rfl hρ hL rfl (KtSim.init : KtSim ε 0 _ _) h3
  rw [c1, c2] at k1 k2
  exact ⟨k1, k2⟩

variable [DecidableEq α]

/-- **C127 (`KT`).** The same over `KT` with any alphabet. -/
theorem C127_KT (hR : R.Accurate ε) (A : List α) (hA : A.Nodup) (hne : A ≠ []) (m H : ℕ) (cs : List (Call α)) (hx : ∀ c ∈ cs, c.Plain A)
    (hTH : updates cs + 1 ≤ 2 ^ H) (hm : m ≤ H) (hε : 1000 * ((H : ℝ) + 3 + A.length) * ε * ((updates cs + 1 : ℕ) : ℝ) ≤ 1) :
    let ℓ := 10 * Real.log (A.length * (((updates cs + 1 : ℕ) : ℝ) + 1)) + 4
    let δ := (18 * H + 50 + 2 * A.length) * ε * (updates cs + 1) ^ 2 * ℓ
    let Δ := (90 * H + 252 + 10 * A.length) * ε * (updates cs + 1) ^ 2 * ℓ
    ∃ f' f, R.katInit A = .ok f' ∧ KT.init A none = .ok f ∧
    (∃ s' s rs, R.fmnInit (LogStore.store _) R.katPredictor f' m = .ok s' ∧ FMN.init (LogStore.store _) KT.predictor f m = .ok s ∧
      FMN.NearCalls (LogStore.store _) KT.predictor m δ s cs rs ∧ FMN.Returns Δ (R.fmnPredictor (LogStore.store _) R.katPredictor m) s' cs rs) ∧
    ∃ s' s rs, R.fmnInit (LogStoreUniform.store _) R.katPredictor f' m = .ok s' ∧ FMN.init (LogStoreUniform.store _) KT.predictor f m = .ok s ∧
      FMN.NearCalls (LogStoreUniform.store _) KT.predictor m δ s cs rs ∧
      FMN.Returns Δ (R.fmnPredictor (LogStoreUniform.store _) R.katPredictor m) s' cs rs := by
  intro ℓ δ Δ
  have e0 := hR.nonneg
  obtain ⟨f', f, i1, i2, i3⟩ := KatSim.init hR hA hne
  have hn : (1 : ℝ) ≤ A.length := by exact_mod_cast List.length_pos_iff.2 hne
  have h1 : (1 : ℝ) ≤ (updates cs + 1 : ℕ) := by exact_mod_cast (by omega : 1 ≤ updates cs + 1)
  have hB := katBase hR A (updates cs + 1)
  have hP := hB.predSim (fun s a h w r t e => (C124_predict R a h w).1 s t r e) (by
    intro s a h w r t e
    rw [← (C124_exact A).2.1] at e ⊢
    exact (C124_predict Arith.exact a h w).1 s t r e)
  have hL : Real.log (updates cs + 1 + 1 : ℕ) ≤ Real.log (A.length * (((updates cs + 1 : ℕ) : ℝ) + 1)) :=
    Real.log_le_log (by positivity) (by push_cast at h1 ⊢; nlinarith)
  have hρ : 69 / 100 ≤ Real.log (A.length * (((updates cs + 1 : ℕ) : ℝ) + 1)) := by
    have h2 : (2 : ℝ) ≤ A.length * (((updates cs + 1 : ℕ) : ℝ) + 1) := by nlinarith
    have := Real.log_le_log (by norm_num) h2
    have := Real.log_two_gt_d9
    linarith
  have hβ : ε * (Real.log (A.length * (((updates cs + 1 : ℕ) : ℝ) + 1)) + 3 * (2 * ((updates cs + 1 : ℕ) : ℝ) + A.length + 1)) ≤
      (1 + A.length) * (ε * (10 * ((updates cs + 1 : ℕ) : ℝ) * Real.log (A.length * (((updates cs + 1 : ℕ) : ℝ) + 1)) + 4)) := by
    rw [mul_left_comm]
    refine mul_le_mul_of_nonneg_left ?_ e0
    generalize Real.log (A.length * (((updates cs + 1 : ℕ) : ℝ) + 1)) = ρ at *
    generalize ((updates cs + 1 : ℕ) : ℝ) = T at *
    have h2 : 69 / 100 * T ≤ T * ρ := by nlinarith
    have h3 : ρ ≤ T * ρ := by nlinarith
    have h4 : 1 * (10 * T * ρ + 4) ≤ A.length * (10 * T * ρ + 4) := mul_le_mul_of_nonneg_right hn (by nlinarith)
    nlinarith
  have hβ0 : 0 ≤ ε * (Real.log (A.length * (((updates cs + 1 : ℕ) : ℝ) + 1)) + 3 * (2 * ((updates cs + 1 : ℕ) : ℝ) + A.length + 1)) :=
    mul_nonneg e0 (by linarith)
  have hC : CopySim R.katPredictor (KT.predictor (α := α)) (katRel A ε) := fun _ x' x h => ⟨x', x, rfl, rfl, h⟩
  have c1 : (18 * (H : ℝ) + 48 + 2 * (1 + A.length)) = 18 * H + 50 + 2 * A.length := by ring
  have c2 : (90 * (H : ℝ) + 242 + 10 * (1 + A.length)) = 90 * H + 252 + 10 * A.length := by ring
  have h3 : 1000 * ((H : ℝ) + 2 + (1 + A.length)) * ε * ((updates cs + 1 : ℕ) : ℝ) ≤ 1 := by
    rw [show (H : ℝ) + 2 + (1 + A.length) = H + 3 + A.length by ring]
    exact hε
  have k1 := fmn_near_calls A logStore_sim hC hR m H cs hx hTH hm hB hP hβ0 hβ (by linarith) hρ hL rfl i3 h3
  have k2 := fmn_near_calls A uniStore_sim hC hR m H cs hx hTH hm hB hP hβ0 hβ (by linarith) hρ hL rfl i3 h3
  rw [c1, c2] at k1 k2
  exact ⟨f', f, i1, i2, k1, k2⟩

/-- **C127 (`SAD`).** The same over `SAD`, in an arithmetic that counts exactly. -/
theorem C127_SAD (hR : R.Accurate ε) (A : List α) (hne : A ≠ []) (m H : ℕ) (cs : List (Call α)) (hx : ∀ c ∈ cs, c.Plain A)
    (hC : ∀ a b : ℕ, a + b ≤ updates cs + 1 → R.add a b = a + b) (hTH : updates cs + 1 ≤ 2 ^ H) (hm : m ≤ H)
    (hε : 1000 * ((H : ℝ) + 8) * ε * ((updates cs + 1 : ℕ) : ℝ) ≤ 1) :
    let ℓ := 10 * Real.log (3 * A.length * ((updates cs + 1 : ℕ) : ℝ) ^ 2) + 4
    let δ := (18 * H + 60) * ε * (updates cs + 1) ^ 2 * ℓ
    let Δ := (90 * H + 302) * ε * (updates cs + 1) ^ 2 * ℓ
    (∃ s' s rs, R.fmnInit (LogStore.store _) R.sadPredictor (SAD.init A.length : SAD α) m = .ok s' ∧
      FMN.init (LogStore.store _) SAD.predictor (SAD.init A.length : SAD α) m = .ok s ∧ FMN.NearCalls (LogStore.store _) SAD.predictor m δ s cs rs ∧
      FMN.Returns Δ (R.fmnPredictor (LogStore.store _) R.sadPredictor m) s' cs rs) ∧
    ∃ s' s rs, R.fmnInit (LogStoreUniform.store _) R.sadPredictor (SAD.init A.length : SAD α) m = .ok s' ∧
      FMN.init (LogStoreUniform.store _) SAD.predictor (SAD.init A.length : SAD α) m = .ok s ∧
      FMN.NearCalls (LogStoreUniform.store _) SAD.predictor m δ s cs rs ∧
      FMN.Returns Δ (R.fmnPredictor (LogStoreUniform.store _) R.sadPredictor m) s' cs rs := by
  intro ℓ δ Δ
  have e0 := hR.nonneg
  have hn : (1 : ℝ) ≤ A.length := by exact_mod_cast List.length_pos_iff.2 hne
  have h1 : (1 : ℝ) ≤ (updates cs + 1 : ℕ) := by exact_mod_cast (by omega : 1 ≤ updates cs + 1)
  have hε' : 64 * ε * ((updates cs + 1 : ℕ) : ℝ) ≤ 1 := by
    have h7 : 0 ≤ ε * ((updates cs + 1 : ℕ) : ℝ) := by positivity
    have h8 : (0 : ℝ) ≤ H := Nat.cast_nonneg H
    have := mul_nonneg h8 h7
    linarith
  have hB := sadBase hR A (updates cs + 1) hC hε'
  have hP := hB.predSim (fun s a h w r t e => (C124_predict R a h w).2 s t r e) (by
    intro s a h w r t e
    rw [← (C124_exact A).2.2] at e ⊢
    exact (C124_predict Arith.exact a h w).2 s t r e)
  have h2 := one_le_pow₀ h1 (n := 2)
  have hL : Real.log (updates cs + 1 + 1 : ℕ) ≤ Real.log (3 * A.length * ((updates cs + 1 : ℕ) : ℝ) ^ 2) := by
    refine Real.log_le_log (by positivity) ?_
    rw [Nat.cast_add, Nat.cast_one]
    generalize ((updates cs + 1 : ℕ) : ℝ) = T at *
    nlinarith
  have hρ : 69 / 100 ≤ Real.log (3 * A.length * ((updates cs + 1 : ℕ) : ℝ) ^ 2) := by
    have h2 : (2 : ℝ) ≤ 3 * A.length * ((updates cs + 1 : ℕ) : ℝ) ^ 2 := by nlinarith
    have := Real.log_le_log (by norm_num) h2
    have := Real.log_two_gt_d9
    linarith
  have hβ : ε * (Real.log (3 * A.length * ((updates cs + 1 : ℕ) : ℝ) ^ 2) + 32 * ((updates cs + 1 : ℕ) : ℝ)) ≤
      6 * (ε * (10 * ((updates cs + 1 : ℕ) : ℝ) * Real.log (3 * A.length * ((updates cs + 1 : ℕ) : ℝ) ^ 2) + 4)) := by
    rw [mul_left_comm]
    refine mul_le_mul_of_nonneg_left ?_ e0
    generalize Real.log (3 * A.length * ((updates cs + 1 : ℕ) : ℝ) ^ 2) = ρ at *
    generalize ((updates cs + 1 : ℕ) : ℝ) = T at *
    have h2 : 69 / 100 * T ≤ T * ρ := by nlinarith
    have h3 : ρ ≤ T * ρ := by nlinarith
    linarith
  have hβ0 : 0 ≤ ε * (Real.log (3 * A.length * ((updates cs + 1 : ℕ) : ℝ) ^ 2) + 32 * ((updates cs + 1 : ℕ) : ℝ)) := mul_nonneg e0 (by linarith)
  have hCp : CopySim R.sadPredictor (SAD.predictor (α := α)) (sadRel A) := fun _ x' x h => ⟨x', x, rfl, rfl, h⟩
  have c1 : (18 * (H : ℝ) + 48 + 2 * 6) = 18 * H + 60 := by ring
  have c2 : (90 * (H : ℝ) + 242 + 10 * 6) = 90 * H + 302 := by ring
  have h3 : 1000 * ((H : ℝ) + 2 + 6) * ε * ((updates cs + 1 : ℕ) : ℝ) ≤ 1 := by rw [show (H : ℝ) + 2 + 6 = H + 8 by ring]; exact hε
  have k1 := fmn_near_calls A logStore_sim hCp hR m H cs hx hTH hm hB hP hβ0 hβ (by norm_num) hρ hL rfl (SadSim.init A) h3
  have k2 := fmn_near_calls A uniStore_sim hCp hR m H cs hx hTH hm hB hP hβ0 hβ (by norm_num) hρ hL rfl (SadSim.init A) h3
  rw [c1, c2] at k1 k2
  exact ⟨k1, k2⟩

omit [DecidableEq α]

/-- **C127 (no near ties).** If no comparison in the exact run is a near tie, the run that the rounded one is near to is the exact one. -/
theorem C127_decisive (St : Store S σ) (P : Predictor σ α) (m : ℕ) (δ : ℝ) (cs : List (Call α)) : ∀ (s : FMN S σ) (rs : List ℝ),
    FMN.DecisiveCalls St P m δ s cs → FMN.NearCalls St P m δ s cs rs → (FMN.predictor St P m).outputs s cs = rs.map .ok := by
  induction cs with
  | nil =>
    rintro s rs - h
    cases h
    rfl
  | cons c cs ih =>
    intro s rs hd h
    cases h with
    | @update _ s1 a h w r _ rs k1 k2 =>
      obtain ⟨p, hp, k1⟩ := k1
      have hu : FMN.update St P m s a h w = .ok (r, s1) := by
        rw [FMN.update, hp, ok_bind]
        dsimp only
        by_cases hper : (s.t + 1) % 2 ^ m = 0
        · rw [if_pos hper] at k1 ⊢
          obtain ⟨b, c, st, hb, hc, hst, rfl⟩ := k1
          rw [← hd.1 r p hp hper b hb, hc, hst]
          rfl
        · rw [if_neg hper] at k1 ⊢
          rw [k1]
          rfl
      have e1 : (FMN.predictor St P m).step s (.update a h w) = .ok (r, s1) := hu
      simp only [outputs, e1, ih _ _ (hd.2 _ _ hu) k2, List.map_cons]
    | @predict _ s1 a h r _ rs k1 k2 =>
      have e1 : (FMN.predictor St P m).step s (.predict a h) = .ok (r, s1) := k1
      simp only [outputs, e1, ih _ _ (hd _ _ k1) k2, List.map_cons]

/-- Predictions of `PTW` use only the predictions of its base models. -/
theorem PTW.logPredict_congr {P1 P2 : Predictor σ α} {a : α} {h : List α} (hl : ∀ s, P1.logPredict s a h = P2.logPredict s a h) (t : PTW σ) :
    t.logPredict P1 a h = t.logPredict P2 a h := by
  have : ∀ n : PTWNode σ, n.logPredict P1 a h = n.logPredict P2 a h := by
    intro n
    induction n with
    | leaf d => rw [PTWNode.logPredict, PTWNode.logPredict, hl]
    | inner d r ih => rw [PTWNode.logPredict, PTWNode.logPredict, hl, ih]
  rw [PTW.logPredict, PTW.logPredict, this]

/-- **C127 (exact arithmetic).** With exact arithmetic the predictions are those of the other files. -/
theorem C127_exact (P : Predictor σ α) (v : Averager σ) (s : FMN S σ) (a : α) (h : List α) :
    Arith.exact.avLogPredict P v a h = Averager.logPredict P v a h ∧ Arith.exact.fmnLogPredict P s a h = FMN.logPredict P s a h := by
  have hav : ∀ v, Arith.exact.avLogPredict P v a h = Averager.logPredict P v a h := by
    intro v
    have : ∀ ms, Arith.exact.avPredictModels P a h ms = Averager.predictModels P a h ms := by
      intro ms
      induction ms with
      | nil => rfl
      | cons x ms ih =>
        obtain ⟨x, l⟩ := x
        rw [avPredictModels, Averager.predictModels, ih]
        rfl
    simp only [avLogPredict, Averager.logPredict, this, logsumexp_exact]
    rfl
  refine ⟨hav v, ?_⟩
  letI := Classical.decEq α
  have h1 := (C125_exact (Arith.exact.avPredictor P) v 0 0 s.ptw a h).1
  replace h1 : Arith.exact.ptwLogPredict (Arith.exact.avPredictor P) s.ptw a h = s.ptw.logPredict (Arith.exact.avPredictor P) a h := h1
  have h2 : s.ptw.logPredict (Arith.exact.avPredictor P) a h = s.ptw.logPredict (Averager.predictor P) a h :=
    PTW.logPredict_congr (fun v => hav v) s.ptw
  rw [fmnLogPredict, FMN.logPredict, h1, h2]

/-- **C127 (the exact run).** The run of `FMN` in exact arithmetic is one of those that store nearly the best model, for every difference. -/
theorem C127_near_exact (P : Predictor σ α) (m : ℕ) (δ : ℝ) (hδ : 0 ≤ δ) (cs : List (Call α)) : ∀ (rs : List ℝ) (s : FMN (LogStore σ) σ),
    (FMN.predictor (LogStore.store σ) P m).outputs s cs = rs.map .ok → FMN.NearCalls (LogStore.store σ) P m δ s cs rs := by
  have hmax : ∀ {τ : Type} (x : τ × ℝ) (l : List (τ × ℝ)), FMN.NearMax δ (x :: l) (Averager.maxByKey x l).1 := by
    intro τ x l
    obtain ⟨i, hi, k1, k2, -⟩ := Averager.maxByKey_spec x l
    refine ⟨(Averager.maxByKey x l).2, Averager.maxByKey_mem x l, fun y hy => ?_⟩
    rw [k1]
    linarith [k2 y hy]
  induction cs with
  | nil =>
    intro rs s h
    rw [outputs, eq_comm, List.map_eq_nil_iff] at h
    rw [h]
    exact .nil s
  | cons c cs ih =>
    intro rs s h
    rw [outputs] at h
    cases rs with
    | nil => cases e : (FMN.predictor (LogStore.store σ) P m).step s c <;> rw [e] at h <;> simp at h
    | cons r rs =>
      cases e : (FMN.predictor (LogStore.store σ) P m).step s c with
      | error x => rw [e] at h; simp at h
      | ok x =>
        obtain ⟨r1, s1⟩ := x
        rw [e] at h
        simp only [List.map_cons, List.cons.injEq, Except.ok.injEq] at h
        obtain ⟨rfl, h⟩ := h
        have ih := ih rs s1 h
        cases c with
        | predict a h' => exact .predict e ih
        | update a h' w =>
          refine .update ?_ ih
          have e : FMN.update (LogStore.store σ) P m s a h' w = .ok (r1, s1) := e
          rw [FMN.update] at e
          obtain ⟨⟨r2, p⟩, hp, e⟩ := bind_eq_ok.1 e
          dsimp only at e
          by_cases hper : (s.t + 1) % 2 ^ m = 0
          · rw [if_pos hper] at e
            obtain ⟨st, hst, e⟩ := bind_eq_ok.1 e
            obtain ⟨rfl, rfl⟩ := Prod.mk.inj (Except.ok.inj e)
            refine ⟨p, hp, ?_⟩
            rw [if_pos hper]
            cases hb : FMN.best P p with
            | error x => rw [hb] at hst; cases hst
            | ok c =>
              rw [hb] at hst
              simp only [FMN.best, bind_eq_ok] at hb
              obtain ⟨a, ga, b, gb, gc⟩ := hb
              refine ⟨b, c, st, ⟨a, ?_, ?_⟩, gc, hst, rfl⟩
              · rw [PTW.map] at ga
                split at ga
                · cases ga
                · next x l hl =>
                  rw [hl, ← Except.ok.inj ga]
                  exact hmax x l
              · rw [Averager.map] at gb
                split at gb
                · cases gb
                · next x l hl =>
                  rw [hl, ← Except.ok.inj gb]
                  exact hmax x l
          · rw [if_neg hper] at e
            obtain ⟨rfl, rfl⟩ := Prod.mk.inj (Except.ok.inj e)
            refine ⟨p, hp, ?_⟩
            rw [if_neg hper]

/-- **C127 (the same number, `Averager`).** In an arithmetic whose addition is commutative, as that of floating-point numbers is, `log_predict` of `Averager`
returns in every state exactly the number that `update` would, if its components do; or both raise the same. -/
theorem C127_Averager_previews (R : Arith) (hadd : ∀ x y, R.add x y = R.add y x) (P : Predictor σ α) (hP : P.Previews) : (R.avPredictor P).Previews := by
  intro s a h w
  have key : ∀ ms, (R.avPredictModels P a h ms).map Prod.fst = (R.avUpdateModels P a h w ms).map fun l => l.map Prod.snd := by
    intro ms
    induction ms with
    | nil => rfl
    | cons x ms ih =>
      obtain ⟨x, l⟩ := x
      have := hP x a h w
      rw [avPredictModels, avUpdateModels]
      revert this ih
      cases P.logPredict x a h with
      | error e => cases P.update x a h w <;> simp [Except.map, bind, Except.bind]
      | ok u =>
        cases P.update x a h w with
        | error e => simp [Except.map]
        | ok v =>
          simp only [ok_bind]
          cases R.avPredictModels P a h ms <;> cases R.avUpdateModels P a h w ms <;> simp [Except.map, bind, Except.bind, pure, Except.pure]
          · exact fun e _ => e
          · intro e1 e2
            rw [e1, e2, hadd]
            exact ⟨rfl, rfl⟩
  have := key s.models
  show (R.avLogPredict P s a h).map Prod.fst = (R.avUpdate P s a h w).map Prod.fst
  rw [avLogPredict, avUpdate]
  revert this
  cases R.avPredictModels P a h s.models <;> cases R.avUpdateModels P a h w s.models <;> simp [Except.map, bind, Except.bind]
  intro e
  rw [e]
  cases R.logsumexp _ <;> rfl

/-- Addition in double precision is commutative. -/
example (x y : ℝ) : Double.arith.add x y = Double.arith.add y x := by simp only [Double.arith, add_comm]

theorem Arith.fmnUpdate_ptw {St : Store S σ} {P : Predictor σ α} {m : ℕ} {s u : FMN S σ} {a : α} {h : List α} {w r : ℝ}
    (hu : R.fmnUpdate St P m s a h w = .ok (r, u)) :
    R.ptwUpdate (R.avPredictor P) (R.fmnFactory P (St.items s.store)) m s.ptw a h w = .ok (r, u.ptw) := by
  rw [fmnUpdate] at hu
  obtain ⟨⟨r1, p⟩, hp, hu⟩ := bind_eq_ok.1 hu
  dsimp only at hu
  split_ifs at hu
  · obtain ⟨st, -, hu⟩ := bind_eq_ok.1 hu
    obtain ⟨rfl, rfl⟩ := Prod.mk.inj (Except.ok.inj hu)
    exact hp
  · obtain ⟨rfl, rfl⟩ := Prod.mk.inj (Except.ok.inj hu)
    exact hp

/-- **C127 (the same number, `FMN`).** Before the first update, and whenever the number of updates is not a multiple of the length of a period, whatever was
predicted in between: if an update of `FMN` does not raise, then `log_predict` returns exactly the same number. -/
theorem C127_FMN_previews_in_block (R : Arith) (hadd : ∀ x y, R.add x y = R.add y x) (St : Store S σ) (P : Predictor σ α) (hP : P.Previews) (f : σ) (m : ℕ)
    (cs : List (Call α)) (s0 s u : FMN S σ) (hi : R.fmnInit St P f m = .ok s0) (hs : (R.fmnPredictor St P m).after s0 cs = .ok s)
    (hb : updates cs = 0 ∨ ¬ 2 ^ m ∣ updates cs) (a : α) (h : List α) (w r : ℝ) (hu : R.fmnUpdate St P m s a h w = .ok (r, u)) :
    ∃ q, R.fmnLogPredict P s a h = .ok (r, q) := by
  have key : ∀ (cs : List (Call α)) (n : ℕ) (s0 : FMN S σ), Chain m n s0.ptw.tree → (R.fmnPredictor St P m).after s0 cs = .ok s →
      Chain m (n + updates cs) s.ptw.tree := by
    intro cs
    induction cs with
    | nil =>
      intro n s0 h0 h1
      cases h1
      exact h0
    | cons c cs ih =>
      intro n s0 h0 h1
      obtain ⟨r, t, h2, h3⟩ := after_cons.1 h1
      cases c with
      | update a h w =>
        have h2 : R.fmnUpdate St P m s0 a h w = .ok (r, t) := h2
        have h2 := fmnUpdate_ptw h2
        simp only [ptwUpdate, bind_eq_ok, pure_eq_ok, Except.ok.injEq, Prod.mk.injEq] at h2
        obtain ⟨_, -, t', h4, -, h5⟩ := h2
        have := ih (n + 1) _ (by rw [← h5]; exact h0.update h4) h3
        rwa [add_right_comm, add_assoc] at this
      | predict a h =>
        have h2 : R.fmnLogPredict P s0 a h = .ok (r, t) := h2
        simp only [fmnLogPredict, ptwLogPredict, bind_eq_ok, pure_eq_ok, Except.ok.injEq, Prod.mk.injEq, Prod.exists] at h2
        obtain ⟨_, _, ⟨_, -, _, _, _, t', h4, -, rfl⟩, -, rfl⟩ := h2
        exact ih n _ (h0.predict h4) h3
  have h0 : Chain m 0 s0.ptw.tree := by
    simp only [fmnInit, bind_eq_ok, pure_eq_ok, Except.ok.injEq] at hi
    obtain ⟨_, -, v, -, rfl⟩ := hi
    exact Chain.leaf (d := PTWData.new v m) rfl rfl (Nat.zero_le _)
  have hc := key cs 0 s0 h0 hs
  rw [zero_add] at hc
  have ho := hc.open hb
  have hp := Open.previews (R := R) (m := m) (f := R.fmnFactory P (St.items s.store)) (C127_Averager_previews R hadd P hP) ho a h w
  have hcm : s.ptw.tree.data.complete = false := by
    cases ht : s.ptw.tree with
    | leaf d => rw [ht] at ho; exact ho
    | inner d r => rw [ht] at ho; exact ho.1
  have hu := fmnUpdate_ptw hu
  simp only [ptwUpdate, ptwAdjusted, hcm, Bool.false_eq_true, if_false, ok_bind, bind_eq_ok, pure_eq_ok, Except.ok.injEq, Prod.mk.injEq] at hu
  obtain ⟨n, h4, rfl, -⟩ := hu
  rw [h4] at hp
  cases h5 : R.ptwNodeLogPredict (R.avPredictor P) a h s.ptw.tree with
  | error e => rw [h5] at hp; cases hp
  | ok q =>
    obtain ⟨⟨q1, q2, q3⟩, q4⟩ := q
    rw [h5] at hp
    simp only [Except.map, Except.ok.injEq, Prod.mk.injEq] at hp
    refine ⟨{ s with ptw := ⟨q4, s.ptw.logProb, s.ptw.adj⟩ }, ?_⟩
    simp only [fmnLogPredict, ptwLogPredict, ptwAdjustedPredict, hcm, Bool.false_eq_true, if_false, ok_bind, h5, pure_eq_ok, hp.1]

/-- An update and then a prediction, in double precision. -/
example (hR : R.Accurate (2 ^ (-52 : ℤ))) : ∃ s' r1 r2, R.fmnInit (LogStore.store _) R.ktPredictor (KTBinary.init none) 1 = .ok s' ∧
    (R.fmnPredictor (LogStore.store _) R.ktPredictor 1).outputs s' [.update true [] 1, .predict false [true]] = [.ok r1, .ok r2] := by
  obtain ⟨⟨s', s, rs, h1, -, -, h4⟩, -⟩ := C127_KTBinary hR 1 1 [.update true [] 1, .predict false [true]] (by simp [Call.Plain]) (by simp [updates])
    le_rfl (by norm_num [updates])
  obtain ⟨s1, r1, hs1⟩ : ∃ s1 r1, (R.fmnPredictor (LogStore.store _) R.ktPredictor 1).step s' (.update true [] 1) = .ok (r1, s1) := by
    cases e : (R.fmnPredictor (LogStore.store _) R.ktPredictor 1).step s' (.update true [] 1) with
    | error x =>
      simp only [FMN.Returns, outputs, e] at h4
      cases h4 with
      | cons h _ => obtain ⟨_, h, -⟩ := h; cases h
    | ok x => exact ⟨x.2, x.1, rfl⟩
  obtain ⟨s2, r2, hs2⟩ : ∃ s2 r2, (R.fmnPredictor (LogStore.store _) R.ktPredictor 1).step s1 (.predict false [true]) = .ok (r2, s2) := by
    cases e : (R.fmnPredictor (LogStore.store _) R.ktPredictor 1).step s1 (.predict false [true]) with
    | error x =>
      simp only [FMN.Returns, outputs, hs1, e] at h4
      cases h4 with
      | cons _ h4 =>
        cases h4 with
        | cons h _ => obtain ⟨_, h, -⟩ := h; cases h
    | ok x => exact ⟨x.2, x.1, rfl⟩
  exact ⟨s', r1, r2, h1, by simp only [outputs, hs1, hs2]⟩

end Verif
