import Verif.Spec.RoundingPredict
import Verif.Proofs.PTWPredict
import Verif.Props.RoundingAlphabets

/-!
# C125: predictions in rounded arithmetic
-/

namespace Verif

open Arith Layer Predictor

variable {R : Arith} {ε : ℝ} {α : Type} [DecidableEq α]

namespace Arith

/-- The outputs of calls in any order. -/
theorem BaseSim.calls {σ' σ : Type} {P' : Predictor σ' α} {P : Predictor σ α} {A : Obs α → Prop} {T : ℕ} {β ρ : ℝ} {Sim : Rel σ' σ}
    (hB : BaseSim P' P A T β ρ Sim) (hP : PredSim P' P A T β ρ Sim) (hγ : 0 ≤ Sim.γ) (hγβ : Sim.γ ≤ β) (cs : List (Call α))
    (hA : ∀ c ∈ cs, match c with | .update a h w => A ⟨a, h, w⟩ | .predict a h => ∃ w, A ⟨a, h, w⟩) (m : ℕ) (hm : m + updates cs < T)
    (s' : σ') (s : σ) (hs : Sim.sim m s' s) : AllNear (2 * T * β) P' s' P s cs := by
  have hT : (1 : ℝ) ≤ T := by exact_mod_cast (by omega : 1 ≤ T)
  have hβ : 0 ≤ β := by linarith
  induction cs generalizing m s' s with
  | nil => exact ⟨rfl, .nil⟩
  | cons c cs ih =>
    have hc := hA c (by simp)
    have hbnd : m + 1 ≤ T → 2 * m * Sim.γ + β ≤ 2 * T * β := by
      intro h
      have h1 : (m : ℝ) + 1 ≤ T := by exact_mod_cast h
      have h2 : (m : ℝ) * Sim.γ ≤ m * β := mul_le_mul_of_nonneg_left hγβ (Nat.cast_nonneg m)
      have h3 := mul_le_mul_of_nonneg_right h1 hβ
      linarith
    have hg0 := abs_le.1 (hB.gap _ _ _ hs)
    cases c with
    | update a h w =>
      simp only [updates] at hm
      obtain ⟨r', t', r, t, h1, h2, h3, h4, -⟩ := hB.step m s' s ⟨a, h, w⟩ (by omega) hs hc
      obtain ⟨k1, k2⟩ := ih (fun c hc => hA c (by simp [hc])) (m + 1) (by omega) t' t h3
      have hg1 := abs_le.1 (hB.gap _ _ _ h3)
      push_cast at hg1
      have e1 : P'.step s' (.update a h w) = .ok (r', t') := h1
      have e2 : P.step s (.update a h w) = .ok (r, t) := h2
      simp only [AllNear, outputs, e1, e2, List.length_cons, k1, List.forall₂_cons]
      refine ⟨trivial, ⟨r', r, rfl, rfl, le_trans ?_ (hbnd (by omega))⟩, k2⟩
      rw [abs_le] at h4 ⊢
      constructor <;> linarith [h4.1, h4.2, hg0.1, hg0.2, hg1.1, hg1.2]
    | predict a h =>
      simp only [updates] at hm
      obtain ⟨w, hw⟩ := hc
      obtain ⟨r', t', r, t, h1, h2, h3, h4, h5, -⟩ := hP m s' s ⟨a, h, w⟩ (by omega) hs hw
      obtain ⟨k1, k2⟩ := ih (fun c hc => hA c (by simp [hc])) m (by omega) t' t h3
      have e1 : P'.step s' (.predict a h) = .ok (r', t') := h1
      have e2 : P.step s (.predict a h) = .ok (r, t) := h2
      simp only [AllNear, outputs, e1, e2, List.length_cons, k1, List.forall₂_cons]
      refine ⟨trivial, ⟨r', r, rfl, rfl, le_trans ?_ (hbnd (by omega))⟩, k2⟩
      rw [abs_le] at h5 ⊢
      constructor <;> linarith [h5.1, h5.2, hg0.1, hg0.2]

/-- The outputs of towers. -/
theorem over_calls [Fintype α] {σ' σ : Type} (hR : R.Accurate ε) {H c : ℕ} {ρ β : ℝ} (B : List α) (cs : List (Call α)) (hTH : updates cs + 1 ≤ 2 ^ H)
    (hρ : 69 / 100 ≤ ρ) {P' : Predictor σ' α} {P : Predictor σ α} {f' : σ'} {f : σ} {Sim0 : Rel σ' σ}
    (hB0 : BaseSim P' P (fun o => o.sym ∈ B ∧ o.weight = 1) (updates cs + 1) β ρ Sim0)
    (hP0 : PredSim P' P (fun o => o.sym ∈ B ∧ o.weight = 1) (updates cs + 1) β ρ Sim0)
    (hβ0 : β ≤ c * (ε * (10 * ((updates cs + 1 : ℕ) : ℝ) * ρ + 4))) (hf : Sim0.sim 0 f' f) (hfg : Sim0.gap f' f = 0) (hγ0 : Sim0.γ = 0) (pad : α)
    (ls : List Layer) (hfit : ∀ l ∈ ls, l.Fits H (updates cs + 1)) (hε : 100 * (costOver c H ls : ℝ) * ε * ((updates cs + 1 : ℕ) : ℝ) ≤ 1)
    (hx : ∀ c ∈ cs, c.Plain B) :
    AllNear (2 * costOver c H ls * ε * (updates cs + 1) ^ 2 * (10 * ρ + 4)) (roundedOver R P' f' pad ls) (newOver α f' ls)
      (exactOver P f pad ls) (newOver α f ls) cs := by
  have e0 := hR.nonneg
  obtain ⟨Sim, hB, hi, hg, g0, g1, hP⟩ := over_sim hR (by omega) hTH hρ hB0 hβ0 hf hfg hγ0 pad ls hfit hε
  have hT1 : (1 : ℝ) ≤ (updates cs + 1 : ℕ) := by exact_mod_cast (by omega : 1 ≤ updates cs + 1)
  obtain ⟨k1, k2⟩ := hB.calls (hP hP0) g0 g1 cs (by
    intro c hc
    have := hx c hc
    cases c with
    | update a h w => exact this
    | predict a h => exact ⟨1, this, rfl⟩) 0 (by omega) _ _ hi
  refine ⟨k1, k2.imp fun o' o hh => ?_⟩
  obtain ⟨r', r, e1, e2, e3⟩ := hh
  refine ⟨r', r, e1, e2, le_trans e3 ?_⟩
  set T : ℝ := ((updates cs + 1 : ℕ) : ℝ) with hTd
  have hTe : (updates cs : ℝ) + 1 = T := by rw [hTd]; push_cast; rfl
  rw [hTe]
  have hc0 : 0 ≤ (costOver c H ls : ℝ) * ε * T := by positivity
  calc 2 * T * (costOver c H ls * (ε * (10 * T * ρ + 4))) = 2 * (costOver c H ls * ε * T) * (10 * T * ρ + 4) := by ring
    _ ≤ 2 * (costOver c H ls * ε * T) * (10 * T * ρ + 4 * T) := mul_le_mul_of_nonneg_left (by linarith) (by linarith)
    _ = _ := by ring

end Arith

/-- **C125 (`KTBinary`).** Take any tower of `CTW`, `PTW` and `PTWFixedLength` over `KTBinary`, and call `update` and `log_predict` in any order.  In rounded
arithmetic no call raises, and every result is near that of exact arithmetic. -/
theorem C125_KTBinary (hR : R.Accurate ε) (ls : List Layer) (H : ℕ) (cs : List (Call Bool)) (hx : ∀ c ∈ cs, c.Plain [false, true])
    (hTH : updates cs + 1 ≤ 2 ^ H) (hfit : ∀ l ∈ ls, l.Fits H (updates cs + 1))
    (hε : 100 * (costOver 1 H ls : ℝ) * ε * ((updates cs + 1 : ℕ) : ℝ) ≤ 1) :
    AllNear (2 * costOver 1 H ls * ε * (updates cs + 1) ^ 2 * (10 * Real.log (2 * ((updates cs + 1 : ℕ) : ℝ)) + 4))
      (roundedOver R R.ktPredictor (KTBinary.init none) false ls) (newOver Bool (KTBinary.init none) ls)
      (exactOver KTBinary.predictor (KTBinary.init none) false ls) (newOver Bool (KTBinary.init none) ls) cs := by
  have e0 := hR.nonneg
  have hB := ktBase hR (updates cs + 1)
  have h1 : (1 : ℝ) ≤ (updates cs + 1 : ℕ) := by exact_mod_cast (by omega : 1 ≤ updates cs + 1)
  have hρ := log_ge (by omega : 1 ≤ updates cs + 1)
  have hβ : ε * (Real.log (2 * ((updates cs + 1 : ℕ) : ℝ)) + 5 * ((updates cs + 1 : ℕ) : ℝ)) ≤
      ((1 : ℕ) : ℝ) * (ε * (10 * ((updates cs + 1 : ℕ) : ℝ) * Real.log (2 * ((updates cs + 1 : ℕ) : ℝ)) + 4)) := by
    rw [Nat.cast_one, one_mul]
    refine mul_le_mul_of_nonneg_left ?_ e0
    generalize Real.log (2 * ((updates cs + 1 : ℕ) : ℝ)) = ρ at *
    nlinarith
  have hB' : BaseSim R.ktPredictor KTBinary.predictor (fun o => o.sym ∈ [false, true] ∧ o.weight = 1) (updates cs + 1) _ _ (ktRel ε) :=
    ⟨fun m s' s o hm hs ho => hB.step m s' s o hm hs ho.2, hB.gap⟩
  refine over_calls hR [false, true] cs hTH (by linarith) hB' (hB'.predSim ?_ ?_) hβ (KtSim.init : KtSim ε 0 _ _) rfl rfl false ls hfit hε hx
  · intro s a h w r t e
    simp only [ktPredictor, ktUpdate, bind_eq_ok, pure_eq_ok, Except.ok.injEq, Prod.mk.injEq] at e ⊢
    obtain ⟨x, e1, rfl, -⟩ := e
    exact ⟨x, e1, rfl, trivial⟩
  · intro s a h w r t e
    simp only [KTBinary.predictor, KTBinary.update, bind_eq_ok, pure_eq_ok, Except.ok.injEq, Prod.mk.injEq] at e ⊢
    obtain ⟨x, e1, rfl, -⟩ := e
    exact ⟨x, e1, rfl, trivial⟩

/-- **C125 (`KT`).** The same over `KT` with any alphabet. -/
theorem C125_KT [Fintype α] (hR : R.Accurate ε) (A : List α) (hA : A.Nodup) (hne : A ≠ []) (pad : α) (ls : List Layer) (H : ℕ) (cs : List (Call α))
    (hx : ∀ c ∈ cs, c.Plain A) (hTH : updates cs + 1 ≤ 2 ^ H) (hfit : ∀ l ∈ ls, l.Fits H (updates cs + 1))
    (hε : 100 * (costOver (A.length + 1) H ls : ℝ) * ε * ((updates cs + 1 : ℕ) : ℝ) ≤ 1) :
    ∃ s' s, R.katInit A = .ok s' ∧ KT.init A none = .ok s ∧
      AllNear (2 * costOver (A.length + 1) H ls * ε * (updates cs + 1) ^ 2 * (10 * Real.log (A.length * (((updates cs + 1 : ℕ) : ℝ) + 1)) + 4))
        (roundedOver R R.katPredictor s' pad ls) (newOver α s' ls) (exactOver KT.predictor s pad ls) (newOver α s ls) cs := by
  have e0 := hR.nonneg
  obtain ⟨s', s, k1, k2, k3⟩ := KatSim.init hR hA hne
  have hn : (1 : ℝ) ≤ A.length := by exact_mod_cast List.length_pos_iff.2 hne
  have h1 : (1 : ℝ) ≤ (updates cs + 1 : ℕ) := by exact_mod_cast (by omega : 1 ≤ updates cs + 1)
  have hB := katBase hR A (updates cs + 1)
  generalize hTd : ((updates cs + 1 : ℕ) : ℝ) = T at *
  have hρ : 69 / 100 ≤ Real.log (A.length * (T + 1)) := by
    have h2 : (2 : ℝ) ≤ A.length * (T + 1) := by nlinarith
    have := Real.log_le_log (by norm_num) h2
    have := Real.log_two_gt_d9
    linarith
  have hβ : ε * (Real.log (A.length * (T + 1)) + 3 * (2 * T + A.length + 1)) ≤
      ((A.length + 1 : ℕ) : ℝ) * (ε * (10 * T * Real.log (A.length * (T + 1)) + 4)) := by
    push_cast
    rw [mul_left_comm]
    refine mul_le_mul_of_nonneg_left ?_ e0
    generalize Real.log (A.length * (T + 1)) = ρ at *
    have h2 : 69 / 100 * T ≤ T * ρ := by nlinarith
    have h3 : ρ ≤ T * ρ := by nlinarith
    have h4 : 1 * (10 * T * ρ + 4) ≤ A.length * (10 * T * ρ + 4) := mul_le_mul_of_nonneg_right hn (by nlinarith)
    nlinarith
  refine ⟨s', s, k1, k2, over_calls hR A cs hTH hρ hB (hB.predSim ?_ ?_) (by rw [hTd]; exact hβ) k3 rfl rfl pad ls hfit (by rw [hTd]; exact hε) hx⟩
  · intro s a h w r t e
    exact (C124_predict R a h w).1 s t r e
  · intro s a h w r t e
    rw [← (C124_exact A).2.1] at e ⊢
    exact (C124_predict Arith.exact a h w).1 s t r e

/-- **C125 (`SAD`).** The same over `SAD`, in an arithmetic that counts exactly. -/
theorem C125_SAD [Fintype α] (hR : R.Accurate ε) (A : List α) (hne : A ≠ []) (pad : α) (ls : List Layer) (H : ℕ) (cs : List (Call α))
    (hC : ∀ a b : ℕ, a + b ≤ updates cs + 1 → R.add a b = a + b)
    (hx : ∀ c ∈ cs, c.Plain A) (hTH : updates cs + 1 ≤ 2 ^ H) (hfit : ∀ l ∈ ls, l.Fits H (updates cs + 1))
    (hε : 100 * (costOver 6 H ls : ℝ) * ε * ((updates cs + 1 : ℕ) : ℝ) ≤ 1) :
    AllNear (2 * costOver 6 H ls * ε * (updates cs + 1) ^ 2 * (10 * Real.log (3 * A.length * ((updates cs + 1 : ℕ) : ℝ) ^ 2) + 4))
      (roundedOver R R.sadPredictor (SAD.init A.length) pad ls) (newOver α (SAD.init A.length) ls)
      (exactOver SAD.predictor (SAD.init A.length) pad ls) (newOver α (SAD.init A.length) ls) cs := by
  have e0 := hR.nonneg
  have hn : (1 : ℝ) ≤ A.length := by exact_mod_cast List.length_pos_iff.2 hne
  have h1 : (1 : ℝ) ≤ (updates cs + 1 : ℕ) := by exact_mod_cast (by omega : 1 ≤ updates cs + 1)
  have hc : ∀ ls : List Layer, 6 ≤ costOver 6 H ls := by
    intro ls
    induction ls with
    | nil => exact le_rfl
    | cons l ls ih => cases l <;> simp only [costOver] <;> omega
  have hε' : 64 * ε * ((updates cs + 1 : ℕ) : ℝ) ≤ 1 := by
    have h6 : (6 : ℝ) ≤ costOver 6 H ls := by exact_mod_cast hc ls
    have h7 : 0 ≤ ε * ((updates cs + 1 : ℕ) : ℝ) := by positivity
    have := mul_le_mul_of_nonneg_right h6 h7
    linarith
  have hB := sadBase hR A (updates cs + 1) hC hε'
  generalize hTd : ((updates cs + 1 : ℕ) : ℝ) = T at *
  have hρ : 69 / 100 ≤ Real.log (3 * A.length * T ^ 2) := by
    have h2 : (2 : ℝ) ≤ 3 * A.length * T ^ 2 := by nlinarith [one_le_pow₀ h1 (n := 2)]
    have := Real.log_le_log (by norm_num) h2
    have := Real.log_two_gt_d9
    linarith
  have hβ : ε * (Real.log (3 * A.length * T ^ 2) + 32 * T) ≤ ((6 : ℕ) : ℝ) * (ε * (10 * T * Real.log (3 * A.length * T ^ 2) + 4)) := by
    push_cast
    rw [mul_left_comm]
    refine mul_le_mul_of_nonneg_left ?_ e0
    generalize Real.log (3 * A.length * T ^ 2) = ρ at *
    have h2 : 69 / 100 * T ≤ T * ρ := by nlinarith
    have h3 : ρ ≤ T * ρ := by nlinarith
    linarith
  refine over_calls hR A cs hTH hρ hB (hB.predSim ?_ ?_) (by rw [hTd]; exact hβ) (SadSim.init A) rfl rfl pad ls hfit (by rw [hTd]; exact hε) hx
  · intro s a h w r t e
    exact (C124_predict R a h w).2 s t r e
  · intro s a h w r t e
    rw [← (C124_exact A).2.2] at e ⊢
    exact (C124_predict Arith.exact a h w).2 s t r e

/-- **C125 (exact arithmetic).** With exact arithmetic the predictions of `PTW` and `PTWFixedLength` are those of the other theorems. -/
theorem C125_exact {σ : Type} (P : Predictor σ α) (fresh : σ) (h0 height : ℕ) (s : PTW σ) (a : α) (h : List α) :
    (Arith.exact.ptwPredictor P fresh h0).logPredict s a h = (PTW.predictor P fresh h0).logPredict s a h ∧
    (Arith.exact.ptwFixedPredictor P fresh h0 height).logPredict s a h = (PTWFixedLength.predictor P fresh h0 height).logPredict s a h := by
  have hl : ∀ v1 v2, Arith.exact.logsumexp2 v1 v2 = .ok (Verif.logsumexp2 v1 v2) :=
    (C99_exact (κ := Bool) KTBinary.predictor (KTBinary.init none) (fun _ => [])).2.2.2
  have hc : ∀ b n x, Arith.exact.ptwCorrect b n x = .ok (PTWData.correct b n x) := by
    intro b n
    induction n with
    | zero => intro x; rfl
    | succ n ih =>
      intro x
      rw [ptwCorrect, hl, ok_bind, ih]
      rfl
  have hn : ∀ n : PTWNode σ, Arith.exact.ptwNodeLogPredict P a h n = n.logPredict P a h := by
    intro n
    induction n with
    | leaf d => rw [ptwNodeLogPredict, PTWNode.logPredict]; simp only [hl, ok_bind]; rfl
    | inner d r ih =>
      rw [ptwNodeLogPredict, PTWNode.logPredict]
      simp only [hl, hc, ok_bind, ih]
      rfl
  have ha : Arith.exact.ptwAdjustedPredict s = .ok s.adjusted := by
    rw [ptwAdjustedPredict, PTW.adjusted]
    split
    · rw [hl]
      show Except.ok (s.adj + s.tree.data.lp - (log05 + Verif.logsumexp2 s.tree.data.baseLP s.tree.data.lp)) = _
      rw [add_sub_assoc]
    · rfl
  constructor
  · show Arith.exact.ptwLogPredict P s a h = PTW.logPredict P s a h
    rw [ptwLogPredict, PTW.logPredict, ha, ok_bind, hn]
    rfl
  · show Arith.exact.ptwFixedLogPredict P height s a h = PTWFixedLength.logPredict P height s a h
    rw [ptwFixedLogPredict, PTWFixedLength.logPredict, hn]
    simp only [hc]
    rfl

omit [DecidableEq α] in
theorem Predictor.after_cons {σ : Type} {P : Predictor σ α} {s u : σ} {c : Call α} {cs : List (Call α)} :
    P.after s (c :: cs) = .ok u ↔ ∃ r t, P.step s c = .ok (r, t) ∧ P.after t cs = .ok u := by
  rw [after, List.foldlM_cons]
  cases h : P.step s c with
  | error e => simp [Except.map, bind, Except.bind]
  | ok x =>
    obtain ⟨r, t⟩ := x
    simp [Except.map, bind, Except.bind, after]

namespace Arith

/-- The heights and counts of the nodes along the chain, after `n` updates. -/
inductive Chain {σ : Type} (m : ℕ) : ℕ → PTWNode σ → Prop
  | leaf {n : ℕ} {d : PTWData σ} : d.height = m → d.count = n → n ≤ 2 ^ m → Chain m n (.leaf d)
  | inner {n k : ℕ} {d : PTWData σ} {r : PTWNode σ} : d.height = m + k + 1 → d.count = n → 2 ^ (m + k) < n → n ≤ 2 ^ (m + k + 1) →
      Chain m (n - 2 ^ (m + k)) r → Chain m n (.inner d r)

section

variable {σ : Type} {P : Predictor σ α} {m : ℕ}

omit [DecidableEq α]

theorem ptwBaseStep_ok {d d' : PTWData σ} {a : α} {h : List α} {w : ℝ} (hu : R.ptwBaseStep P d a h w = .ok d') : d'.height = d.height ∧ d'.count = d.count := by
  simp only [ptwBaseStep, bind_eq_ok, pure_eq_ok, Except.ok.injEq, Prod.exists] at hu
  obtain ⟨_, _, -, rfl⟩ := hu
  exact ⟨rfl, rfl⟩

theorem ptwPromoted_chain {f : Py σ} {d : PTWData σ} {a : α} {h : List α} {w : ℝ} {k n : ℕ} {t : PTWNode σ} (hh : d.height = m + k) (hn : d.count = n)
    (hk : n = 2 ^ (m + k)) (hu : R.ptwPromoted P f m d a h w = .ok t) : Chain m (n + 1) t := by
  have h1 := Nat.one_le_two_pow (n := m)
  have h2 := Nat.one_le_two_pow (n := m + k)
  simp only [ptwPromoted, ptwLeafUpdate, ptwCombine, bind_eq_ok, pure_eq_ok, Except.ok.injEq] at hu
  obtain ⟨f', -, d1, hd1, r, ⟨d2, hd2, rfl⟩, rlp, -, l, -, rfl⟩ := hu
  obtain ⟨e1, e2⟩ := ptwBaseStep_ok hd1
  obtain ⟨e3, e4⟩ := ptwBaseStep_ok hd2
  refine .inner (k := k) (by simp [e1, hh]) (by simp [e2, hn]) (by omega) (by rw [pow_succ]; omega) ?_
  refine .leaf (by simp [e3, PTWData.new]) ?_ (by omega)
  simp only [e4, PTWData.new]
  omega

/-- An update adds one. -/
theorem Chain.update {f : Py σ} {n : ℕ} {s t : PTWNode σ} (hs : Chain m n s) {a : α} {h : List α} {w : ℝ} (hu : R.ptwNodeUpdate P f m a h w s = .ok t) :
    Chain m (n + 1) t := by
  induction hs generalizing t with
  | @leaf n d h1 h2 h3 =>
    rw [ptwNodeUpdate] at hu
    split at hu
    · next hc =>
      rw [PTWData.complete_iff, h1, h2] at hc
      exact ptwPromoted_chain (k := 0) h1 h2 (by simpa using le_antisymm h3 hc) hu
    · next hc =>
      rw [PTWData.complete_iff, h1, h2, not_le] at hc
      simp only [ptwLeafUpdate, bind_eq_ok, pure_eq_ok, Except.ok.injEq] at hu
      obtain ⟨d1, hd1, rfl⟩ := hu
      obtain ⟨e1, e2⟩ := ptwBaseStep_ok hd1
      exact .leaf (by simp [e1, h1]) (by simp [e2, h2]) hc
  | @inner n k d r h1 h2 h3 h4 h5 ih =>
    rw [ptwNodeUpdate] at hu
    split at hu
    · next hc =>
      rw [PTWData.complete_iff, h1, h2] at hc
      exact ptwPromoted_chain (k := k + 1) h1 h2 (le_antisymm h4 hc) hu
    · next hc =>
      rw [PTWData.complete_iff, h1, h2, not_le] at hc
      simp only [ptwCombine, bind_eq_ok, pure_eq_ok, Except.ok.injEq] at hu
      obtain ⟨d1, hd1, r', hr', rlp, -, l, -, rfl⟩ := hu
      obtain ⟨e1, e2⟩ := ptwBaseStep_ok hd1
      refine .inner (k := k) (by simp [e1, h1]) (by simp [e2, h2]) (by omega) hc ?_
      rw [show n + 1 - 2 ^ (m + k) = n - 2 ^ (m + k) + 1 by omega]
      exact ih hr'

/-- A prediction changes no height and no count. -/
theorem Chain.predict {n : ℕ} {s t : PTWNode σ} (hs : Chain m n s) {a : α} {h : List α} {q : ℝ × ℝ × ℕ} (hu : R.ptwNodeLogPredict P a h s = .ok (q, t)) :
    Chain m n t := by
  induction hs generalizing t q with
  | @leaf n d h1 h2 h3 =>
    simp only [ptwNodeLogPredict, bind_eq_ok, Prod.exists] at hu
    obtain ⟨x, b, -, hu⟩ := hu
    split at hu <;> simp only [bind_eq_ok, pure_eq_ok, Except.ok.injEq, Prod.mk.injEq] at hu
    · obtain ⟨_, -, -, rfl⟩ := hu
      exact .leaf h1 h2 h3
    · obtain ⟨-, rfl⟩ := hu
      exact .leaf h1 h2 h3
  | @inner n k d r h1 h2 h3 h4 h5 ih =>
    simp only [ptwNodeLogPredict, bind_eq_ok, Prod.exists] at hu
    obtain ⟨x, b, -, hu⟩ := hu
    split at hu <;> simp only [bind_eq_ok, pure_eq_ok, Except.ok.injEq, Prod.mk.injEq, Prod.exists] at hu
    · obtain ⟨_, -, -, rfl⟩ := hu
      exact .inner h1 h2 h3 h4 h5
    · obtain ⟨_, _, _, r', hr', _, -, _, -, -, rfl⟩ := hu
      exact .inner h1 h2 h3 h4 (ih hr')

/-- Within a block no node is complete. -/
theorem Chain.open {n : ℕ} {s : PTWNode σ} (hs : Chain m n s) (hb : n = 0 ∨ ¬ 2 ^ m ∣ n) : s.Open := by
  induction hs with
  | @leaf n d h1 h2 h3 =>
    simp only [PTWNode.Open, ← Bool.not_eq_true, PTWData.complete_iff, h1, h2, not_le]
    rcases hb with rfl | hb
    · positivity
    · exact lt_of_le_of_ne h3 (fun h => hb (by rw [h]))
  | @inner n k d r h1 h2 h3 h4 h5 ih =>
    have hd : 2 ^ m ∣ 2 ^ (m + k) := pow_dvd_pow 2 (by omega)
    have hd' : 2 ^ m ∣ 2 ^ (m + k + 1) := pow_dvd_pow 2 (by omega)
    have hb' : ¬ 2 ^ m ∣ n := by
      rcases hb with rfl | hb
      · simp at h3
      · exact hb
    simp only [PTWNode.Open, ← Bool.not_eq_true, PTWData.complete_iff, h1, h2, not_le]
    refine ⟨lt_of_le_of_ne h4 (fun h => hb' (by rw [h]; exact hd')), ih (.inr fun h => hb' ?_)⟩
    have := Nat.dvd_add h hd
    rwa [Nat.sub_add_cancel h3.le] at this

/-- The prediction of a node no part of which is complete. -/
theorem Open.previews (hP : P.Previews) {f : Py σ} {s : PTWNode σ} (hs : s.Open) (a : α) (h : List α) (w : ℝ) :
    (R.ptwNodeLogPredict P a h s).map Prod.fst =
      (R.ptwNodeUpdate P f m a h w s).map fun n => (n.data.lp, n.data.baseLP, n.data.height) := by
  induction s with
  | leaf d =>
    simp only [PTWNode.Open] at hs
    have := hP d.base a h w
    rw [ptwNodeLogPredict, ptwNodeUpdate, ptwLeafUpdate, ptwBaseStep, if_neg (by simp [hs])]
    revert this
    cases P.logPredict d.base a h <;> cases P.update d.base a h w <;> simp [Except.map, bind, Except.bind, hs, pure, Except.pure, PTWNode.data]
    intro e
    rw [e]
  | inner d r ih =>
    obtain ⟨hs, hr⟩ := hs
    have := hP d.base a h w
    have ih := ih hr
    rw [ptwNodeLogPredict, ptwNodeUpdate, ptwBaseStep, if_neg (by simp [hs])]
    revert this
    cases P.logPredict d.base a h with
    | error e => cases P.update d.base a h w <;> simp [Except.map, bind, Except.bind]
    | ok x =>
      cases P.update d.base a h w with
      | error e => simp [Except.map]
      | ok y =>
        intro e
        simp only [Except.map, Except.ok.injEq] at e
        revert ih
        simp only [ok_bind, hs, Bool.false_eq_true, if_false, pure_eq_ok, e]
        cases R.ptwNodeLogPredict P a h r with
        | error e => cases R.ptwNodeUpdate P f m a h w r <;> simp [Except.map, bind, Except.bind]
        | ok u =>
          cases R.ptwNodeUpdate P f m a h w r with
          | error e => simp [Except.map]
          | ok v =>
            obtain ⟨⟨u1, u2, u3⟩, u4⟩ := u
            simp only [Except.map, Except.ok.injEq, Prod.mk.injEq, ok_bind, ptwCombine]
            rintro ⟨rfl, rfl, rfl⟩
            cases R.ptwCorrect v.data.baseLP (d.height - v.data.height - 1) v.data.lp with
            | error e => rfl
            | ok z =>
              simp only [ok_bind]
              cases R.logsumexp2 (R.add d.baseLP y.1) (R.add d.leftLP z) <;> rfl

end

end Arith

/-- **C125 (the same number, base models).** In every arithmetic, also an inaccurate one, and in every state, `log_predict` of `KTBinary`, `KT` and `SAD` returns
exactly what `update` would, or raises the same exception. -/
theorem C125_previews (R : Arith) :
    R.ktPredictor.Previews ∧ (R.katPredictor : Predictor (KT α) α).Previews ∧ (R.sadPredictor : Predictor (SAD α) α).Previews := by
  refine ⟨fun s a h w => ?_, fun s a h w => ?_, fun s a h w => ?_⟩
  · simp only [ktPredictor, ktUpdate]
    cases R.ktLogPredict s a <;> rfl
  · simp only [katPredictor, katUpdate]
    cases e : s.counts.getE a with
    | error x => simp only [katLogPredict, e]; rfl
    | ok c => cases R.katLogPredict s a <;> rfl
  · simp only [sadPredictor, sadUpdate]
    cases R.sadLogPredict s a with
    | error x => rfl
    | ok r =>
      cases e : s.counts.get? a with
      | some c => simp [PyDict.getE, e, Except.map, bind, Except.bind, pure, Except.pure]
      | none => simp [PyDict.getE, PyDict.get?_set_self, Except.map, bind, Except.bind, pure, Except.pure]

/-- **C125 (the same number, `CTW`).** So it is for `CTW` over such a model, in every state. -/
theorem C125_CTW_previews {σ κ : Type} [DecidableEq κ] (R : Arith) (P : Predictor σ α) (hP : P.Previews) (fresh : σ) (ctx : List α → List κ) :
    (R.ctwPredictor P fresh ctx).Previews := by
  intro n a h w
  simp only [ctwPredictor]
  generalize (ctx h).reverse = cs
  induction cs generalizing n with
  | nil =>
    have := hP n.base a h w
    rw [ctwLogPredict, ctwUpdate]
    revert this
    cases P.logPredict n.base a h <;> cases P.update n.base a h w <;> simp [Except.map, bind, Except.bind, pure, Except.pure]
    intro e
    rw [e]
  | cons c cs ih =>
    have := hP n.base a h w
    have ih := ih ((n.children c).getD (.new fresh))
    rw [ctwLogPredict, ctwUpdate]
    revert this
    cases P.logPredict n.base a h with
    | error e => cases P.update n.base a h w <;> simp [Except.map, bind, Except.bind]
    | ok x =>
      cases P.update n.base a h w with
      | error e => simp [Except.map]
      | ok y =>
        intro e
        simp only [Except.map, Except.ok.injEq] at e
        revert ih
        simp only [ok_bind, e]
        cases R.ctwLogPredict P fresh a h cs ((n.children c).getD (.new fresh)) with
        | error e => cases R.ctwUpdate P fresh a h w cs ((n.children c).getD (.new fresh)) <;> simp [Except.map, bind, Except.bind]
        | ok u =>
          cases R.ctwUpdate P fresh a h w cs ((n.children c).getD (.new fresh)) with
          | error e => simp [Except.map]
          | ok v =>
            simp only [Except.map, Except.ok.injEq, ok_bind]
            intro e'
            rw [e']
            cases R.logsumexp2 (R.add n.baseLP y.1) (R.add n.childrenLP v.1) <;> rfl

omit [DecidableEq α] in
/-- **C125 (the same number, `PTW`).** For `PTW` over such a model it is so before the first update, and whenever the number of updates is not a multiple of
the least partition length, whatever was predicted in between.  (At the multiples it is false already in exact arithmetic: C27.) -/
theorem C125_PTW_previews_in_block {σ : Type} (R : Arith) (P : Predictor σ α) (hP : P.Previews) (fresh : σ) (m : ℕ) (cs : List (Call α)) (s : PTW σ)
    (hs : (R.ptwPredictor P fresh m).after (PTW.init fresh m) cs = .ok s) (hb : updates cs = 0 ∨ ¬ 2 ^ m ∣ updates cs) (a : α) (h : List α) (w : ℝ) :
    ((R.ptwPredictor P fresh m).logPredict s a h).map Prod.fst = ((R.ptwPredictor P fresh m).update s a h w).map Prod.fst := by
  have key : ∀ (cs : List (Call α)) (n : ℕ) (s0 : PTW σ), Chain m n s0.tree → (R.ptwPredictor P fresh m).after s0 cs = .ok s →
      Chain m (n + updates cs) s.tree := by
    intro cs
    induction cs with
    | nil =>
      intro n s0 h0 h1
      cases h1
      exact h0
    | cons c cs ih =>
      intro n s0 h0 h1
      obtain ⟨r, t, h2, h3⟩ := after_cons.1 h1
      cases c with
      | update a h w =>
        have h2 : R.ptwUpdate P (.ok fresh) m s0 a h w = .ok (r, t) := h2
        simp only [ptwUpdate, bind_eq_ok, pure_eq_ok, Except.ok.injEq, Prod.mk.injEq] at h2
        obtain ⟨_, -, t', h4, -, rfl⟩ := h2
        have := ih (n + 1) _ (h0.update h4) h3
        rwa [add_right_comm, add_assoc] at this
      | predict a h =>
        have h2 : R.ptwLogPredict P s0 a h = .ok (r, t) := h2
        simp only [ptwLogPredict, bind_eq_ok, pure_eq_ok, Except.ok.injEq, Prod.mk.injEq, Prod.exists] at h2
        obtain ⟨_, -, _, _, _, t', h4, -, rfl⟩ := h2
        exact ih n _ (h0.predict h4) h3
  have hc := key cs 0 (PTW.init fresh m) (Chain.leaf (d := PTWData.new fresh m) rfl rfl (Nat.zero_le _) : Chain m 0 _) hs
  rw [zero_add] at hc
  have ho := hc.open hb
  have hp := Open.previews (R := R) (m := m) (f := .ok fresh) hP ho a h w
  have hcm : s.tree.data.complete = false := by
    cases ht : s.tree with
    | leaf d => rw [ht] at ho; exact ho
    | inner d r => rw [ht] at ho; exact ho.1
  show (R.ptwLogPredict P s a h).map Prod.fst = (R.ptwUpdate P (.ok fresh) m s a h w).map Prod.fst
  simp only [ptwLogPredict, ptwUpdate, ptwAdjustedPredict, ptwAdjusted, hcm, Bool.false_eq_true, if_false, ok_bind]
  revert hp
  cases R.ptwNodeLogPredict P a h s.tree <;> cases R.ptwNodeUpdate P (.ok fresh) m a h w s.tree <;>
    simp [Except.map, bind, Except.bind, pure, Except.pure]
  intro e
  simp only [e]

omit [DecidableEq α] in
/-- **C125 (the same number, `PTWFixedLength`).** The same for `PTWFixedLength`, also beyond its length. -/
theorem C125_PTWFixedLength_previews_in_block {σ : Type} (R : Arith) (P : Predictor σ α) (hP : P.Previews) (fresh : σ) (m height : ℕ) (cs : List (Call α))
    (s : PTW σ) (hs : (R.ptwFixedPredictor P fresh m height).after (PTW.init fresh m) cs = .ok s) (hb : updates cs = 0 ∨ ¬ 2 ^ m ∣ updates cs)
    (a : α) (h : List α) (w : ℝ) :
    ((R.ptwFixedPredictor P fresh m height).logPredict s a h).map Prod.fst = ((R.ptwFixedPredictor P fresh m height).update s a h w).map Prod.fst := by
  have key : ∀ (cs : List (Call α)) (n : ℕ) (s0 : PTW σ), Chain m n s0.tree → (R.ptwFixedPredictor P fresh m height).after s0 cs = .ok s →
      Chain m (n + updates cs) s.tree := by
    intro cs
    induction cs with
    | nil =>
      intro n s0 h0 h1
      cases h1
      exact h0
    | cons c cs ih =>
      intro n s0 h0 h1
      obtain ⟨r, t, h2, h3⟩ := after_cons.1 h1
      cases c with
      | update a h w =>
        have h2 : R.ptwFixedUpdate P (.ok fresh) m height s0 a h w = .ok (r, t) := h2
        simp only [ptwFixedUpdate, bind_eq_ok, pure_eq_ok, Except.ok.injEq, Prod.mk.injEq] at h2
        obtain ⟨t', h4, _, -, -, rfl⟩ := h2
        have := ih (n + 1) _ (h0.update h4) h3
        rwa [add_right_comm, add_assoc] at this
      | predict a h =>
        have h2 : R.ptwFixedLogPredict P height s0 a h = .ok (r, t) := h2
        simp only [ptwFixedLogPredict, bind_eq_ok, pure_eq_ok, Except.ok.injEq, Prod.mk.injEq, Prod.exists] at h2
        obtain ⟨_, _, _, t', h4, _, -, -, rfl⟩ := h2
        exact ih n _ (h0.predict h4) h3
  have hc := key cs 0 (PTW.init fresh m) (Chain.leaf (d := PTWData.new fresh m) rfl rfl (Nat.zero_le _) : Chain m 0 _) hs
  rw [zero_add] at hc
  have hp := Open.previews (R := R) (m := m) (f := .ok fresh) hP (hc.open hb) a h w
  show (R.ptwFixedLogPredict P height s a h).map Prod.fst = (R.ptwFixedUpdate P (.ok fresh) m height s a h w).map Prod.fst
  simp only [ptwFixedLogPredict, ptwFixedUpdate]
  revert hp
  cases R.ptwNodeLogPredict P a h s.tree with
  | error e => cases R.ptwNodeUpdate P (.ok fresh) m a h w s.tree <;> simp [Except.map, bind, Except.bind]
  | ok u =>
    cases R.ptwNodeUpdate P (.ok fresh) m a h w s.tree with
    | error e => simp [Except.map]
    | ok v =>
      obtain ⟨⟨u1, u2, u3⟩, u4⟩ := u
      simp only [Except.map, Except.ok.injEq, Prod.mk.injEq, ok_bind]
      rintro ⟨rfl, rfl, rfl⟩
      cases R.ptwCorrect v.data.baseLP (height - v.data.height) v.data.lp <;> rfl

/-- `PTW` over `CTW(8)` over `KTBinary` in double precision, with a thousand updates and any number of predictions among them: the hypotheses hold, and
every result is within a thousandth of a nat. -/
example (cs : List (Call Bool)) (hw : ∀ a h w, Call.update a h w ∈ cs → w = 1) (hl : updates cs = 1000) :
    AllNear (1 / 1000) (roundedOver Double.arith Double.arith.ktPredictor (KTBinary.init none) false [.ptw 0, .ctw 8])
      (newOver Bool (KTBinary.init none) [.ptw 0, .ctw 8]) (exactOver KTBinary.predictor (KTBinary.init none) false [.ptw 0, .ctw 8])
      (newOver Bool (KTBinary.init none) [.ptw 0, .ctw 8]) cs := by
  have hc : costOver 1 10 [.ptw 0, .ctw 8] ≤ 4000 := by decide
  have hc' : (costOver 1 10 [.ptw 0, .ctw 8] : ℝ) ≤ 4000 := by exact_mod_cast hc
  obtain ⟨k1, k2⟩ := C125_KTBinary C113_double.1 [.ptw 0, .ctw 8] 10 cs (fun c hc => by
    cases c with
    | update a h w => exact ⟨by cases a <;> simp, hw a h w hc⟩
    | predict a h => show a ∈ [false, true]; cases a <;> simp) (by rw [hl]; norm_num) (by simp [Layer.Fits]) (by
      rw [hl]
      generalize (costOver 1 10 [.ptw 0, .ctw 8] : ℝ) = x at hc'
      norm_num
      linarith)
  refine ⟨k1, k2.imp fun o' o hh => ?_⟩
  obtain ⟨r', r, e1, e2, e3⟩ := hh
  refine ⟨r', r, e1, e2, le_trans e3 ?_⟩
  rw [hl]
  have h1 : Real.log (2 * ((1000 + 1 : ℕ) : ℝ)) ≤ Real.log (2 ^ 11) := Real.log_le_log (by norm_num) (by norm_num)
  rw [Real.log_pow] at h1
  have h2 := Real.log_two_lt_d9
  have h3 : Real.log (2 * ((1000 + 1 : ℕ) : ℝ)) ≤ 8 := by
    push_cast at h1 ⊢
    linarith
  have h0 : (0 : ℝ) ≤ costOver 1 10 [.ptw 0, .ctw 8] := Nat.cast_nonneg _
  generalize (costOver 1 10 [.ptw 0, .ctw 8] : ℝ) = x at hc' h0
  have h4 : x * (10 * Real.log (2 * ((1000 + 1 : ℕ) : ℝ)) + 4) ≤ 4000 * 84 := by
    refine mul_le_mul hc' (by linarith) ?_ (by norm_num)
    have := Real.log_nonneg (x := 2 * ((1000 + 1 : ℕ) : ℝ)) (by norm_num)
    linarith
  generalize Real.log (2 * ((1000 + 1 : ℕ) : ℝ)) = y at h4
  norm_num
  nlinarith

/-- After one prediction and one update, with a least partition length of 2, the hypotheses of `C125_PTW_previews_in_block` hold. -/
example : ∃ s, (Arith.exact.ptwPredictor Arith.exact.ktPredictor (KTBinary.init none) 1).after (PTW.init (KTBinary.init none) 1)
    [.predict true [], .update true [] 1] = .ok s ∧ ¬ 2 ^ 1 ∣ updates [Call.predict true [], .update true [] 1] := by
  have h1 : Arith.exact.ktPredictor.update (KTBinary.init none) true [] 1 = .ok (Real.log (1 / 2), ⟨1 / 2, 3 / 2⟩) := by
    norm_num [ktPredictor, ktUpdate, ktLogPredict, KTBinary.init, KTBinary.get, Arith.pyDiv, Arith.pyLog, ktBump, Arith.exact]
  have h2 : Arith.exact.ktPredictor.logPredict (KTBinary.init none) true [] = .ok (Real.log (1 / 2), KTBinary.init none) := by
    norm_num [ktPredictor, ktLogPredict, KTBinary.init, KTBinary.get, Arith.pyDiv, Arith.pyLog, Arith.exact]
  have h3 : (Arith.exact.ptwPredictor Arith.exact.ktPredictor (KTBinary.init none) 1).step (PTW.init (KTBinary.init none) 1) (.predict true []) =
      .ok (0 + Real.log (1 / 2) + 0 - 0, PTW.init (KTBinary.init none) 1) := by
    show Arith.exact.ptwLogPredict _ _ _ _ = _
    simp only [ptwLogPredict, ptwAdjustedPredict, PTW.init, PTWNode.data, PTWData.new, PTWData.complete, ptwNodeLogPredict, h2]
    rfl
  have h4 : (Arith.exact.ptwPredictor Arith.exact.ktPredictor (KTBinary.init none) 1).step (PTW.init (KTBinary.init none) 1) (.update true [] 1) =
      .ok (0 + Real.log (1 / 2) + 0 - 0, ⟨.leaf ⟨⟨1 / 2, 3 / 2⟩, 1, 1, 0 + Real.log (1 / 2), 0, 0 + Real.log (1 / 2)⟩, 0 + Real.log (1 / 2) + 0, 0⟩) := by
    show Arith.exact.ptwUpdate _ _ _ _ _ _ _ = _
    simp only [ptwUpdate, ptwAdjusted, PTW.init, PTWNode.data, PTWData.new, PTWData.complete, ptwNodeUpdate, ptwLeafUpdate, ptwBaseStep, h1]
    rfl
  exact ⟨_, after_cons.2 ⟨_, _, h3, after_cons.2 ⟨_, _, h4, rfl⟩⟩, by decide⟩

end Verif
