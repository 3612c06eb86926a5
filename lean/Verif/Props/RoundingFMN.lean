import Verif.Proofs.RoundingFMN
import Verif.Props.RoundingAverager
import Verif.Props.FMN

/-!
# C117: rounding errors of the forget-me-not process
-/

namespace Verif

open Arith

variable {R : Arith} {ε : ℝ} {S σ α : Type}

namespace Arith

theorem fmnFactory_exact (P : Predictor σ α) (ms : List σ) : Arith.exact.fmnFactory P ms = FMN.modelFactory P ms := rfl

theorem ptwMapNodes_exact (n : PTWNode σ) : ∀ left, Arith.exact.ptwMapNodes left n = n.mapNodes left := by
  induction n with
  | leaf d => intro left; rfl
  | inner d r ih =>
    intro left
    rw [ptwMapNodes, PTWNode.mapNodes, ih]
    rfl

end Arith

/-- An update of `PTW` uses only the updates of its base models. -/
theorem PTW.update_congr {P1 P2 : Predictor σ α} (hu : P1.update = P2.update) (fr : Py σ) (m : ℕ) (t : PTW σ) (a : α) (h : List α) (w : ℝ) :
    t.update P1 fr m a h w = t.update P2 fr m a h w := by
  have hb : ∀ d : PTWData σ, d.baseStep P1 a h w = d.baseStep P2 a h w := fun d => by rw [PTWData.baseStep, PTWData.baseStep, hu]
  have hl : ∀ d : PTWData σ, PTWNode.leafUpdate P1 d a h w = PTWNode.leafUpdate P2 d a h w := fun d => by
    rw [PTWNode.leafUpdate, PTWNode.leafUpdate, hb]
  have hp : ∀ d : PTWData σ, PTWNode.promoted P1 fr m d a h w = PTWNode.promoted P2 fr m d a h w := fun d => by
    simp only [PTWNode.promoted, hb, hl]
  have hn : ∀ n : PTWNode σ, n.update P1 fr m a h w = n.update P2 fr m a h w := by
    intro n
    induction n with
    | leaf d => rw [PTWNode.update, PTWNode.update, hp, hl]
    | inner d r ih => rw [PTWNode.update, PTWNode.update, hp, hb, ih]
  rw [PTW.update, PTW.update, hn]

/-- **C117 (faithfulness).** With exact arithmetic `FMN` with rounding is that of the other files. -/
theorem C117_exact (St : Store S σ) (P : Predictor σ α) (f : σ) (m : ℕ) (s : FMN S σ) (a : α) (h : List α) (w : ℝ) :
    Arith.exact.fmnInit St P f m = FMN.init St P f m ∧ Arith.exact.fmnUpdate St P m s a h w = FMN.update St P m s a h w := by
  refine ⟨rfl, ?_⟩
  have hp : ∀ (fr : Py (Averager σ)) (t : PTW (Averager σ)),
      Arith.exact.ptwUpdate (Arith.exact.avPredictor P) fr m t a h w = t.update (Averager.predictor P) fr m a h w := by
    intro fr t
    rw [(ptw_exact _ _ _ 0 _ _ _ _).1]
    exact PTW.update_congr (funext fun s => funext fun a => funext fun h => funext fun w => avUpdate_exact P s a h w) fr m t a h w
  have hb : ∀ p, Arith.exact.fmnBest P p = FMN.best P p := by
    intro p
    have : Arith.exact.ptwMap p = p.map := by
      rw [ptwMap, PTW.map, ptwMapNodes_exact]
      rfl
    rw [fmnBest, FMN.best, this]
  simp only [fmnUpdate, FMN.update, hp, hb, fmnFactory_exact]

namespace Arith

variable {S' σ' : Type} {St' : Store S' KTBinary} {St : Store S KTBinary} {Rl : (KTBinary → KTBinary → Prop) → ℕ → S' → S → Prop}

theorem _root_.Verif.FMN.NearRun.mono {σ α : Type} {St : Store S σ} {P : Predictor σ α} {m : ℕ} {δ δ' : ℝ} (hδ : δ ≤ δ') {s s' : FMN S σ}
    {xs : List (Obs α)} {r : ℝ} (h : FMN.NearRun St P m δ s xs r s') : FMN.NearRun St P m δ' s xs r s' := by
  have hmax : ∀ {τ : Type} {l : List (τ × ℝ)} {x : τ}, FMN.NearMax δ l x → FMN.NearMax δ' l x := by
    rintro τ l x ⟨k, h1, h2⟩
    exact ⟨k, h1, fun y hy => by linarith [h2 y hy]⟩
  induction h with
  | nil s => exact .nil s
  | cons h1 _ ih =>
    refine .cons ?_ ih
    obtain ⟨p, hp, h1⟩ := h1
    refine ⟨p, hp, ?_⟩
    split
    · next hper =>
      rw [if_pos hper] at h1
      obtain ⟨b, c, st, ⟨a, ha, hb⟩, h2⟩ := h1
      exact ⟨b, c, st, ⟨a, hmax ha, hmax hb⟩, h2⟩
    · next hper =>
      rw [if_neg hper] at h1
      exact h1

theorem ktCopy : CopySim R.ktPredictor KTBinary.predictor (ktRel ε) := fun _ x' x h => ⟨x', x, rfl, rfl, h⟩

/-- Any number of updates. -/
theorem FmnSim.run {P' : Predictor σ' α} {P : Predictor σ α} {A : Obs α → Prop} {T H h0 : ℕ} {β ρ G L : ℝ} {Sim : Rel σ' σ}
    {St' : Store S' σ'} {St : Store S σ} {Rl : (σ' → σ → Prop) → ℕ → S' → S → Prop}
    (hSt : StoreSim St' St Rl) (hC : CopySim P' P Sim) (hR : R.Accurate ε) (hB : BaseSim P' P A T β ρ Sim) (hβ : 0 ≤ β) (hρ : 0 ≤ ρ)
    (hγ : 0 ≤ Sim.γ) (hεG : 0 ≤ ε * G) (hL : Real.log (T + 1 : ℕ) ≤ L) (hN : 64 * (T + 1 : ℕ) * ε ≤ 1)
    (hG1 : L + T * (ρ + avErr ε β G Sim.γ T (T + 1)) ≤ G) (hG2 : T * (8 * (ρ + fmnErr ε β G Sim.γ T H + 5 * (ε * G))) + 2 ≤ G)
    (hG3 : T * (ρ + 1 + (fmnErr ε β G Sim.γ T H + 3 * (ε * G))) + 2 ≤ G) (hTH : T ≤ 2 ^ H) (xs : List (Obs α)) (hA : ∀ o ∈ xs, A o) :
    ∀ {t : ℕ} {s' : FMN S' σ'} {s : FMN S σ}, t + xs.length ≤ T → FmnSim Rl Sim ε β ρ G L T h0 H t s' s →
    ∃ r' q' r q, (R.fmnPredictor St' P' h0).run s' xs = .ok (r', q') ∧
      FMN.NearRun St P h0 (2 * T * (fmnErr ε β G Sim.γ T H + 4 * (ε * G))) s xs r q ∧ FmnSim Rl Sim ε β ρ G L T h0 H (t + xs.length) q' q ∧
      r = q.ptw.logProb - s.ptw.logProb ∧ |r' - (q'.ptw.logProb - s'.ptw.logProb)| ≤ xs.length * (2 * (ε * G)) := by
  induction xs with
  | nil =>
    intro t s' s _ hs
    exact ⟨0, s', 0, s, rfl, .nil s, hs, by simp, by simp⟩
  | cons o xs ih =>
    intro t s' s ht hs
    rw [List.length_cons] at ht
    rw [List.forall_mem_cons] at hA
    obtain ⟨r1', q1', r1, q1, a1, a2, a3, a4, a5, -⟩ := FmnSim.step hSt hC hR hB hβ hρ hγ hεG hL hN hG1 hG2 hG3 hTH (by omega) hs hA.1
    obtain ⟨r2', q2', r2, q2, b1, b2, b3, b4, b5⟩ := ih hA.2 (by omega) a3
    refine ⟨r1' + r2', q2', r1 + r2, q2, ?_, .cons a2 b2, ?_, by linarith, ?_⟩
    · rw [Predictor.run]
      replace a1 : (R.fmnPredictor St' P' h0).update s' o.sym o.hist o.weight = .ok (r1', q1') := a1
      rw [a1, ok_bind]
      dsimp only
      rw [b1]
      rfl
    · rw [List.length_cons, show t + (xs.length + 1) = t + 1 + xs.length by ring]
      exact b3
    · rw [List.length_cons]
      push_cast
      rw [abs_le] at *
      constructor <;> linarith [a5.1, a5.2, b5.1, b5.2]

/-- `FMN` over `KTBinary` with any store. -/
theorem fmn_near (hSt : StoreSim St' St Rl) (hR : R.Accurate ε) (m H : ℕ) (xs : List (Obs Bool)) (hw : ∀ o ∈ xs, o.weight = 1) (hT : 1 ≤ xs.length)
    (hTH : xs.length ≤ 2 ^ H) (hm : m ≤ H) (hε : 1000 * ((H : ℝ) + 3) * ε * xs.length ≤ 1) :
    ∃ s' s r' q' r q, R.fmnInit St' R.ktPredictor (KTBinary.init none) m = .ok s' ∧ FMN.init St KTBinary.predictor (KTBinary.init none) m = .ok s ∧
      (R.fmnPredictor St' R.ktPredictor m).run s' xs = .ok (r', q') ∧
      FMN.NearRun St KTBinary.predictor m ((18 * H + 50) * ε * xs.length ^ 2 * (10 * Real.log (2 * xs.length) + 4)) s xs r q ∧
      |r' - r| ≤ (45 * H + 128) * ε * xs.length ^ 2 * (10 * Real.log (2 * xs.length) + 4) := by
  have e0 := hR.nonneg
  set T := xs.length with hTd
  have h1 : (1 : ℝ) ≤ T := by exact_mod_cast hT
  have hH0 : (0 : ℝ) ≤ H := Nat.cast_nonneg H
  have hρ := log_ge hT
  have hL : Real.log (T + 1 : ℕ) ≤ Real.log (2 * T) := Real.log_le_log (by positivity) (by push_cast; linarith)
  have hB := ktBase hR T
  generalize Real.log (2 * T) = ρ at *
  set G := 10 * (T : ℝ) * ρ + 4 with hGd
  have hTρ : 69 / 100 * (T : ℝ) ≤ T * ρ := by nlinarith
  have hρT : ρ ≤ T * ρ := le_mul_of_one_le_left (by linarith) h1
  have hG0 : 0 ≤ G := by linarith
  have hεG : 0 ≤ ε * G := mul_nonneg e0 hG0
  have hβ0 : 0 ≤ ε * (ρ + 5 * T) := by positivity
  have hβ : ε * (ρ + 5 * T) ≤ ε * G := mul_le_mul_of_nonneg_left (by linarith) e0
  have hav0 : 24 * ((T + 1 : ℕ) : ℝ) * ε ≤ 6 * (ε * G) := by
    push_cast
    have := mul_le_mul_of_nonneg_right (by linarith : 24 * ((T : ℝ) + 1) ≤ 6 * G) e0
    linarith
  have hav : avErr ε (ε * (ρ + 5 * T)) G 0 T (T + 1) ≤ 9 * (ε * G) := by
    simp only [avErr]
    linarith
  have hErr : fmnErr ε (ε * (ρ + 5 * T)) G 0 T H ≤ (9 * H + 21) * (ε * G) := by
    simp only [fmnErr, ptwErr, fmnBase]
    linarith
  -- what is lost to rounding in all updates is small
  have hroom : ∀ c : ℝ, 0 ≤ c → c ≤ 9 * H + 27 → T * (c * (ε * G)) ≤ 9 / 1000 * G := by
    intro c hc hcH
    have k1 : c * (ε * T) ≤ (9 * H + 27) * (ε * T) := mul_le_mul_of_nonneg_right hcH (by positivity)
    have k2 : c * (ε * T) * G ≤ 9 / 1000 * G := mul_le_mul_of_nonneg_right (by linarith) hG0
    linarith
  have hmul : ∀ x c : ℝ, 0 ≤ c → c ≤ 9 * H + 27 → x ≤ c * (ε * G) → T * x ≤ 9 / 1000 * G := fun x c hc hcH hx =>
    le_trans (mul_le_mul_of_nonneg_left hx (by linarith)) (hroom c hc hcH)
  have r1 := hmul _ 9 (by norm_num) (by linarith) hav
  have r2 := hmul _ (9 * H + 21) (by positivity) (by linarith) hErr
  have r3 := hmul _ 5 (by norm_num) (by linarith) (le_refl (5 * (ε * G)))
  have hG1 : ρ + T * (ρ + avErr ε (ε * (ρ + 5 * T)) G 0 T (T + 1)) ≤ G := by
    rw [mul_add]
    linarith
  have hG2 : T * (8 * (ρ + fmnErr ε (ε * (ρ + 5 * T)) G 0 T H + 5 * (ε * G))) + 2 ≤ G := by
    have : T * (8 * (ρ + fmnErr ε (ε * (ρ + 5 * T)) G 0 T H + 5 * (ε * G))) =
        8 * (T * ρ) + 8 * (T * fmnErr ε (ε * (ρ + 5 * T)) G 0 T H) + 8 * (T * (5 * (ε * G))) := by ring
    linarith
  have hG3 : T * (ρ + 1 + (fmnErr ε (ε * (ρ + 5 * T)) G 0 T H + 3 * (ε * G))) + 2 ≤ G := by
    have h3 := hmul _ 3 (by norm_num) (by linarith) (le_refl (3 * (ε * G)))
    have : T * (ρ + 1 + (fmnErr ε (ε * (ρ + 5 * T)) G 0 T H + 3 * (ε * G))) =
        T * ρ + T + T * fmnErr ε (ε * (ρ + 5 * T)) G 0 T H + T * (3 * (ε * G)) := by ring
    linarith
  have hN : 64 * ((T + 1 : ℕ) : ℝ) * ε ≤ 1 := by
    push_cast
    have k1 : 0 ≤ H * (ε * T) := by positivity
    have k2 : ε ≤ ε * T := le_mul_of_one_le_right e0 h1
    linarith
  obtain ⟨s', s, i1, i2, i3, i4, i5⟩ := FmnSim.init (G := G) (h0 := m) hSt ktCopy hR hB le_rfl hL hm (KtSim.init : KtSim ε 0 _ _)
  obtain ⟨r', q', r, q, k1, k2, k3, k4, k5⟩ := FmnSim.run hSt ktCopy hR hB hβ0 (by linarith) le_rfl hεG hL hN hG1 hG2 hG3 hTH xs hw (by omega) i3
  have hfin : T * (ε * G) ≤ ε * T ^ 2 * (10 * ρ + 4) := by
    have : ε * T * (10 * T * ρ + 4) ≤ ε * T * (10 * T * ρ + 4 * T) := mul_le_mul_of_nonneg_left (by linarith) (by positivity)
    calc T * (ε * G) = ε * T * (10 * T * ρ + 4) := by rw [hGd]; ring
      _ ≤ _ := this
      _ = _ := by ring
  refine ⟨s', s, r', q', r, q, i1, i2, k1, k2.mono ?_, ?_⟩
  · have g1 := mul_le_mul_of_nonneg_left hErr (by positivity : (0 : ℝ) ≤ 2 * T)
    have g2 := mul_le_mul_of_nonneg_left hfin (by positivity : (0 : ℝ) ≤ 18 * H + 50)
    simp only [ktRel]
    calc 2 * (T : ℝ) * (fmnErr ε (ε * (ρ + 5 * T)) G 0 T H + 4 * (ε * G)) ≤ (18 * H + 50) * (T * (ε * G)) := by linarith
      _ ≤ _ := g2
      _ = _ := by ring
  · obtain ⟨-, -, -, ⟨-, -, g0⟩, -⟩ := k3
    rw [zero_add] at g0
    have g1 := mul_le_mul_of_nonneg_left hErr (by positivity : (0 : ℝ) ≤ T)
    have g2 := mul_le_mul_of_nonneg_left hfin (by positivity : (0 : ℝ) ≤ 45 * H + 128)
    have g3 : |r' - r| ≤ T * (5 * fmnErr ε (ε * (ρ + 5 * T)) G 0 T H + 21 * (ε * G)) + T * (2 * (ε * G)) := by
      rw [i4, sub_zero] at k5
      rw [i5, sub_zero] at k4
      rw [k4]
      simp only [ktRel] at g0
      simp only [fmnErr] at g0 ⊢
      rw [abs_le] at *
      constructor <;> linarith [g0.1, g0.2, k5.1, k5.2]
    calc |r' - r| ≤ _ := g3
      _ ≤ (45 * H + 128) * (T * (ε * G)) := by linarith
      _ ≤ _ := g2
      _ = _ := by ring

end Arith

/-- **C117 (forget-me-not).** Take `FMN` over `KTBinary` with either store.  In rounded arithmetic neither making it nor any of its updates raises.  The sum of the
values they return is near that of a run in exact arithmetic which stores, at the end of each period, a model that is the best one up to a difference of
the same order.  Both bounds grow, up to logarithms, like the square of the number of updates. -/
theorem C117_fmn_sum (hR : R.Accurate ε) (m H : ℕ) (xs : List (Obs Bool)) (hw : ∀ o ∈ xs, o.weight = 1) (hT : 1 ≤ xs.length)
    (hTH : xs.length ≤ 2 ^ H) (hm : m ≤ H) (hε : 1000 * ((H : ℝ) + 3) * ε * xs.length ≤ 1) :
    let δ := (18 * H + 50) * ε * xs.length ^ 2 * (10 * Real.log (2 * xs.length) + 4)
    let Δ := (45 * H + 128) * ε * xs.length ^ 2 * (10 * Real.log (2 * xs.length) + 4)
    (∃ s' s r' q' r q, R.fmnInit (LogStore.store _) R.ktPredictor (KTBinary.init none) m = .ok s' ∧
      FMN.init (LogStore.store _) KTBinary.predictor (KTBinary.init none) m = .ok s ∧
      (R.fmnPredictor (LogStore.store _) R.ktPredictor m).run s' xs = .ok (r', q') ∧
      FMN.NearRun (LogStore.store _) KTBinary.predictor m δ s xs r q ∧ |r' - r| ≤ Δ) ∧
    ∃ s' s r' q' r q, R.fmnInit (LogStoreUniform.store _) R.ktPredictor (KTBinary.init none) m = .ok s' ∧
      FMN.init (LogStoreUniform.store _) KTBinary.predictor (KTBinary.init none) m = .ok s ∧
      (R.fmnPredictor (LogStoreUniform.store _) R.ktPredictor m).run s' xs = .ok (r', q') ∧
      FMN.NearRun (LogStoreUniform.store _) KTBinary.predictor m δ s xs r q ∧ |r' - r| ≤ Δ :=
  ⟨fmn_near logStore_sim hR m H xs hw hT hTH hm hε, fmn_near uniStore_sim hR m H xs hw hT hTH hm hε⟩

/-- **C117 (the exact run).** The run of `FMN` in exact arithmetic is one of those that store nearly the best model, for every difference. -/
theorem C117_near_exact {St : Store S σ} {P : Predictor σ α} {add : S → σ → S} {Keep : S → σ → Prop} (hSt : St.Lawful add Keep) (I : σ → Prop) (A : List α)
    (W : ℝ → Prop) (hP : P.UpdateLawful I A W) (hC : P.Copyable I) (f : σ) (hf : I f) (m : ℕ) (xs : List (Obs α))
    (hx : ∀ o ∈ xs, o.sym ∈ A ∧ W o.weight) (δ : ℝ) (hδ : 0 ≤ δ) :
    ∃ s0 r s, FMN.init St P f m = .ok s0 ∧ (FMN.predictor St P m).run s0 xs = .ok (r, s) ∧ FMN.NearRun St P m δ s0 xs r s := by
  obtain ⟨v, -, -, h1, h2⟩ := FMN.init_ok (m := m) hP hC hSt hf
  have hmax : ∀ {τ : Type} (x : τ × ℝ) (l : List (τ × ℝ)), FMN.NearMax δ (x :: l) (Averager.maxByKey x l).1 := by
    intro τ x l
    obtain ⟨i, hi, k1, k2, -⟩ := Averager.maxByKey_spec x l
    refine ⟨(Averager.maxByKey x l).2, Averager.maxByKey_mem x l, fun y hy => ?_⟩
    rw [k1]
    linarith [k2 y hy]
  have main : ∀ (xs : List (Obs α)) (s : FMN S σ), (∀ o ∈ xs, o.sym ∈ A ∧ W o.weight) → FMN.Good St Keep I f s →
      ∃ r q, (FMN.predictor St P m).run s xs = .ok (r, q) ∧ FMN.NearRun St P m δ s xs r q := by
    intro xs
    induction xs with
    | nil => exact fun s _ _ => ⟨0, s, rfl, .nil s⟩
    | cons o xs ih =>
      intro s hx hs
      rw [List.forall_mem_cons] at hx
      obtain ⟨v, g1, -, -⟩ := hs.factory hP hC hSt
      obtain ⟨r1, p, c, g2, g3, g4, g5⟩ := FMN.update_ok (m := m) hP hC hSt hs g1 hx.1.1 o.hist hx.1.2
      obtain ⟨r2, q, k1, k2⟩ := ih _ hx.2 g5
      refine ⟨r1 + r2, q, ?_, .cons ⟨p, by rw [g1]; exact g2, ?_⟩ k2⟩
      · rw [Predictor.run]
        replace g4 : (FMN.predictor St P m).update s o.sym o.hist o.weight = _ := g4
        rw [g4, ok_bind]
        dsimp only
        rw [k1]
        rfl
      · by_cases hper : (s.t + 1) % 2 ^ m = 0
        · rw [if_pos hper, if_pos hper]
          simp only [FMN.best, bind_eq_ok] at g3
          obtain ⟨a, ga, b, gb, gc⟩ := g3
          refine ⟨b, c, add s.store c, ⟨a, ?_, ?_⟩, gc, hSt.lazyAdd _ _, rfl⟩
          · rw [PTW.map] at ga
            split at ga
            · cases ga
            · next x l hl =>
              rw [hl, ← Except.ok.inj ga]
              exact hmax x l
          · rw [Averager.map] at gb
            split at gb
            · cases gb
            · next x l hl =>
              rw [hl, ← Except.ok.inj gb]
              exact hmax x l
        · rw [if_neg hper, if_neg hper]
  obtain ⟨r, q, k1, k2⟩ := main xs _ hx h2
  exact ⟨_, r, q, h1, k1, k2⟩

/-- **C117 (no near ties).** If no comparison in the exact run is a near tie, then the only run that stores nearly the best models is the exact one.  So by
`C117_fmn_sum` the rounded sum is near that of the exact run. -/
theorem C117_decisive (St : Store S σ) (P : Predictor σ α) (m : ℕ) (δ : ℝ) (xs : List (Obs α)) : ∀ (s s' : FMN S σ) (r : ℝ),
    FMN.Decisive St P m δ s xs → FMN.NearRun St P m δ s xs r s' → (FMN.predictor St P m).run s xs = .ok (r, s') := by
  induction xs with
  | nil =>
    rintro s s' r - h
    cases h
    rfl
  | cons o xs ih =>
    rintro s s' r ⟨h1, h2⟩ h
    cases h with
    | @cons _ s1 _ _ _ r1 r2 k1 k2 =>
      obtain ⟨p, hp, k1⟩ := k1
      have hu : FMN.update St P m s o.sym o.hist o.weight = .ok (r1, s1) := by
        rw [FMN.update, hp, ok_bind]
        dsimp only
        by_cases hper : (s.t + 1) % 2 ^ m = 0
        · rw [if_pos hper] at k1 ⊢
          obtain ⟨b, c, st, hb, hc, hst, rfl⟩ := k1
          rw [← h1 r1 p hp hper b hb, hc, hst]
          rfl
        · rw [if_neg hper] at k1 ⊢
          rw [k1]
          rfl
      have := ih _ _ _ (h2 _ _ hu) k2
      rw [Predictor.run]
      replace hu : (FMN.predictor St P m).update s o.sym o.hist o.weight = .ok (r1, s1) := hu
      rw [hu, ok_bind]
      dsimp only
      rw [this]
      rfl

namespace FMN

variable {St : Store S σ} {P : Predictor σ α} {m : ℕ}

/-- In the first period there is only one model. -/
theorem decisive_first (δ : ℝ) (xs : List (Obs α)) : ∀ (s : FMN S σ) (d : PTWData (Averager σ)), s.ptw.tree = .leaf d → d.height = m → d.count = s.t →
    d.base.models.length = 1 → s.t + xs.length ≤ 2 ^ m → Decisive St P m δ s xs := by
  induction xs with
  | nil => exact fun _ _ _ _ _ _ _ => trivial
  | cons o xs ih =>
    intro s d htree hh hc hl ht
    rw [List.length_cons] at ht
    have key : ∀ r p, s.ptw.update (Averager.predictor P) (modelFactory P (St.items s.store)) m o.sym o.hist o.weight = .ok (r, p) →
        ∃ d', p.tree = .leaf d' ∧ d'.height = m ∧ d'.count = s.t + 1 ∧ d'.base.models.length = 1 := by
      intro r p hp
      have hcomp : d.complete = false := by
        rw [PTWData.complete, hh, hc, Nat.shiftRight_eq_div_pow, Nat.div_eq_of_lt (by omega)]
        rfl
      simp only [PTW.update, htree, PTWNode.update, hcomp, Bool.false_eq_true, if_false, PTWNode.leafUpdate, PTWData.baseStep, bind_eq_ok, pure_eq_ok,
        Except.ok.injEq, Prod.exists, Prod.mk.injEq] at hp
      obtain ⟨n, ⟨d1, ⟨r1, b, hb, rfl⟩, rfl⟩, -, rfl⟩ := hp
      refine ⟨_, rfl, hh, by simp [hc], ?_⟩
      change b.models.length = 1
      simp only [Averager.predictor, Averager.update, bind_eq_ok, pure_eq_ok, Except.ok.injEq, Prod.mk.injEq] at hb
      obtain ⟨ms, hms, l, -, -, rfl⟩ := hb
      exact (Averager.updateModels_ok.1 hms).length_eq.symm.trans hl
    refine ⟨?_, ?_⟩
    · intro r p hp _ b hb
      obtain ⟨d', h1, -, -, h2⟩ := key r p hp
      obtain ⟨x, hx⟩ := List.length_eq_one_iff.1 h2
      obtain ⟨a, ⟨k, ha, -⟩, ⟨j, hb, -⟩⟩ := hb
      rw [h1, PTWNode.mapNodes, List.mem_singleton] at ha
      obtain rfl : a = d'.base := (Prod.mk.inj ha).1
      rw [hx, List.mem_singleton] at hb
      rw [best, PTW.map, h1]
      simp only [PTWNode.mapNodes, Averager.maxByKey, ok_bind, Averager.map, hx]
      rw [← hb]
    · intro r s' hu
      rw [update] at hu
      obtain ⟨⟨r1, p⟩, hp, hu⟩ := bind_eq_ok.1 hu
      dsimp only at hu
      have hs' : s'.ptw = p ∧ s'.t = s.t + 1 := by
        split_ifs at hu
        · obtain ⟨st, -, hu⟩ := bind_eq_ok.1 hu
          obtain ⟨-, rfl⟩ := Prod.mk.inj (Except.ok.inj hu)
          exact ⟨rfl, rfl⟩
        · obtain ⟨-, rfl⟩ := Prod.mk.inj (Except.ok.inj hu)
          exact ⟨rfl, rfl⟩
      obtain ⟨d', h1, h2, h3, h4⟩ := key r1 p hp
      exact ih _ d' (hs'.1 ▸ h1) h2 (h3.trans hs'.2.symm) h4 (by omega)

end FMN

/-- **C117 (first period).** For at most as many updates as the first period has, the rounded sum is near that of `FMN` in exact arithmetic. -/
theorem C117_first_period (hR : R.Accurate ε) (m : ℕ) (xs : List (Obs Bool)) (hw : ∀ o ∈ xs, o.weight = 1) (hT : 1 ≤ xs.length)
    (hTm : xs.length ≤ 2 ^ m) (hε : 1000 * ((m : ℝ) + 3) * ε * xs.length ≤ 1) :
    ∃ s' s r' q' r q, R.fmnInit (LogStore.store _) R.ktPredictor (KTBinary.init none) m = .ok s' ∧
      FMN.init (LogStore.store _) KTBinary.predictor (KTBinary.init none) m = .ok s ∧
      (R.fmnPredictor (LogStore.store _) R.ktPredictor m).run s' xs = .ok (r', q') ∧
      (FMN.predictor (LogStore.store _) KTBinary.predictor m).run s xs = .ok (r, q) ∧
      |r' - r| ≤ (45 * m + 128) * ε * xs.length ^ 2 * (10 * Real.log (2 * xs.length) + 4) := by
  obtain ⟨s', s, r', q', r, q, h1, h2, h3, h4, h5⟩ := (C117_fmn_sum hR m m xs hw hT hTm le_rfl hε).1
  refine ⟨s', s, r', q', r, q, h1, h2, h3, C117_decisive _ _ _ _ _ _ _ _ ?_ h4, h5⟩
  have hs : s = ⟨PTW.init ⟨[(KTBinary.init none, Real.log (1 / (1 : ℕ)))], 0⟩ m, [(KTBinary.init none, true)], 0⟩ := by
    rw [FMN.init] at h2
    obtain ⟨st, e1, h2⟩ := bind_eq_ok.1 h2
    obtain rfl : [(KTBinary.init none, true)] = st := Except.ok.inj e1
    obtain ⟨v, e2, h2⟩ := bind_eq_ok.1 h2
    rw [← Except.ok.inj h2]
    rw [FMN.modelFactory] at e2
    obtain ⟨ys, e3, e2⟩ := bind_eq_ok.1 e2
    obtain rfl : [KTBinary.init none] = ys := Except.ok.inj e3
    rw [(Averager.init_ok.1 e2).2]
    rfl
  rw [hs]
  exact FMN.decisive_first _ _ _ _ rfl rfl rfl rfl (by simpa using hTm)

/-- Two updates with a first period of two, in double precision. -/
example (hR : R.Accurate (2 ^ (-52 : ℤ))) : ∃ s' r' q', R.fmnInit (LogStore.store _) R.ktPredictor (KTBinary.init none) 1 = .ok s' ∧
    (R.fmnPredictor (LogStore.store _) R.ktPredictor 1).run s' [⟨true, [], 1⟩, ⟨false, [true], 1⟩] = .ok (r', q') := by
  obtain ⟨s', s, r', q', r, q, h1, -, h3, -⟩ := C117_first_period hR 1 [⟨true, [], 1⟩, ⟨false, [true], 1⟩] (by simp) (by simp) (by simp) (by norm_num)
  exact ⟨s', r', q', h1, h3⟩

/-- A million updates in double precision. -/
example : (1000 : ℝ) * ((20 : ℕ) + 3) * 2 ^ (-52 : ℤ) * (1000000 : ℕ) ≤ 1 := by norm_num

/-- The exact run over `KTBinary` is a run that stores nearly the best models. -/
example : ∃ s0 r s, FMN.init (LogStore.store _) KTBinary.predictor (KTBinary.init none) 0 = .ok s0 ∧
    (FMN.predictor (LogStore.store _) KTBinary.predictor 0).run s0 [⟨true, [], 1⟩, ⟨false, [true], 1⟩] = .ok (r, s) ∧
    FMN.NearRun (LogStore.store _) KTBinary.predictor 0 0 s0 [⟨true, [], 1⟩, ⟨false, [true], 1⟩] r s :=
  C117_near_exact (LogStore.lawful _) (fun s => 0 < s.c0 ∧ 0 < s.c1) [false, true] (fun w => 0 ≤ w) KTBinary.lawful.updateLawful
    (fun s hs => ⟨s, rfl, hs, fun _ => rfl⟩) _ (by norm_num [KTBinary.init]) 0 _ (by simp) 0 le_rfl

end Verif
