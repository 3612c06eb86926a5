import Verif.Model.RoundingFMN
import Verif.Proofs.RoundingTower
import Verif.Proofs.Averager

/-! Rounding errors of `logsumexp` and `Averager`. -/

namespace Verif

namespace Arith

variable {R : Arith} {ε : ℝ}

/-! ### `logsumexp` -/

/-- A term of the sum. -/
theorem exp_near (hR : R.Accurate ε) {d : ℝ} (hd : d ≤ 0) {d' : ℝ} (hd' : |d' - d| ≤ ε * |d|) :
    0 ≤ R.exp d' ∧ |R.exp d' - Real.exp d| ≤ 4 * ε := by
  have h0 := hR.nonneg
  have h1 := hR.small
  rw [abs_of_nonpos hd] at hd'
  have hdd := abs_le.mp hd'
  have hm : d' ≤ d * (1 - ε) := by nlinarith [hdd.2]
  have hm0 : d * (1 - ε) ≤ 0 := mul_nonpos_of_nonpos_of_nonneg hd (by linarith)
  have hd0 : d' ≤ 0 := le_trans hm hm0
  obtain ⟨he0, he⟩ := hR.exp d' hd0
  have hexp : |Real.exp d' - Real.exp d| ≤ 16 / 15 * ε := by
    refine le_trans (abs_exp_sub_le hm (by nlinarith : d ≤ d * (1 - ε))) ?_
    refine le_trans (mul_le_mul_of_nonneg_right hd' (Real.exp_pos _).le) ?_
    have hz : 0 < 1 + -(d * (1 - ε)) := by linarith
    have h2 : Real.exp (d * (1 - ε)) ≤ 1 / (1 + -(d * (1 - ε))) := by
      rw [le_div_iff₀ hz]
      have h3 := Real.add_one_le_exp (-(d * (1 - ε)))
      have h4 : Real.exp (d * (1 - ε)) * Real.exp (-(d * (1 - ε))) = 1 := by rw [← Real.exp_add]; simp
      nlinarith [Real.exp_pos (d * (1 - ε))]
    refine le_trans (mul_le_mul_of_nonneg_left h2 (by nlinarith)) ?_
    rw [mul_one_div, div_le_iff₀ hz]
    nlinarith [mul_nonneg h0 (neg_nonneg.mpr hd)]
  have he1 : Real.exp d' ≤ 1 := Real.exp_le_one_iff.mpr hd0
  refine ⟨he0, ?_⟩
  have : |R.exp d' - Real.exp d'| ≤ 2 * ε := le_trans he (by nlinarith [Real.exp_pos d'])
  calc |R.exp d' - Real.exp d| = |(R.exp d' - Real.exp d') + (Real.exp d' - Real.exp d)| := by ring_nf
    _ ≤ _ := abs_add_le _ _
    _ ≤ 4 * ε := by linarith

/-- Adding up from left to right. -/
theorem foldl_near (hR : R.Accurate ε) {M : ℝ} : ∀ (l : List ℝ) (a' a : ℝ) (k : ℕ), (∀ x ∈ l, 0 ≤ x) → 0 ≤ a → a + l.sum ≤ M →
    |a' - a| ≤ 2 * k * ε * M → 2 * (k + l.length) * ε ≤ 1 → |l.foldl R.add a' - (a + l.sum)| ≤ 2 * (k + l.length) * ε * M := by
  have h0 := hR.nonneg
  intro l
  induction l with
  | nil =>
    intro a' a k _ _ _ h _
    simpa using h
  | cons x l ih =>
    intro a' a k hx ha hM h hk
    have hx0 : 0 ≤ x := hx x (by simp)
    have hl0 : 0 ≤ l.sum := List.sum_nonneg (fun y hy => hx y (by simp [hy]))
    rw [List.sum_cons] at hM
    rw [List.length_cons] at hk
    push_cast at hk
    have hl : (0 : ℝ) ≤ l.length := Nat.cast_nonneg _
    have hk0 : (0 : ℝ) ≤ k := Nat.cast_nonneg _
    have hM0 : 0 ≤ M := by linarith
    have hkε : 2 * k * ε ≤ 1 := by nlinarith
    have h2 : |a' + x| ≤ 2 * M := by
      have : |a' + x| ≤ |a' - a| + |a + x| := by
        calc |a' + x| = |(a' - a) + (a + x)| := by ring_nf
          _ ≤ _ := abs_add_le _ _
      rw [abs_of_nonneg (by linarith : 0 ≤ a + x)] at this
      have := mul_le_mul_of_nonneg_right hkε hM0
      linarith
    have h3 : |R.add a' x - (a + x)| ≤ 2 * ((k + 1 : ℕ) : ℝ) * ε * M := by
      have g1 := hR.add a' x
      have g2 := mul_le_mul_of_nonneg_left h2 h0
      push_cast
      rw [abs_le] at g1 h ⊢
      constructor <;> linarith
    have := ih (R.add a' x) (a + x) (k + 1) (fun y hy => hx y (by simp [hy])) (by linarith) (by linarith) h3 (by push_cast; linarith)
    rw [List.foldl_cons, List.sum_cons, List.length_cons]
    push_cast at this ⊢
    rw [← add_assoc]
    refine le_trans this (le_of_eq (by ring))

theorem sum_near {e : ℝ} {f g : ℝ → ℝ} : ∀ l : List ℝ, (∀ x ∈ l, |f x - g x| ≤ e) → |(l.map f).sum - (l.map g).sum| ≤ l.length * e := by
  intro l
  induction l with
  | nil => intro _; simp
  | cons x l ih =>
    intro h
    have h1 := h x (by simp)
    have h2 := ih (fun y hy => h y (by simp [hy]))
    simp only [List.map_cons, List.sum_cons, List.length_cons]
    push_cast
    calc |f x + (l.map f).sum - (g x + (l.map g).sum)| = |(f x - g x) + ((l.map f).sum - (l.map g).sum)| := by ring_nf
      _ ≤ _ := abs_add_le _ _
      _ ≤ _ := by linarith

/-- `logsumexp` of `n` numbers. -/
theorem logsumexp_near (hR : R.Accurate ε) {l : List ℝ} (hne : l ≠ []) (hn : 64 * l.length * ε ≤ 1) :
    ∃ y, R.logsumexp l = .ok y ∧ |y - Real.log ((l.map Real.exp).sum)| ≤ ε * |Real.log ((l.map Real.exp).sum)| + 20 * l.length * ε := by
  have h0 := hR.nonneg
  cases l with
  | nil => exact absurd rfl hne
  | cons v vs =>
    set l := v :: vs with hl
    set n : ℝ := (l.length : ℝ) with hnd
    have hn1 : 1 ≤ n := by
      rw [hnd, hl, List.length_cons]
      push_cast
      linarith [(Nat.cast_nonneg vs.length : (0 : ℝ) ≤ vs.length)]
    set s := maxOf v vs with hs
    have hle : ∀ x ∈ l, x - s ≤ 0 := fun x hx => by linarith [le_maxOf hx]
    set S := (l.map fun u => Real.exp (u - s)).sum with hS
    set S1 := (l.map fun u => R.exp (R.sub u s)).sum with hS1
    have hterm : ∀ x ∈ l, |R.exp (R.sub x s) - Real.exp (x - s)| ≤ 4 * ε := fun x hx => (exp_near hR (hle x hx) (hR.sub x s)).2
    have hdiff : |S1 - S| ≤ n * (4 * ε) := sum_near l hterm
    have hSn : S ≤ n := by
      have : ∀ x ∈ l.map fun u => Real.exp (u - s), x ≤ 1 := by
        intro x hx
        obtain ⟨u, hu, rfl⟩ := List.mem_map.1 hx
        exact Real.exp_le_one_iff.2 (hle u hu)
      have := List.sum_le_card_nsmul _ _ this
      simpa using this
    have hS1' : 1 ≤ S := by
      have hm : (1 : ℝ) ∈ l.map fun u => Real.exp (u - s) := List.mem_map.2 ⟨s, maxOf_mem v vs, by simp⟩
      exact List.single_le_sum (fun x hx => by obtain ⟨u, _, rfl⟩ := List.mem_map.1 hx; exact (Real.exp_pos _).le) _ hm
    have hdd := abs_le.1 hdiff
    have hnε : n * ε ≤ 1 / 64 := by linarith
    have hnε0 : 0 ≤ n * ε := by positivity
    set F := (l.map fun u => R.exp (R.sub u s)).foldl R.add 0 with hF
    have hFS : |F - S1| ≤ 2 * n * ε * S1 := by
      have := foldl_near hR (M := S1) (l.map fun u => R.exp (R.sub u s)) 0 0 0
        (fun x hx => by obtain ⟨u, hu, rfl⟩ := List.mem_map.1 hx; exact (exp_near hR (hle u hu) (hR.sub u s)).1) le_rfl (by rw [zero_add]) (by simp)
        (by simp only [List.length_map]; push_cast; linarith)
      simpa using this
    -- the sum up to a factor
    have hFd : |F - S| ≤ 7 * (n * ε) * S := by
      have g1 : 2 * n * ε * S1 ≤ 2 * (n * ε) * (S + 1 / 16) := by nlinarith
      have g2 : n * ε ≤ n * ε * S := le_mul_of_one_le_right hnε0 hS1'
      have := abs_le.1 hFS
      rw [abs_le]
      constructor <;> linarith [this.1, this.2]
    have hFlow : S / 2 ≤ F := by
      have := (abs_le.1 hFd).1
      have : 7 * (n * ε) * S ≤ 1 / 2 * S := mul_le_mul_of_nonneg_right (by linarith) (by linarith)
      linarith
    have hFpos : 0 < F := by linarith
    have hlog : |Real.log F - Real.log S| ≤ 14 * (n * ε) := by
      refine le_trans (abs_log_sub_le (by linarith : 0 < S / 2) hFlow (by linarith)) ?_
      rw [div_le_iff₀ (by linarith)]
      linarith
    have hL0 : 0 ≤ Real.log S := Real.log_nonneg hS1'
    have hLn : Real.log S ≤ n := by
      have := Real.log_le_sub_one_of_pos (by linarith : 0 < S)
      linarith
    have hRl := hR.log F hFpos
    have hRl' : |R.log F - Real.log S| ≤ 16 * (n * ε) := by
      have hF' : |Real.log F| ≤ n + 14 * (n * ε) := by
        have := abs_le.1 hlog
        rw [abs_le]
        constructor <;> linarith [this.1, this.2]
      have g1 : ε * |Real.log F| ≤ 2 * (n * ε) := by
        have := mul_le_mul_of_nonneg_left hF' h0
        nlinarith
      have := abs_le.1 hlog
      have := abs_le.1 hRl
      rw [abs_le]
      constructor <;> linarith
    have hval : Real.log ((l.map Real.exp).sum) = s + Real.log S := by
      rw [hS, sum_exp_shift, Real.log_mul (Real.exp_pos _).ne' sum_exp_pos.ne', Real.log_exp]
      ring
    refine ⟨R.add s (R.log F), ?_, ?_⟩
    · rw [Arith.logsumexp, ← hl, ← hs, ← hF, Arith.pyLog, if_pos hFpos]
      rfl
    · rw [hval]
      have g1 := hR.add s (R.log F)
      have g2 : |s + R.log F| ≤ |s + Real.log S| + 16 * (n * ε) := by
        calc |s + R.log F| = |(s + Real.log S) + (R.log F - Real.log S)| := by ring_nf
          _ ≤ _ := abs_add_le _ _
          _ ≤ _ := by linarith
      have g3 := mul_le_mul_of_nonneg_left g2 h0
      have g4 : ε * (16 * (n * ε)) ≤ n * ε := by
        have := mul_le_mul_of_nonneg_right hR.small hnε0
        linarith
      have q1 := abs_le.1 g1
      have q2 := abs_le.1 hRl'
      rw [abs_le]
      constructor <;> linarith [q1.1, q1.2, q2.1, q2.2]

/-- The exact value does not magnify errors. -/
theorem lse_le {t : ℝ} {l' l : List (ℝ)} (h : List.Forall₂ (fun x y => x ≤ y + t) l' l) (hne : l' ≠ []) :
    Real.log ((l'.map Real.exp).sum) ≤ Real.log ((l.map Real.exp).sum) + t := by
  have key : ∀ {l' l : List ℝ}, List.Forall₂ (fun x y => x ≤ y + t) l' l → (l'.map Real.exp).sum ≤ (l.map Real.exp).sum * Real.exp t := by
    intro l' l h
    induction h with
    | nil => simp
    | cons hxy _ ih =>
      simp only [List.map_cons, List.sum_cons, add_mul]
      rw [← Real.exp_add]
      exact add_le_add (Real.exp_le_exp.2 hxy) ih
  cases h with
  | nil => exact absurd rfl hne
  | @cons x y xs ys hxy h =>
    have := key (List.Forall₂.cons hxy h)
    have h2 := Real.log_le_log sum_exp_pos this
    rwa [Real.log_mul sum_exp_pos.ne' (Real.exp_pos _).ne', Real.log_exp] at h2

theorem lse_lipschitz {t : ℝ} {l' l : List ℝ} (h : List.Forall₂ (fun x y => |x - y| ≤ t) l' l) (hne : l' ≠ []) :
    |Real.log ((l'.map Real.exp).sum) - Real.log ((l.map Real.exp).sum)| ≤ t := by
  have hne' : l ≠ [] := by
    rintro rfl
    cases h
    exact hne rfl
  have h1 := lse_le (t := t) (h.imp fun x y hxy => by linarith [(abs_le.1 hxy).2]) hne
  have h2 := lse_le (t := t) (l' := l) (l := l') (h.flip.imp fun x y hxy => by linarith [(abs_le.1 hxy).1]) hne'
  rw [abs_le]
  constructor <;> linarith

/-! ### `Averager` -/

section Averager

variable {σ' σ α : Type} {P' : Predictor σ' α} {P : Predictor σ α} {A : Obs α → Prop} {T K N : ℕ} {β ρ G L : ℝ} {Sim : Rel σ' σ}

/-- A rounded and an exact component with their weights, after `m` updates of the `Averager` and at most `t` of the component. -/
def Comp (Sim : Rel σ' σ) (ε β ρ G L : ℝ) (K N t m : ℕ) (p' : σ' × ℝ) (p : σ × ℝ) : Prop :=
  ∃ k ≤ K, k + m ≤ t ∧ Sim.sim (k + m) p'.1 p.1 ∧ |p.2| ≤ L + m * ρ ∧
    |(p'.2 - p.2) - Sim.gap p'.1 p.1| ≤ 4 * N * ε + K * Sim.γ + m * (β - Sim.γ + ε * G)

/-- The error of the sum of the values returned, per update. -/
noncomputable def avErr (ε β G γ : ℝ) (K N : ℕ) : ℝ := β + 2 * (ε * G) + 2 * K * γ + 24 * N * ε

/-- A rounded and an exact `Averager` after the same `m` updates. -/
structure AvSim (Sim : Rel σ' σ) (ε β ρ G L : ℝ) (K N t m : ℕ) (s' : Averager σ') (s : Averager σ) : Prop where
  ne : s.models ≠ []
  len : s.models.length ≤ N
  comp : List.Forall₂ (Comp Sim ε β ρ G L K N t m) s'.models s.models
  lp : s.logProb = Real.log ((s.models.map fun p => Real.exp p.2).sum)
  bound : |s.logProb| ≤ m * ρ
  err : |s'.logProb - s.logProb| ≤ m * avErr ε β G Sim.γ K N

/-- The relation between rounded and exact `Averager`s. -/
noncomputable def avRel (Sim : Rel σ' σ) (ε β ρ G L : ℝ) (K N t : ℕ) : Rel (Averager σ') (Averager σ) :=
  ⟨AvSim Sim ε β ρ G L K N t, fun s' s => s'.logProb - s.logProb, avErr ε β G Sim.γ K N⟩

/-- The error of a weight. -/
theorem Comp.err (hB : BaseSim P' P A T β ρ Sim) (hγ : 0 ≤ Sim.γ) {t m : ℕ} {p' : σ' × ℝ} {p : σ × ℝ}
    (h : Comp Sim ε β ρ G L K N t m p' p) : |p'.2 - p.2| ≤ 4 * N * ε + 2 * K * Sim.γ + m * (β + ε * G) := by
  obtain ⟨k, h0, -, h2, -, h4⟩ := h
  have h5 := hB.gap _ _ _ h2
  have h6 : (k : ℝ) ≤ K := by exact_mod_cast h0
  have h7 := mul_le_mul_of_nonneg_right h6 hγ
  push_cast at h5
  rw [abs_le] at *
  constructor <;> linarith [h4.1, h4.2, h5.1, h5.2]

theorem updateModels_sim (hR : R.Accurate ε) (hB : BaseSim P' P A T β ρ Sim) (hβ : 0 ≤ β) (hρ : 0 ≤ ρ) (hγ : 0 ≤ Sim.γ) (hεG : 0 ≤ ε * G)
    (hG : L + T * (ρ + avErr ε β G Sim.γ K N) ≤ G) {o : Obs α} (ho : A o) {t m : ℕ} (ht : t < T) (hm : m ≤ t) {ms' : List (σ' × ℝ)} {ms : List (σ × ℝ)}
    (h : List.Forall₂ (Comp Sim ε β ρ G L K N t m) ms' ms) :
    ∃ ns' ns, R.avUpdateModels P' o.sym o.hist o.weight ms' = .ok ns' ∧ Averager.updateModels P o.sym o.hist o.weight ms = .ok ns ∧
      List.Forall₂ (Comp Sim ε β ρ G L K N (t + 1) (m + 1)) ns' ns ∧ List.Forall₂ (fun p q => |p.2 - q.2| ≤ ρ) ns ms := by
  have e0 := hR.nonneg
  have hT1 : (1 : ℝ) ≤ T := by exact_mod_cast (by omega : 1 ≤ T)
  have hmT : (m : ℝ) + 1 ≤ T := by exact_mod_cast (by omega : m + 1 ≤ T)
  have hNε : 0 ≤ N * ε := by positivity
  induction h with
  | nil => exact ⟨[], [], rfl, rfl, .nil, .nil⟩
  | @cons p' p ms' ms hp _ ih =>
    obtain ⟨ns', ns, i1, i2, i3, i4⟩ := ih
    obtain ⟨k, h0, h1, h2, h3, h4⟩ := hp
    obtain ⟨r', u', r, u, g1, g2, g3, g4, g5⟩ := hB.step (k + m) _ _ o (by omega) h2 ho
    have hgap := hB.gap _ _ _ g3
    push_cast at hgap
    have hk : (k : ℝ) ≤ K := by exact_mod_cast h0
    have hkγ := mul_le_mul_of_nonneg_right hk hγ
    have hx : |p.2 + r| ≤ L + (m + 1 : ℕ) * ρ := by
      have := abs_add_le p.2 r
      push_cast
      linarith
    have hmβ := mul_le_mul_of_nonneg_right hmT (by linarith : 0 ≤ β + ε * G)
    have hmρ := mul_le_mul_of_nonneg_right hmT hρ
    have hNT := mul_le_mul_of_nonneg_right hT1 hNε
    have hmγ : 0 ≤ ((m : ℝ) + 1) * Sim.γ := by positivity
    have hTγ : K * Sim.γ ≤ T * K * Sim.γ := by
      have := mul_le_mul_of_nonneg_right hT1 (by positivity : 0 ≤ K * Sim.γ)
      linarith
    have hTε : 0 ≤ T * (ε * G) := by positivity
    simp only [avErr] at hG
    have hsum : |p'.2 + r'| ≤ G := by
      rw [abs_le] at *
      push_cast at hx
      constructor <;> nlinarith [hx.1, hx.2, h4.1, h4.2, g4.1, g4.2, hgap.1, hgap.2]
    have hadd := hR.add p'.2 r'
    have hε := mul_le_mul_of_nonneg_left hsum e0
    refine ⟨(u', R.add p'.2 r') :: ns', (u, p.2 + r) :: ns, ?_, ?_, .cons ⟨k, h0, by omega, g3, hx, ?_⟩ i3, .cons ?_ i4⟩
    · obtain ⟨c', x'⟩ := p'
      simp only [avUpdateModels, g1, ok_bind, i1, pure_eq_ok]
    · obtain ⟨c, x⟩ := p
      simp only [Averager.updateModels, g2, ok_bind, i2, pure_eq_ok]
    · push_cast
      rw [abs_le] at *
      constructor <;> linarith [h4.1, h4.2, g4.1, g4.2, hadd.1, hadd.2]
    · simpa using g5

/-- `Averager` over models with small errors is one. -/
theorem stepSim_av (hR : R.Accurate ε) (hB : BaseSim P' P A T β ρ Sim) (hβ : 0 ≤ β) (hρ : 0 ≤ ρ) (hγ : 0 ≤ Sim.γ) (hεG : 0 ≤ ε * G)
    (hL : 0 ≤ L) (hG : L + T * (ρ + avErr ε β G Sim.γ K N) ≤ G) (hN : 64 * N * ε ≤ 1) {t : ℕ} (ht : t < T) :
    StepSim (R.avPredictor P') (Averager.predictor P) A T (avErr ε β G Sim.γ K N + 2 * (ε * G)) ρ (avRel Sim ε β ρ G L K N t)
      (AvSim Sim ε β ρ G L K N (t + 1)) := by
  have e0 := hR.nonneg
  refine ⟨fun m s' s o _ hs ho => ?_, fun m s' s hs => hs.err⟩
  replace hs : AvSim Sim ε β ρ G L K N t m s' s := hs
  have hmt : m ≤ t := by
    cases hc : s.models with
    | nil => exact absurd hc hs.ne
    | cons x xs =>
      have := hs.comp
      rw [hc] at this
      obtain ⟨p', ps', ⟨k, -, hk, -⟩, -⟩ := List.forall₂_cons_right_iff.1 this
      omega
  obtain ⟨ns', ns, h1, h2, h3, h4⟩ := updateModels_sim hR hB hβ hρ hγ hεG hG ho ht hmt hs.comp
  have hE0 : 0 ≤ avErr ε β G Sim.γ K N := by
    simp only [avErr]
    have : 0 ≤ 2 * K * Sim.γ := by positivity
    have : 0 ≤ 24 * N * ε := by positivity
    linarith
  have hlen : ns.length = s.models.length := h4.length_eq
  have hne : ns ≠ [] := by
    intro h
    rw [h] at hlen
    exact hs.ne (List.length_eq_zero_iff.1 hlen.symm)
  have hlen' : ns'.length = ns.length := h3.length_eq
  have hne' : ns'.map Prod.snd ≠ [] := by
    intro h
    have := congrArg List.length h
    rw [List.length_map, hlen', List.length_nil] at this
    exact hne (List.length_eq_zero_iff.1 this)
  have hmap : ∀ l : List (σ × ℝ), (l.map fun p => Real.exp p.2) = (l.map Prod.snd).map Real.exp := fun l => by
    rw [List.map_map]; rfl
  have hmT : (m : ℝ) + 1 ≤ T := by exact_mod_cast (by omega : m + 1 ≤ T)
  have hT1 : (1 : ℝ) ≤ T := by exact_mod_cast (by omega : 1 ≤ T)
  have hm0 : (0 : ℝ) ≤ m := Nat.cast_nonneg m
  have hNε : 0 ≤ N * ε := by positivity
  -- the exact value
  set lp := Real.log ((ns.map fun p => Real.exp p.2).sum) with hlp
  have hr : |lp - s.logProb| ≤ ρ := by
    rw [hlp, hs.lp, hmap, hmap]
    exact lse_lipschitz (List.forall₂_map_left_iff.2 (List.forall₂_map_right_iff.2 h4)) (by simpa using hne)
  have hbound : |lp| ≤ (m + 1 : ℕ) * ρ := by
    have := abs_add_le (lp - s.logProb) s.logProb
    rw [sub_add_cancel] at this
    have := hs.bound
    push_cast
    linarith
  -- the rounded value
  set D := 4 * N * ε + 2 * K * Sim.γ + (m + 1 : ℕ) * (β + ε * G) with hD
  have hlip : |Real.log (((ns'.map Prod.snd).map Real.exp).sum) - lp| ≤ D := by
    rw [hlp, hmap]
    refine lse_lipschitz (List.forall₂_map_left_iff.2 (List.forall₂_map_right_iff.2 (h3.imp ?_))) hne'
    intro p' p hp
    exact hp.err hB hγ
  have hlenN : ((ns'.map Prod.snd).length : ℝ) ≤ N := by
    rw [List.length_map]
    exact_mod_cast (by rw [hlen', hlen]; exact hs.len)
  have hlenε := mul_le_mul_of_nonneg_right hlenN e0
  obtain ⟨y, hy, hyn⟩ := logsumexp_near hR hne' (by linarith)
  have hDE : D + ε * G + 20 * N * ε ≤ (m + 1 : ℕ) * avErr ε β G Sim.γ K N := by
    have c1 : (1 : ℝ) ≤ m + 1 := by linarith
    have c2 : 0 ≤ ε * G + 2 * K * Sim.γ + 24 * N * ε := by positivity
    have := mul_le_mul_of_nonneg_right c1 c2
    rw [hD]
    simp only [avErr]
    push_cast
    linarith
  have hmE := mul_le_mul_of_nonneg_right hmT (by linarith : 0 ≤ ρ + avErr ε β G Sim.γ K N)
  set x' := Real.log (((ns'.map Prod.snd).map Real.exp).sum)
  have hx' : |x'| ≤ G := by
    have := abs_le_of_near hbound hlip
    push_cast at this hDE
    linarith
  have herr : |y - lp| ≤ (m + 1 : ℕ) * avErr ε β G Sim.γ K N := by
    have := mul_le_mul_of_nonneg_left hx' e0
    rw [abs_le] at *
    constructor <;> linarith [hyn.1, hyn.2, hlip.1, hlip.2]
  have hyG : |y| ≤ G := by
    have := abs_le_of_near hbound herr
    push_cast at this
    linarith
  have hsG : |s'.logProb| ≤ G := by
    have h5 := abs_le_of_near hs.bound hs.err
    have h6 : 0 ≤ ρ + avErr ε β G Sim.γ K N := by linarith
    linarith
  refine ⟨R.sub y s'.logProb, ⟨ns', y⟩, lp - s.logProb, ⟨ns, lp⟩, ?_, ?_, ⟨hne, by rw [hlen]; exact hs.len, h3, rfl, hbound, herr⟩, ?_, hr⟩
  · show R.avUpdate P' s' o.sym o.hist o.weight = _
    rw [avUpdate, h1, ok_bind, hy]
    rfl
  · show Averager.update P s o.sym o.hist o.weight = _
    rw [Averager.update, h2, ok_bind, Verif.logsumexp_eq (by simpa using hne), ← hmap]
    rfl
  · have := sub_gap hR (x := lp) (y := s.logProb) (G := G) rfl hyG hsG
    simp only [avRel]
    linarith

/-- The weight of a new component. -/
theorem avInit_near (hR : R.Accurate ε) {n : ℕ} (hn : 1 ≤ n) :
    0 < R.div 1 n ∧ |R.log (R.div 1 n) - Real.log (1 / n)| ≤ 4 * n * ε := by
  have h0 := hR.nonneg
  have h1 := hR.small
  have hn1 : (1 : ℝ) ≤ n := by exact_mod_cast hn
  have hd := (Near.refl (by positivity : (0 : ℝ) < 1 / n)).round hR (hR.div 1 n (by positivity))
  have hp := hd.pos
  refine ⟨hp, ?_⟩
  have hl := hd.log
  have hr := hR.log _ hp
  have habs : |Real.log (1 / n)| ≤ n - 1 := by
    rw [one_div, Real.log_inv, abs_neg, abs_of_nonneg (Real.log_nonneg hn1)]
    exact Real.log_le_sub_one_of_pos (by linarith)
  have h2 : |Real.log (R.div 1 n)| ≤ n - 1 + 2 * ε := by
    have := abs_le_of_near habs hl
    linarith
  have h3 := mul_le_mul_of_nonneg_left h2 h0
  have h4 : ε * (2 * ε) ≤ ε := by nlinarith
  have h5 : ε ≤ n * ε := le_mul_of_one_le_left h0 hn1
  rw [abs_le] at *
  constructor <;> linarith [hl.1, hl.2, hr.1, hr.2]

/-- A new `Averager` of models that have been updated before. -/
theorem avInit_sim (hR : R.Accurate ε) (hB : BaseSim P' P A T β ρ Sim) (hγ : 0 ≤ Sim.γ) {t : ℕ} {ms' : List σ'} {ms : List σ}
    (h : List.Forall₂ (fun x' x => ∃ k ≤ K, k ≤ t ∧ Sim.sim k x' x) ms' ms) (hne : ms ≠ []) (hN : ms.length ≤ N) (hL : Real.log N ≤ L) :
    ∃ s' s, R.avInit ms' = .ok s' ∧ Averager.init ms = .ok s ∧ AvSim Sim ε β ρ G L K N t 0 s' s ∧ s'.logProb - s.logProb = 0 := by
  have hlen : ms'.length = ms.length := h.length_eq
  have hn : 1 ≤ ms.length := List.length_pos_iff.2 hne
  have hn1 : (1 : ℝ) ≤ ms.length := by exact_mod_cast hn
  have hpos : (0 : ℝ) < ms.length := by linarith
  obtain ⟨hp, hd⟩ := avInit_near hR hn
  have hNl : (ms.length : ℝ) ≤ N := by exact_mod_cast hN
  refine ⟨⟨ms'.map fun m => (m, R.log (R.div 1 ms.length)), 0⟩, ⟨ms.map fun m => (m, Real.log (1 / ms.length)), 0⟩, ?_, ?_,
    ⟨by simpa using hne, by simpa using hN, ?_, ?_, by simp, by simp⟩, by simp⟩
  · rw [avInit, hlen, Arith.pyDiv, if_neg hpos.ne', ok_bind, Arith.pyLog, if_pos hp]
    rfl
  · rw [Averager.init, pyDiv_of_ne hpos.ne', ok_bind, pyLog_of_pos (by positivity)]
    rfl
  · refine List.forall₂_map_left_iff.2 (List.forall₂_map_right_iff.2 (h.imp ?_))
    rintro x' x ⟨k, hk, hkt, hs⟩
    refine ⟨k, hk, by omega, by simpa using hs, ?_, ?_⟩
    · rw [one_div, Real.log_inv, abs_neg, abs_of_nonneg (Real.log_nonneg hn1)]
      simp only [Nat.cast_zero, zero_mul, add_zero]
      exact le_trans (Real.log_le_log hpos hNl) hL
    · have hg := hB.gap _ _ _ hs
      have hk' : (k : ℝ) ≤ K := by exact_mod_cast hk
      have hkγ := mul_le_mul_of_nonneg_right hk' hγ
      have hNε := mul_le_mul_of_nonneg_right hNl hR.nonneg
      simp only [Nat.cast_zero, zero_mul, add_zero]
      rw [abs_le] at *
      constructor <;> linarith [hg.1, hg.2, hd.1, hd.2]
  · simp only [List.map_map, Function.comp_def]
    rw [List.map_const', List.sum_replicate, Real.exp_log (by positivity), nsmul_eq_mul, mul_one_div_cancel hpos.ne', Real.log_one]

end Averager

end Arith

end Verif
