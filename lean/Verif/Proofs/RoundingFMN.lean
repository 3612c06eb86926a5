import Verif.Spec.RoundingFMN
import Verif.Proofs.RoundingAverager
import Verif.Proofs.FMN

/-! Rounding errors of `FMN`. -/

namespace Verif

namespace Arith

variable {R : Arith} {ε : ℝ} {σ' σ α S' S : Type} {P' : Predictor σ' α} {P : Predictor σ α} {A : Obs α → Prop} {T K N H h0 : ℕ} {β ρ G L : ℝ}
  {Sim : Rel σ' σ}

/-! ### The choice of the model to store -/

/-- The largest of rounded keys is nearly the largest of the exact ones. -/
theorem maxByKey_near {τ' τ : Type} {Q : τ' → τ → Prop} {k : ℝ} {x' : τ' × ℝ} {xs' : List (τ' × ℝ)} {l : List (τ × ℝ)}
    (h : List.Forall₂ (fun p' p => Q p'.1 p.1 ∧ |p'.2 - p.2| ≤ k) (x' :: xs') l) :
    ∃ b, FMN.NearMax (2 * k) l b ∧ Q (Averager.maxByKey x' xs').1 b := by
  obtain ⟨i, hi, h1, h2, -⟩ := Averager.maxByKey_spec x' xs'
  have hl := h.length_eq
  have hi' : i < l.length := by omega
  have hget := List.forall₂_iff_get.1 h
  have hq := hget.2 i hi hi'
  simp only [List.get_eq_getElem] at hq
  refine ⟨(l[i]).1, ⟨(l[i]).2, List.getElem_mem hi', ?_⟩, by rw [h1]; exact hq.1⟩
  intro y hy
  obtain ⟨j, hj, rfl⟩ := List.getElem_of_mem hy
  have hj' : j < (x' :: xs').length := by omega
  have hp := hget.2 j hj' hj
  simp only [List.get_eq_getElem] at hp
  have h3 := h2 _ (List.getElem_mem hj')
  have h4 := abs_le.1 hp.2
  have h5 := abs_le.1 hq.2
  linarith [h4.1, h5.2]

/-- The keys of `PTW.map`. -/
theorem mapNodes_near (hR : R.Accurate ε) (hβ : 0 ≤ β) (hρ : 0 ≤ ρ) (hεG : 0 ≤ ε * G)
    (hG : T * (ρ + 1 + (ptwErr ε β G H + 3 * (ε * G))) + 2 ≤ G) {h c : ℕ} {n' : PTWNode σ'} {n : PTWNode σ}
    (hs : TreeSim Sim ε β ρ G h0 h c n' n) : ∀ (a : ℕ) (left' left : ℝ), h ≤ H → a + c ≤ T → |left| ≤ a * (ρ + 1) →
      |left' - left| ≤ a * (ptwErr ε β G H + 3 * (ε * G)) →
      List.Forall₂ (fun p' p => (∃ k, Sim.sim k p'.1 p.1) ∧ |p'.2 - p.2| ≤ T * (ptwErr ε β G H + 3 * (ε * G)) + ε * G)
        (R.ptwMapNodes left' n') (n.mapNodes left) := by
  have e0 := hR.nonneg
  have hE0 : 0 ≤ ptwErr ε β G H := by linarith [base_le_ptwErr (β := β) hεG H]
  set E := ptwErr ε β G H with hE
  -- one key
  have key : ∀ {h c : ℕ} {d' : PTWData σ'} {d : PTWData σ} (a : ℕ) (left' left : ℝ), DataSim Sim ε β ρ G h c d' d → h ≤ H → a + c ≤ T →
      |left| ≤ a * (ρ + 1) → |left' - left| ≤ a * (E + 3 * (ε * G)) →
      (∃ k, Sim.sim k d'.base d.base) ∧ |R.add d'.baseLP left' - (d.baseLP + left)| ≤ T * (E + 3 * (ε * G)) + ε * G := by
    intro h c d' d a left' left hd hh hac hl hl'
    have hac' : (a : ℝ) + c ≤ T := by exact_mod_cast hac
    have hc0 : (0 : ℝ) ≤ c := Nat.cast_nonneg c
    have hb : |d'.baseLP - d.baseLP| ≤ c * (E + 3 * (ε * G)) :=
      le_trans hd.baseErr (mul_le_mul_of_nonneg_left (by linarith [base_le_ptwErr (β := β) hεG H]) hc0)
    have hb' : |d.baseLP| ≤ c * (ρ + 1) := le_trans hd.baseLP (mul_le_mul_of_nonneg_left (by linarith) hc0)
    have m1 := mul_le_mul_of_nonneg_right hac' (by linarith : 0 ≤ ρ + 1)
    have m2 := mul_le_mul_of_nonneg_right hac' (by linarith : 0 ≤ E + 3 * (ε * G))
    have hsum : |(d'.baseLP + left') - (d.baseLP + left)| ≤ T * (E + 3 * (ε * G)) := by
      rw [abs_le] at *
      constructor <;> linarith [hb.1, hb.2, hl'.1, hl'.2]
    have hbig : |d'.baseLP + left'| ≤ G := by
      rw [abs_le] at *
      constructor <;> linarith [hb'.1, hb'.2, hl.1, hl.2, hsum.1, hsum.2]
    have g1 := hR.add d'.baseLP left'
    have g2 := mul_le_mul_of_nonneg_left hbig e0
    refine ⟨⟨c, hd.base⟩, ?_⟩
    rw [abs_le] at *
    constructor <;> linarith [g1.1, g1.2, hsum.1, hsum.2]
  induction hs with
  | leaf hd hc hlp =>
    intro a left' left hh hac hl hl'
    exact .cons (key a left' left hd hh hac hl hl') .nil
  | @inner h k j d' d r' r hd hll hll' hr h1 h2 hjh h0h hlp ih =>
    intro a left' left hh hac hl hl'
    refine .cons (key a left' left hd hh hac hl hl') (ih (a + 2 ^ h) _ _ (by omega) (by omega) ?_ ?_)
    · have hp : (1 : ℝ) ≤ (2 ^ h : ℕ) := by exact_mod_cast Nat.one_le_two_pow
      have h5 := log05_abs
      rw [Nat.cast_add]
      rw [abs_le] at *
      constructor <;> linarith [hl.1, hl.2, hll.1, hll.2, h5.1, h5.2]
    · have hp : (1 : ℝ) ≤ (2 ^ h : ℕ) := by exact_mod_cast Nat.one_le_two_pow
      have hac' : (a : ℝ) + (2 ^ h : ℕ) ≤ T := by exact_mod_cast (by omega : a + 2 ^ h ≤ T)
      have hEh : ptwErr ε β G h ≤ E := ptwErr_le hεG (by omega)
      set q : ℝ := ((2 ^ h : ℕ) : ℝ) with hq
      have h5 := log05_abs
      have hlog : |R.log (1 / 2) - log05| ≤ 7 / 10 * ε := by
        have := hR.log (1 / 2) (by norm_num)
        rw [show Real.log (1 / 2) = log05 from rfl] at this
        nlinarith
      have hε1 := hR.small
      have hT0 : (0 : ℝ) ≤ T := Nat.cast_nonneg T
      have ha0 : (0 : ℝ) ≤ a := Nat.cast_nonneg a
      have hqE : q * ptwErr ε β G h ≤ q * E := mul_le_mul_of_nonneg_left hEh (by linarith)
      have hqε : ε * G ≤ q * (ε * G) := le_mul_of_one_le_left hεG hp
      have m1 := mul_le_mul_of_nonneg_right hac' (by linarith : 0 ≤ ρ + 1)
      have m2 := mul_le_mul_of_nonneg_right hac' (by linarith : 0 ≤ E + 3 * (ε * G))
      have ha1 : 0 ≤ a * (ρ + 1) := by positivity
      have ha2 : 0 ≤ a * (E + 3 * (ε * G)) := by positivity
      have hG2 : 2 ≤ G := by
        have : 0 ≤ T * (ρ + 1 + (E + 3 * (ε * G))) := by positivity
        linarith
      have hε2 : 7 / 10 * ε ≤ ε * G := by nlinarith
      have hin : |R.add d'.leftLP (R.log (1 / 2)) - (d.leftLP + log05)| ≤ q * E + 2 * (ε * G) := by
        have g1 := hR.add d'.leftLP (R.log (1 / 2))
        have g0 : |d'.leftLP + R.log (1 / 2)| ≤ G := by
          rw [abs_le] at *
          constructor <;> linarith [hll.1, hll.2, hll'.1, hll'.2, hlog.1, hlog.2, h5.1, h5.2]
        have g2 := mul_le_mul_of_nonneg_left g0 e0
        rw [abs_le] at *
        constructor <;> linarith [hll'.1, hll'.2, hlog.1, hlog.2, g1.1, g1.2]
      have hout : |left' + R.add d'.leftLP (R.log (1 / 2))| ≤ G := by
        rw [abs_le] at *
        constructor <;> linarith [hl.1, hl.2, hl'.1, hl'.2, hin.1, hin.2, hll.1, hll.2, h5.1, h5.2]
      have g1 := hR.add left' (R.add d'.leftLP (R.log (1 / 2)))
      have g2 := mul_le_mul_of_nonneg_left hout e0
      rw [Nat.cast_add, ← hq]
      rw [abs_le] at *
      constructor <;> linarith [hl'.1, hl'.2, hin.1, hin.2, g1.1, g1.2]

/-! ### Stores -/

/-- Two stores, of rounded and of exact models, that work in the same way. -/
structure StoreSim (St' : Store S' σ') (St : Store S σ) (Rl : (σ' → σ → Prop) → ℕ → S' → S → Prop) : Prop where
  empty : ∀ r, Rl r 0 St'.empty St.empty
  mono : ∀ {r r2 : σ' → σ → Prop} {n : ℕ} {s' : S'} {s : S}, (∀ x' x, r x' x → r2 x' x) → Rl r n s' s → Rl r2 n s' s
  add : ∀ {r : σ' → σ → Prop} {n : ℕ} {s' : S'} {s : S} {x' : σ'} {x : σ}, Rl r n s' s → r x' x →
    ∃ u' u, St'.lazyAdd s' (.ok x') = .ok u' ∧ St.lazyAdd s (.ok x) = .ok u ∧ Rl r (n + 1) u' u
  items : ∀ {r : σ' → σ → Prop} {n : ℕ} {s' : S'} {s : S}, Rl r n s' s →
    List.Forall₂ r (St'.items s') (St.items s) ∧ (St.items s).length ≤ n ∧ (1 ≤ n → St.items s ≠ [])

/-- Two `LogStore`s with the same flags. -/
def logRel (r : σ' → σ → Prop) (n : ℕ) (s' : LogStore σ') (s : LogStore σ) : Prop :=
  List.Forall₂ (fun p' p => r p'.1 p.1 ∧ p'.2 = p.2) s' s ∧ s.length ≤ n ∧ (1 ≤ n → s ≠ [])

theorem logAdd_rel {r : σ' → σ → Prop} {s' : LogStore σ'} {s : LogStore σ}
    (h : List.Forall₂ (fun p' p => r p'.1 p.1 ∧ p'.2 = p.2) s' s) : ∀ {x' : σ'} {x : σ}, r x' x →
      List.Forall₂ (fun p' p => r p'.1 p.1 ∧ p'.2 = p.2) (s'.add x') (s.add x) ∧ (s.add x).length ≤ s.length + 1 ∧ s.add x ≠ [] := by
  induction h with
  | nil => exact fun hx => ⟨.cons ⟨hx, rfl⟩ .nil, by simp [LogStore.add], by simp [LogStore.add]⟩
  | @cons p' p s' s hp hs ih =>
    intro x' x hx
    obtain ⟨y', b'⟩ := p'
    obtain ⟨y, b⟩ := p
    obtain ⟨h1, h2⟩ := hp
    simp only at h1 h2
    subst h2
    cases b' with
    | true =>
      obtain ⟨k1, k2, -⟩ := ih h1
      exact ⟨.cons ⟨hx, rfl⟩ k1, by simp only [LogStore.add, List.length_cons]; omega, by simp [LogStore.add]⟩
    | false => exact ⟨.cons ⟨hx, rfl⟩ hs, by simp [LogStore.add], by simp [LogStore.add]⟩

theorem logStore_sim : StoreSim (LogStore.store σ') (LogStore.store σ) logRel where
  empty r := ⟨.nil, by simp [LogStore.store], by omega⟩
  mono h hs := ⟨hs.1.imp fun p' p hp => ⟨h _ _ hp.1, hp.2⟩, hs.2⟩
  add := by
    intro r n s' s x' x hs hx
    obtain ⟨h1, h2, h3⟩ := logAdd_rel hs.1 hx
    exact ⟨_, _, rfl, rfl, h1, le_trans h2 (by have := hs.2.1; omega), fun _ => h3⟩
  items := by
    intro r n s' s hs
    refine ⟨?_, by simpa [LogStore.store, LogStore.items] using hs.2.1, fun hn => by simpa [LogStore.store, LogStore.items] using hs.2.2 hn⟩
    exact List.forall₂_map_left_iff.2 (List.forall₂_map_right_iff.2 (hs.1.imp fun p' p hp => hp.1))

/-- Two `LogStoreUniform`s with the same numbers. -/
def uniRel (r : σ' → σ → Prop) (n : ℕ) (s' : LogStoreUniform σ') (s : LogStoreUniform σ) : Prop :=
  List.Forall₂ r s'.items s.items ∧ s'.gap = s.gap ∧ s'.indexToRemove = s.indexToRemove ∧ s'.numToSkip = s.numToSkip ∧ s.items.length ≤ n ∧
    (1 ≤ n → s.items ≠ []) ∧ (n = 0 → s.numToSkip = 0)

theorem forall₂_eraseIdx {r : σ' → σ → Prop} {l' : List σ'} {l : List σ} (h : List.Forall₂ r l' l) (i : ℕ) :
    List.Forall₂ r (l'.eraseIdx i) (l.eraseIdx i) := by
  induction h generalizing i with
  | nil => exact .nil
  | cons hx hs ih =>
    cases i with
    | zero => exact hs
    | succ i => exact .cons hx (ih i)

theorem uniAdd_rel {r : σ' → σ → Prop} {n : ℕ} {s' : LogStoreUniform σ'} {s : LogStoreUniform σ} (h : uniRel r n s' s) {x' : σ'} {x : σ} (hx : r x' x) :
    uniRel r (n + 1) (s'.add x') (s.add x) := by
  obtain ⟨h1, h2, h3, h4, h5, h6, h7⟩ := h
  obtain ⟨items', gap', idx', skip'⟩ := s'
  obtain ⟨items, gap, idx, skip⟩ := s
  simp only at h1 h2 h3 h4 h5 h6 h7
  subst h2 h3 h4
  unfold LogStoreUniform.add
  simp only
  by_cases hk : skip' ≠ 0
  · rw [if_pos hk, if_pos hk]
    refine ⟨h1, rfl, rfl, rfl, by simp only; omega, fun _ => h6 ?_, by omega⟩
    rcases Nat.eq_zero_or_pos n with h0 | h0
    · exact absurd (h7 h0) hk
    · exact h0
  · rw [if_neg hk, if_neg hk]
    have happ : List.Forall₂ r (items' ++ [x']) (items ++ [x]) := List.rel_append h1 (.cons hx .nil)
    have hin : List.Forall₂ r (if 0 < idx' then (items' ++ [x']).eraseIdx idx'.toNat else items' ++ [x'])
        (if 0 < idx' then (items ++ [x]).eraseIdx idx'.toNat else items ++ [x]) := by
      split
      · exact forall₂_eraseIdx happ _
      · exact happ
    have hle : (if 0 < idx' then (items ++ [x]).eraseIdx idx'.toNat else items ++ [x]).length ≤ n + 1 := by
      split
      · refine le_trans (List.length_eraseIdx_le _ _) ?_
        simp only [List.length_append, List.length_singleton]
        omega
      · simp only [List.length_append, List.length_singleton]
        omega
    have hne : (if 0 < idx' then (items ++ [x]).eraseIdx idx'.toNat else items ++ [x]) ≠ [] := by
      split
      · next hpos =>
        obtain ⟨j, hj⟩ : ∃ j, idx'.toNat = j + 1 := ⟨idx'.toNat - 1, by omega⟩
        rw [hj]
        cases items with
        | nil => simp
        | cons y ys => simp
      · simp
    have hlen := hin.length_eq
    generalize (if 0 < idx' then (items' ++ [x']).eraseIdx idx'.toNat else items' ++ [x']) = l' at *
    generalize (if 0 < idx' then (items ++ [x]).eraseIdx idx'.toNat else items ++ [x]) = l at *
    rw [hlen]
    split
    · exact ⟨hin, rfl, rfl, rfl, hle, fun _ => hne, by omega⟩
    · exact ⟨hin, rfl, rfl, rfl, hle, fun _ => hne, by omega⟩

theorem uniStore_sim : StoreSim (LogStoreUniform.store σ') (LogStoreUniform.store σ) uniRel where
  empty r := ⟨.nil, rfl, rfl, rfl, by simp [LogStoreUniform.store, LogStoreUniform.init], by omega, fun _ => rfl⟩
  mono h hs := ⟨hs.1.imp h, hs.2⟩
  add := by
    intro r n s' s x' x hs hx
    exact ⟨_, _, (LogStoreUniform.lawful σ').lazyAdd s' x', (LogStoreUniform.lawful σ).lazyAdd s x, uniAdd_rel hs hx⟩
  items := by
    intro r n s' s hs
    refine ⟨?_, by simpa [LogStoreUniform.store, LogStoreUniform.list] using hs.2.2.2.2.1,
      fun hn => by simpa [LogStoreUniform.store, LogStoreUniform.list] using hs.2.2.2.2.2.1 hn⟩
    exact List.rel_reverse hs.1

/-! ### `FMN` -/

/-- Copies of related models are related. -/
def CopySim (P' : Predictor σ' α) (P : Predictor σ α) (Sim : Rel σ' σ) : Prop :=
  ∀ k x' x, Sim.sim k x' x → ∃ c' c, P'.copy x' = .ok c' ∧ P.copy x = .ok c ∧ Sim.sim k c' c

theorem copies_sim (hC : CopySim P' P Sim) {t : ℕ} {ms' : List σ'} {ms : List σ}
    (h : List.Forall₂ (fun x' x => ∃ k ≤ K, k ≤ t ∧ Sim.sim k x' x) ms' ms) :
    ∃ ys' ys, FMN.copies P' ms' = .ok ys' ∧ FMN.copies P ms = .ok ys ∧
      List.Forall₂ (fun x' x => ∃ k ≤ K, k ≤ t ∧ Sim.sim k x' x) ys' ys ∧ ys.length = ms.length := by
  induction h with
  | nil => exact ⟨[], [], rfl, rfl, .nil, rfl⟩
  | cons hx _ ih =>
    obtain ⟨ys', ys, h1, h2, h3, h4⟩ := ih
    obtain ⟨k, hk, hkt, hs⟩ := hx
    obtain ⟨c', c, g1, g2, g3⟩ := hC _ _ _ hs
    refine ⟨c' :: ys', c :: ys, ?_, ?_, .cons ⟨k, hk, hkt, g3⟩ h3, by simp [h4]⟩
    · simp only [FMN.copies, g1, ok_bind, h1, pure_eq_ok]
    · simp only [FMN.copies, g2, ok_bind, h2, pure_eq_ok]

/-- The constants of an `FMN`. -/
noncomputable def fmnBase (ε β G γ : ℝ) (T : ℕ) : ℝ := avErr ε β G γ T (T + 1) + 2 * (ε * G)

noncomputable def fmnErr (ε β G γ : ℝ) (T H : ℕ) : ℝ := ptwErr ε (fmnBase ε β G γ T) G H

/-- A rounded and an exact `FMN` after the same `t` updates. -/
def FmnSim (Rl : (σ' → σ → Prop) → ℕ → S' → S → Prop) (Sim : Rel σ' σ) (ε β ρ G L : ℝ) (T h0 H t : ℕ) (s' : FMN S' σ') (s : FMN S σ) : Prop :=
  s'.t = t ∧ s.t = t ∧ (∃ n, 1 ≤ n ∧ n ≤ t + 1 ∧ Rl (fun x' x => ∃ k ≤ T, k ≤ t ∧ Sim.sim k x' x) n s'.store s.store) ∧
    RootSim (avRel Sim ε β ρ G L T (T + 1) t) ε (fmnBase ε β G Sim.γ T) ρ G h0 H t s'.ptw s.ptw ∧
    s.ptw.logProb = s.ptw.tree.data.lp + s.ptw.adj

section Step

variable {St' : Store S' σ'} {St : Store S σ} {Rl : (σ' → σ → Prop) → ℕ → S' → S → Prop}

/-- The factory. -/
theorem factory_sim (hSt : StoreSim St' St Rl) (hC : CopySim P' P Sim) (hR : R.Accurate ε) (hB : BaseSim P' P A T β ρ Sim) (hγ : 0 ≤ Sim.γ)
    (hL : Real.log (T + 1 : ℕ) ≤ L) {t n : ℕ} (ht : t ≤ T) {u' : S'} {u : S} (hn : 1 ≤ n) (hnt : n ≤ t + 1)
    (hu : Rl (fun x' x => ∃ k ≤ T, k ≤ t ∧ Sim.sim k x' x) n u' u) :
    ∃ v' v, R.fmnFactory P' (St'.items u') = .ok v' ∧ FMN.modelFactory P (St.items u) = .ok v ∧
      AvSim Sim ε β ρ G L T (T + 1) t 0 v' v ∧ v'.logProb - v.logProb = 0 := by
  obtain ⟨h1, h2, h3⟩ := hSt.items hu
  obtain ⟨ys', ys, g1, g2, g3, hlen⟩ := copies_sim hC h1
  obtain ⟨v', v, k1, k2, k3, k4⟩ := avInit_sim (G := G) (L := L) hR hB hγ g3
    (by intro h; rw [h] at hlen; exact h3 hn (List.length_eq_zero_iff.1 hlen.symm)) (N := T + 1) (by rw [hlen]; omega) hL
  exact ⟨v', v, by rw [fmnFactory, g1, ok_bind, k1], by rw [FMN.modelFactory, g2, ok_bind, k2], k3, k4⟩

/-- The model that is stored. -/
theorem best_sim (hC : CopySim P' P Sim) (hR : R.Accurate ε) (hB : BaseSim P' P A T β ρ Sim) (hβ : 0 ≤ β) (hρ : 0 ≤ ρ) (hγ : 0 ≤ Sim.γ) (hεG : 0 ≤ ε * G)
    (hG : T * (ρ + 1 + (fmnErr ε β G Sim.γ T H + 3 * (ε * G))) + 2 ≤ G) {t : ℕ} (ht : t ≤ T) (ht1 : 1 ≤ t) {p' : PTW (Averager σ')} {p : PTW (Averager σ)}
    (hs : RootSim (avRel Sim ε β ρ G L T (T + 1) t) ε (fmnBase ε β G Sim.γ T) ρ G h0 H t p' p) :
    ∃ b c' c, R.fmnBest P' p' = .ok c' ∧ FMN.NearBest (2 * T * (fmnErr ε β G Sim.γ T H + 4 * (ε * G))) p b ∧ P.copy b = .ok c ∧
      ∃ k ≤ t, Sim.sim k c' c := by
  have e0 := hR.nonneg
  obtain ⟨⟨h, hh, ht', -, -⟩, -, -⟩ := hs
  have hbase0 : 0 ≤ fmnBase ε β G Sim.γ T := by
    simp only [fmnBase, avErr]
    positivity
  have hm := mapNodes_near hR hbase0 hρ hεG hG ht' 0 0 0 hh (by omega) (by simp) (by simp)
  have hT1 : (1 : ℝ) ≤ T := by exact_mod_cast (by omega : 1 ≤ T)
  have hTε : ε * G ≤ T * (ε * G) := le_mul_of_one_le_left hεG hT1
  have hErr : fmnBase ε β G Sim.γ T + ε * G ≤ fmnErr ε β G Sim.γ T H := base_le_ptwErr hεG H
  have hmono : ∀ {τ : Type} {δ δ' : ℝ} {l : List (τ × ℝ)} {x : τ}, δ ≤ δ' → FMN.NearMax δ l x → FMN.NearMax δ' l x := by
    rintro τ δ δ' l x hδ ⟨k, h1, h2⟩
    exact ⟨k, h1, fun y hy => by linarith [h2 y hy]⟩
  cases hl' : R.ptwMapNodes 0 p'.tree with
  | nil => cases hp : p'.tree <;> rw [hp] at hl' <;> simp [ptwMapNodes] at hl'
  | cons x' xs' =>
    rw [hl'] at hm
    obtain ⟨a, ha, k, hk⟩ := maxByKey_near (Q := fun x' x => ∃ k, AvSim Sim ε β ρ G L T (T + 1) t k x' x) hm
    set a' := (Averager.maxByKey x' xs').1 with ha'
    have hcomp := hk.comp
    cases hms : a'.models with
    | nil =>
      rw [hms] at hcomp
      have := hcomp.length_eq
      exact absurd (List.length_eq_zero_iff.1 this.symm) hk.ne
    | cons y' ys' =>
      rw [hms] at hcomp
      have hkt : k ≤ t := by
        obtain ⟨y, ys, ⟨j, -, hj, -⟩, -⟩ := List.forall₂_cons_left_iff.1 hcomp
        omega
      have hkT : (k : ℝ) ≤ T := by exact_mod_cast (by omega : k ≤ T)
      have hweights : List.Forall₂ (fun q' q => (∃ j ≤ t, Sim.sim j q'.1 q.1) ∧ |q'.2 - q.2| ≤ T * fmnErr ε β G Sim.γ T H) (y' :: ys') a.models := by
        refine hcomp.imp ?_
        intro q' q hq
        refine ⟨?_, le_trans (hq.err hB hγ) ?_⟩
        · obtain ⟨j, -, hj, hsim, -⟩ := hq
          exact ⟨j + k, hj, hsim⟩
        · have m1 := mul_le_mul_of_nonneg_right hkT (by linarith : 0 ≤ β + ε * G)
          have m2 := mul_le_mul_of_nonneg_left hErr (by linarith : (0 : ℝ) ≤ T)
          have m3 : 0 ≤ 2 * T * Sim.γ + 24 * (T + 1 : ℕ) * ε := by positivity
          have m4 := mul_le_mul_of_nonneg_right hT1 m3
          have m5 : 0 ≤ ((T + 1 : ℕ) : ℝ) * ε := by positivity
          simp only [fmnBase, avErr] at m2
          linarith
      obtain ⟨b, hb, j, hj, hsim⟩ := maxByKey_near (Q := fun x' x => ∃ j ≤ t, Sim.sim j x' x) hweights
      obtain ⟨c', c, g1, g2, g3⟩ := hC _ _ _ hsim
      have hE0 : 0 ≤ T * (ε * G) := by positivity
      refine ⟨b, c', c, ?_, ⟨a, hmono ?_ ha, hmono ?_ hb⟩, g2, j, hj, g3⟩
      · rw [fmnBest, ptwMap, hl']
        simp only [ok_bind, ← ha', Averager.map, hms]
        exact g1
      · simp only [fmnErr] at hTε ⊢
        linarith
      · linarith

/-- One update of `FMN`. -/
theorem FmnSim.step (hSt : StoreSim St' St Rl) (hC : CopySim P' P Sim) (hR : R.Accurate ε) (hB : BaseSim P' P A T β ρ Sim) (hβ : 0 ≤ β) (hρ : 0 ≤ ρ)
    (hγ : 0 ≤ Sim.γ) (hεG : 0 ≤ ε * G) (hL : Real.log (T + 1 : ℕ) ≤ L) (hN : 64 * (T + 1 : ℕ) * ε ≤ 1)
    (hG1 : L + T * (ρ + avErr ε β G Sim.γ T (T + 1)) ≤ G) (hG2 : T * (8 * (ρ + fmnErr ε β G Sim.γ T H + 5 * (ε * G))) + 2 ≤ G)
    (hG3 : T * (ρ + 1 + (fmnErr ε β G Sim.γ T H + 3 * (ε * G))) + 2 ≤ G) (hTH : T ≤ 2 ^ H) {t : ℕ} (ht : t < T)
    {s' : FMN S' σ'} {s : FMN S σ} (hs : FmnSim Rl Sim ε β ρ G L T h0 H t s' s) {o : Obs α} (ho : A o) :
    ∃ r' q' r q, R.fmnUpdate St' P' h0 s' o.sym o.hist o.weight = .ok (r', q') ∧
      FMN.NearStep St P h0 (2 * T * (fmnErr ε β G Sim.γ T H + 4 * (ε * G))) s o r q ∧ FmnSim Rl Sim ε β ρ G L T h0 H (t + 1) q' q ∧
      r = q.ptw.logProb - s.ptw.logProb ∧ |r' - (q'.ptw.logProb - s'.ptw.logProb)| ≤ 2 * (ε * G) ∧ |r| ≤ ρ := by
  have e0 := hR.nonneg
  obtain ⟨t1, t2, ⟨n, hn, hnt, hu⟩, hroot, hlp⟩ := hs
  have hL0 : 0 ≤ L := le_trans (Real.log_nonneg (by push_cast; linarith [(Nat.cast_nonneg T : (0 : ℝ) ≤ T)])) hL
  have hbase0 : 0 ≤ fmnBase ε β G Sim.γ T := by
    simp only [fmnBase, avErr]
    positivity
  obtain ⟨v', v, f1, f2, f3, f4⟩ := factory_sim (G := G) (L := L) hSt hC hR hB hγ hL ht.le hn hnt hu
  have hstep := stepSim_av (N := T + 1) (K := T) hR hB hβ hρ hγ hεG hL0 hG1 hN ht
  obtain ⟨r', p', r, p, k1, k2, k3, k4, k5, -, k7, k8⟩ := RootSim.stepNext (h0 := h0) hR hstep hbase0 hρ hεG hG2 (f' := v') (f := v) f3 f4 hTH t
    s'.ptw s.ptw o ht hroot ho
  replace k1 : R.ptwUpdate (R.avPredictor P') (R.fmnFactory P' (St'.items s'.store)) h0 s'.ptw o.sym o.hist o.weight = .ok (r', p') := by
    rw [f1]; exact k1
  replace k2 : s.ptw.update (Averager.predictor P) (FMN.modelFactory P (St.items s.store)) h0 o.sym o.hist o.weight = .ok (r, p) := by
    rw [f2]; exact k2
  replace k3 : RootSim (avRel Sim ε β ρ G L T (T + 1) (t + 1)) ε (fmnBase ε β G Sim.γ T) ρ G h0 H (t + 1) p' p := k3
  have hmono : Rl (fun x' x => ∃ k ≤ T, k ≤ t + 1 ∧ Sim.sim k x' x) n s'.store s.store := by
    refine hSt.mono ?_ hu
    rintro x' x ⟨k, h1, h2, h3⟩
    exact ⟨k, h1, by omega, h3⟩
  by_cases hper : (t + 1) % 2 ^ h0 = 0
  · obtain ⟨b, c', c, b1, b2, b3, k, hk, b4⟩ := best_sim hC hR hB hβ hρ hγ hεG hG3 ht (by omega) k3
    obtain ⟨u', u, a1, a2, a3⟩ := hSt.add (x' := c') (x := c) hmono ⟨k, by omega, hk, b4⟩
    refine ⟨r', ⟨p', u', t + 1⟩, r, ⟨p, u, t + 1⟩, ?_, ⟨p, k2, ?_⟩, ⟨rfl, rfl, ⟨n + 1, by omega, by omega, a3⟩, k3, k7⟩, k4, k5, k8 hlp⟩
    · simp only [fmnUpdate, k1, ok_bind, t1, if_pos hper, b1, a1, pure_eq_ok]
    · rw [t2, if_pos hper]
      exact ⟨b, c, u, b2, b3, a2, rfl⟩
  · refine ⟨r', ⟨p', s'.store, t + 1⟩, r, ⟨p, s.store, t + 1⟩, ?_, ⟨p, k2, ?_⟩, ⟨rfl, rfl, ⟨n, hn, by omega, hmono⟩, k3, k7⟩, k4, k5, k8 hlp⟩
    · simp only [fmnUpdate, k1, ok_bind, t1, if_neg hper, pure_eq_ok]
    · rw [t2, if_neg hper]

/-- The new `FMN`. -/
theorem FmnSim.init (hSt : StoreSim St' St Rl) (hC : CopySim P' P Sim) (hR : R.Accurate ε) (hB : BaseSim P' P A T β ρ Sim) (hγ : 0 ≤ Sim.γ)
    (hL : Real.log (T + 1 : ℕ) ≤ L) (hH : h0 ≤ H) {f' : σ'} {f : σ} (hf : Sim.sim 0 f' f) :
    ∃ s' s, R.fmnInit St' P' f' h0 = .ok s' ∧ FMN.init St P f h0 = .ok s ∧ FmnSim Rl Sim ε β ρ G L T h0 H 0 s' s ∧
      s'.ptw.logProb = 0 ∧ s.ptw.logProb = 0 := by
  obtain ⟨u', u, a1, a2, a3⟩ := hSt.add (hSt.empty (fun x' x => ∃ k ≤ T, k ≤ 0 ∧ Sim.sim k x' x)) (x' := f') (x := f) ⟨0, by omega, le_rfl, hf⟩
  obtain ⟨v', v, f1, f2, f3, f4⟩ := factory_sim (G := G) (L := L) hSt hC hR hB hγ hL (Nat.zero_le T) le_rfl le_rfl a3
  refine ⟨⟨PTW.init v' h0, u', 0⟩, ⟨PTW.init v h0, u, 0⟩, ?_, ?_, ⟨rfl, rfl, ⟨1, le_rfl, le_rfl, a3⟩, ?_, ?_⟩, rfl, rfl⟩
  · simp only [fmnInit, a1, ok_bind, f1, pure_eq_ok]
  · simp only [FMN.init, a2, ok_bind, f2, pure_eq_ok]
  · refine ⟨⟨h0, hH, .leaf (DataSim.new (Sim := avRel Sim ε β ρ G L T (T + 1) 0) f3 f4 h0) (Nat.zero_le _) rfl, ?_, ?_⟩, ?_, ?_⟩
    all_goals simp [PTW.init]
  · simp [PTW.init, PTWNode.data, PTWData.new]

end Step

end Arith

end Verif
