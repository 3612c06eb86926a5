import Verif.Props.PTWMap

/-!
# C115: which model `PTW.map` returns, exactly

The candidates are the starts of the segment of the last symbol along the right edge of the tree.  The one that `map` maximises is the
probability of reaching it, with one factor 1/2 for every candidate before it, times the probability of its own segment; the prior
probability of ending there, and that of the levels that have no node, are left out.
-/

namespace Verif

open Predictor PTWNode

/-- The candidates with what is compared: the whole sequence and, if it is longer than a minimum block, the candidates of what follows its
largest possible left half, each with the probability of that half and a factor 1/2. -/
noncomputable def mapWeights {β : Type} (p : ℕ → List β → ℝ) (m t : ℕ) (xs : List β) : List (ℕ × ℝ) :=
  if h : xs.length ≤ 2 ^ m then [(t, p t xs)]
  else
    (t, p t xs) :: (mapWeights p m (t + 2 ^ (m + (levelsFor m xs.length - 1))) (xs.drop (2 ^ (m + (levelsFor m xs.length - 1))))).map
      fun q => (q.1, 1/2 * ptwProb p m (levelsFor m xs.length - 1) t (xs.take (2 ^ (m + (levelsFor m xs.length - 1)))) * q.2)
termination_by xs.length
decreasing_by
  have h1 : 0 < 2 ^ m := by positivity
  have h2 : 0 < 2 ^ (m + (levelsFor m xs.length - 1)) := by positivity
  rw [List.length_drop]
  omega

theorem mapWeights_leaf {β : Type} {p : ℕ → List β → ℝ} {m t : ℕ} {xs : List β} (h : xs.length ≤ 2 ^ m) :
    mapWeights p m t xs = [(t, p t xs)] := by
  rw [mapWeights, dif_pos h]

theorem mapWeights_inner {β : Type} {p : ℕ → List β → ℝ} {m t k : ℕ} {xs : List β} (h1 : 2 ^ (m + k) < xs.length)
    (h2 : xs.length ≤ 2 ^ (m + (k + 1))) : mapWeights p m t xs = (t, p t xs) ::
      (mapWeights p m (t + 2 ^ (m + k)) (xs.drop (2 ^ (m + k)))).map fun q => (q.1, 1/2 * ptwProb p m k t (xs.take (2 ^ (m + k))) * q.2) := by
  have hl := levelsFor_succ h1 h2
  have hn : ¬ xs.length ≤ 2 ^ m := by
    have : 2 ^ m ≤ 2 ^ (m + k) := Nat.pow_le_pow_right (by norm_num) (by omega)
    omega
  rw [mapWeights, dif_neg hn]
  simp only [hl, Nat.add_sub_cancel]

/-- A candidate and its entry. -/
def MapEntry {σ α : Type} (P : Predictor σ α) (fr : ℕ → σ) (t : ℕ) (left : ℝ) (xs : List (Obs α)) (c : σ × ℝ) (q : ℕ × ℝ) : Prop :=
  t ≤ q.1 ∧ q.1 < t + xs.length ∧ (∃ r, P.run (fr q.1) (xs.drop (q.1 - t)) = .ok (r, c.1)) ∧ Real.exp c.2 = Real.exp left * q.2

theorem mapNodes_entries {σ α : Type} {P : Predictor σ α} {fr : ℕ → σ} {m t : ℕ} {n : PTWNode σ} {xs : List (Obs α)}
    (hr : Rep P fr m t n xs) (hx : xs ≠ []) (left : ℝ) :
    List.Forall₂ (MapEntry P fr t left xs) (mapNodes left n) (mapWeights (blockProb P fr) m t xs) := by
  have hself : ∀ {t : ℕ} {d : PTWData σ} {xs : List (Obs α)} {left : ℝ}, Core P (fr t) d xs → xs ≠ [] →
      MapEntry P fr t left xs (d.base, d.baseLP + left) (t, blockProb P fr t xs) := by
    intro t d xs left hcore hx
    refine ⟨le_rfl, Nat.lt_add_of_pos_right (List.length_pos_iff.mpr hx), ⟨d.baseLP, by simpa using hcore.run⟩, ?_⟩
    have hb : Real.exp d.baseLP = blockProb P fr t xs := hcore.exp_base
    rw [Real.exp_add, hb, mul_comm]
  induction hr generalizing left with
  | leaf h1 h2 h3 h4 =>
    rw [mapWeights_leaf h3]
    simp only [mapNodes, List.forall₂_cons, List.Forall₂.nil, and_true]
    exact hself h1 hx
  | @inner t l d r xs h1 h2 h3 h4 h5 h6 h7 ih =>
    rw [mapWeights_inner h3 h4]
    simp only [mapNodes, List.forall₂_cons, List.forall₂_map_right_iff]
    refine ⟨hself h1 hx, ?_⟩
    refine (ih (by simpa using h3) (left + (d.leftLP + log05))).imp ?_
    rintro c q ⟨g1, g2, ⟨y, g3⟩, g4⟩
    rw [List.length_drop] at g2
    have hpos : 0 < 2 ^ (m + l) := by positivity
    refine ⟨by omega, by omega, ⟨y, ?_⟩, ?_⟩
    · rw [List.drop_drop] at g3
      rw [← g3]
      congr 2
      omega
    · rw [g4, Real.exp_add, Real.exp_add, exp_log05, h5]
      ring

/-- The element with the largest key, the first of them, is the entry with the largest weight, the first of them. -/
theorem maxByKey_entries {σ α : Type} {P : Predictor σ α} {fr : ℕ → σ} {t : ℕ} {left : ℝ} {xs : List (Obs α)} {c : σ × ℝ}
    {cs : List (σ × ℝ)} {W : List (ℕ × ℝ)} (h : List.Forall₂ (MapEntry P fr t left xs) (c :: cs) W) :
    ∃ i, ∃ hi : i < W.length, MapEntry P fr t left xs (Averager.maxByKey c cs) W[i] ∧ (∀ q ∈ W, q.2 ≤ W[i].2) ∧
      ∀ j (hj : j < i), W[j].2 < W[i].2 := by
  obtain ⟨i, hil, h1, h2, h3⟩ := Averager.maxByKey_spec c cs
  have hlen := h.length_eq
  have hg : ∀ j (hj : j < (c :: cs).length), MapEntry P fr t left xs (c :: cs)[j] (W[j]'(hlen ▸ hj)) :=
    fun j hj => List.Forall₂.get h hj (hlen ▸ hj)
  have he := Real.exp_pos left
  refine ⟨i, hlen ▸ hil, ?_, ?_, ?_⟩
  · rw [h1]
    exact hg i hil
  · intro q hq
    obtain ⟨j, hj, rfl⟩ := List.getElem_of_mem hq
    have hj' : j < (c :: cs).length := hlen ▸ hj
    have a1 := Real.exp_le_exp.mpr (h2 _ (List.getElem_mem hj'))
    rw [(hg j hj').2.2.2, (hg i hil).2.2.2] at a1
    exact le_of_mul_le_mul_left a1 he
  · intro j hj
    have hj' : j < (c :: cs).length := by omega
    have a1 := Real.exp_lt_exp.mpr (h3 j hj)
    rw [(hg j hj').2.2.2, (hg i hil).2.2.2] at a1
    exact lt_of_mul_lt_mul_left a1 he.le

section

variable {σ α : Type} (P : Predictor σ α) (fresh : σ)

/-- **C115 (what is returned).** After any successful run, `map` returns the base model of the candidate with the largest weight of
`mapWeights`, of the first one if there are several. -/
theorem C115_exact (m : ℕ) (xs : List (Obs α)) (hx : xs ≠ []) (r : ℝ) (s : PTW σ)
    (hr : (PTW.predictor P fresh m).run (PTW.init fresh m) xs = .ok (r, s)) :
    ∃ i, ∃ hi : i < (mapWeights (fun _ => P.seqProb fresh) m 0 xs).length, ∃ b q, s.map = .ok b ∧
      P.run fresh (xs.drop ((mapWeights (fun _ => P.seqProb fresh) m 0 xs)[i]).1) = .ok (q, b) ∧
      (∀ w ∈ mapWeights (fun _ => P.seqProb fresh) m 0 xs, w.2 ≤ ((mapWeights (fun _ => P.seqProb fresh) m 0 xs)[i]).2) ∧
      ∀ j (hj : j < i), ((mapWeights (fun _ => P.seqProb fresh) m 0 xs)[j]).2 < ((mapWeights (fun _ => P.seqProb fresh) m 0 xs)[i]).2 := by
  have hi := PTW.run_inv (m := m) (PTW.inv_init (P := P) (fr := fun _ => fresh)) hr
  rw [List.nil_append] at hi
  obtain ⟨c, cs, hcs⟩ : ∃ c cs, s.tree.mapNodes 0 = c :: cs := by
    cases s.tree <;> simp [mapNodes]
  have he := mapNodes_entries hi.rep hx 0
  rw [hcs] at he
  obtain ⟨i, hil, ⟨-, -, ⟨q, h1⟩, -⟩, h2, h3⟩ := maxByKey_entries he
  exact ⟨i, hil, _, q, by rw [PTW.map, hcs], h1, h2, h3⟩

end

/-- In a complete block, the weight that is compared is the posterior weight of the start or, for all but the last minimum block, twice
that. -/
theorem mapWeights_complete {β : Type} {p : ℕ → List β → ℝ} (hp : ∀ t, p t [] = 1) (h0 : ∀ t xs, 0 ≤ p t xs) {m k t : ℕ} {xs : List β}
    (hx : xs.length = 2 ^ (m + k)) :
    (∀ q ∈ mapWeights p m t xs, t ≤ q.1 ∧ startWeight p m k t xs q.1 ≤ q.2 ∧ q.2 ≤ 2 * startWeight p m k t xs q.1) ∧
      ∀ s, startWeight p m k t xs s ≠ 0 → ∃ q ∈ mapWeights p m t xs, q.1 = s := by
  have hne : ∀ {k : ℕ} {xs : List β}, xs.length = 2 ^ (m + k) → xs ≠ [] := by
    rintro k xs h rfl
    have : 0 < 2 ^ (m + k) := by positivity
    rw [List.length_nil] at h
    omega
  induction k generalizing t xs with
  | zero =>
    rw [mapWeights_leaf (by rw [hx]; simp)]
    constructor
    · intro q hq
      rw [List.mem_singleton] at hq
      subst hq
      rw [startWeight_zero t (hne hx), if_pos rfl]
      have := h0 t xs
      exact ⟨le_rfl, le_rfl, by linarith⟩
    · intro s hs
      rw [startWeight_zero t (hne hx)] at hs
      refine ⟨_, List.mem_singleton.2 rfl, ?_⟩
      by_contra hn
      exact hs (if_neg (fun h => hn h.symm))
  | succ k ih =>
    have hk : 2 ^ (m + (k + 1)) = 2 ^ (m + k) + 2 ^ (m + k) := by rw [← add_assoc, pow_succ]; ring
    have hpos : 0 < 2 ^ (m + k) := by positivity
    have hdrop : (xs.drop (2 ^ (m + k))).length = 2 ^ (m + k) := by rw [List.length_drop, hx]; omega
    have hlt : 2 ^ (m + k) < xs.length := by omega
    rw [mapWeights_inner hlt hx.le]
    obtain ⟨i1, i2⟩ := ih (t := t + 2 ^ (m + k)) hdrop
    have hV : 0 ≤ ptwProb p m k t (xs.take (2 ^ (m + k))) := ptwProb_nonneg h0 _ _ _
    constructor
    · intro q hq
      rw [List.mem_cons, List.mem_map] at hq
      rcases hq with rfl | ⟨q, hq, rfl⟩
      · rw [startWeight_right k t t hlt, startWeight_lt hp k (hne hdrop) (by omega), if_pos rfl]
        have := h0 t xs
        exact ⟨le_rfl, by linarith, by linarith⟩
      · obtain ⟨a1, a2, a3⟩ := i1 q hq
        rw [startWeight_right k t q.1 hlt, if_neg (by omega)]
        refine ⟨by simp only; omega, ?_, ?_⟩
        · simp only
          nlinarith [mul_le_mul_of_nonneg_left a2 hV]
        · simp only
          nlinarith [mul_le_mul_of_nonneg_left a3 hV]
    · intro s hs
      by_cases hst : s = t
      · exact ⟨_, List.mem_cons_self, hst.symm⟩
      · rw [startWeight_right k t s hlt, if_neg hst] at hs
        have hs' : startWeight p m k (t + 2 ^ (m + k)) (xs.drop (2 ^ (m + k))) s ≠ 0 := by
          intro h
          rw [h] at hs
          simp at hs
        obtain ⟨q, hq, rfl⟩ := i2 s hs'
        exact ⟨_, List.mem_cons_of_mem _ (List.mem_map_of_mem hq), rfl⟩

section

variable {σ α : Type} (P : Predictor σ α) (fresh : σ)

/-- **C115 (complete blocks, partial).** Whenever the tree is full, the model that `map` returns is that of a start whose posterior weight is
at least half of the largest one, however many levels there are. -/
theorem C115_complete_partial (m k : ℕ) (xs : List (Obs α)) (hx : xs.length = 2 ^ (m + k)) (r : ℝ) (s : PTW σ)
    (hr : (PTW.predictor P fresh m).run (PTW.init fresh m) xs = .ok (r, s)) :
    ∃ b, s.map = .ok b ∧ ∃ st q, st < xs.length ∧ P.run fresh (xs.drop st) = .ok (q, b) ∧
      ∀ st', startWeight (fun _ => P.seqProb fresh) m k 0 xs st' ≤ 2 * startWeight (fun _ => P.seqProb fresh) m k 0 xs st := by
  have hne : xs ≠ [] := by
    rintro rfl
    have : 0 < 2 ^ (m + k) := by positivity
    rw [List.length_nil] at hx
    omega
  have hi := PTW.run_inv (m := m) (PTW.inv_init (P := P) (fr := fun _ => fresh)) hr
  rw [List.nil_append] at hi
  obtain ⟨c, cs, hcs⟩ : ∃ c cs, s.tree.mapNodes 0 = c :: cs := by
    cases s.tree <;> simp [mapNodes]
  have he := mapNodes_entries hi.rep hne 0
  rw [hcs] at he
  obtain ⟨i, hil, ⟨-, g2, ⟨q, h1⟩, -⟩, h2, -⟩ := maxByKey_entries he
  obtain ⟨m1, m2⟩ := mapWeights_complete (p := blockProb P fun _ => fresh) (blockProb_nil P fun _ => fresh)
    (fun t xs => P.seqProb_nonneg _ xs) (t := 0) hx
  refine ⟨_, by rw [PTW.map, hcs], _, q, by simpa using g2, h1, fun st' => ?_⟩
  obtain ⟨-, -, b3⟩ := m1 _ (List.getElem_mem hil)
  by_cases hz : startWeight (blockProb P fun _ => fresh) m k 0 xs st' = 0
  · change startWeight (blockProb P fun _ => fresh) m k 0 xs st' ≤ _
    rw [hz]
    exact le_trans (by have h5 := (m1 _ (List.getElem_mem hil)).2; linarith [h5.1, h5.2]) b3
  · obtain ⟨w, hw, rfl⟩ := m2 st' hz
    exact (m1 w hw).2.1.trans ((h2 w hw).trans b3)

end

/-- The candidates for three items in blocks of one: all three, and the last one. -/
example (p : ℕ → List ℕ → ℝ) (x y z : ℕ) : mapWeights p 0 0 [x, y, z] =
    [(0, p 0 [x, y, z]), (2, 1/2 * ptwProb p 0 1 0 [x, y] * p 2 [z])] := by
  rw [mapWeights_inner (k := 1) (by simp) (by simp), mapWeights_leaf (by simp)]
  simp

/-- The hypotheses of `C115_complete_partial` can be met. -/
example : ∃ r s, (PTW.predictor KTBinary.predictor (KTBinary.init none) 0).run (PTW.init (KTBinary.init none) 0)
    [⟨false, [], 1⟩, ⟨true, [], 1⟩] = .ok (r, s) := by
  obtain ⟨r, s, hr, _⟩ := C26_PTW_normalised KTBinary.predictor (KTBinary.init none) _ _ _ KTBinary.lawful.updateLawful
    (by norm_num [KTBinary.init]) 0 [⟨false, [], 1⟩, ⟨true, [], 1⟩] (by simp) [] 1 (by norm_num)
  exact ⟨r, s, hr⟩

end Verif
