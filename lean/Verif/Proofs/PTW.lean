import Verif.Model.PTW
import Verif.Spec.PTW
import Verif.Proofs.CTW

/-! `PTW` trees represent the partition-tree mixture. -/

namespace Verif

open Predictor

section Spec

variable {β : Type} {p : ℕ → List β → ℝ} {m : ℕ}

theorem ptwProb_nil (hp : ∀ t, p t [] = 1) (k t : ℕ) : ptwProb p m k t [] = 1 := by
  induction k generalizing t with
  | zero => exact hp t
  | succ k ih => simp [ptwProb, hp, ih]; norm_num

theorem ptwProb_succ_of_le (hp : ∀ t, p t [] = 1) {k t : ℕ} {xs : List β} (h : xs.length ≤ 2 ^ (m + k)) :
    ptwProb p m (k + 1) t xs = 1/2 * p t xs + 1/2 * ptwProb p m k t xs := by
  simp only [ptwProb]
  rw [List.take_of_length_le h, List.drop_of_length_le h, ptwProb_nil hp, mul_one]

theorem ptwProb_nonneg (hp : ∀ t xs, 0 ≤ p t xs) (k t : ℕ) (xs : List β) : 0 ≤ ptwProb p m k t xs := by
  induction k generalizing t xs with
  | zero => exact hp t xs
  | succ k ih =>
    simp only [ptwProb]
    have := hp t xs
    have := mul_nonneg (ih t (xs.take (2 ^ (m + k)))) (ih (t + 2 ^ (m + k)) (xs.drop (2 ^ (m + k))))
    linarith

/-- The height correction adds the levels that are not represented. -/
theorem exp_correct (hp : ∀ t, p t [] = 1) {k t : ℕ} {xs : List β} (h : xs.length ≤ 2 ^ (m + k)) {b x : ℝ}
    (hb : Real.exp b = p t xs) (hx : Real.exp x = ptwProb p m k t xs) (j : ℕ) :
    Real.exp (PTWData.correct b j x) = ptwProb p m (k + j) t xs := by
  induction j generalizing k x with
  | zero => exact hx
  | succ j ih =>
    have h' : xs.length ≤ 2 ^ (m + (k + 1)) :=
      h.trans (Nat.pow_le_pow_right (by norm_num) (by omega))
    have := ih h' (x := log05 + logsumexp2 b x) (by
      rw [exp_half_lse2, hb, hx, ptwProb_succ_of_le hp h])
    rw [PTWData.correct, this]
    congr 1
    omega

theorem levelsFor_spec (m n : ℕ) : n ≤ 2 ^ (m + levelsFor m n) :=
  Nat.find_spec (p := fun k => n ≤ 2 ^ (m + k)) _

theorem levelsFor_min {m n k : ℕ} (h : n ≤ 2 ^ (m + k)) : levelsFor m n ≤ k :=
  Nat.find_min' (p := fun k => n ≤ 2 ^ (m + k)) _ h

theorem levelsFor_zero {m n : ℕ} (h : n ≤ 2 ^ m) : levelsFor m n = 0 :=
  Nat.le_zero.mp (levelsFor_min (k := 0) h)

theorem levelsFor_succ {m n k : ℕ} (h1 : 2 ^ (m + k) < n) (h2 : n ≤ 2 ^ (m + (k + 1))) : levelsFor m n = k + 1 := by
  apply le_antisymm (levelsFor_min h2)
  by_contra hlt
  have h3 := levelsFor_spec m n
  have h4 : 2 ^ (m + levelsFor m n) ≤ 2 ^ (m + k) := Nat.pow_le_pow_right (by norm_num) (by omega)
  omega

end Spec

namespace PTWData

variable {σ : Type}

@[simp] theorem new_base (f : σ) (h0 : ℕ) : (new f h0).base = f := rfl

theorem complete_iff (d : PTWData σ) : d.complete = true ↔ 2 ^ d.height ≤ d.count := by
  simp only [complete, decide_eq_true_eq, Nat.shiftRight_eq_div_pow]
  rw [Nat.div_pos_iff]
  constructor
  · exact fun h => h.2
  · exact fun h => ⟨by positivity, h⟩

theorem not_complete_iff (d : PTWData σ) : ¬ (d.complete = true) ↔ d.count < 2 ^ d.height := by
  rw [complete_iff, not_le]

end PTWData

namespace PTWNode

variable {σ α : Type} {P : Predictor σ α}

open PTWData

@[simp] theorem data_leaf (d : PTWData σ) : (leaf d).data = d := rfl
@[simp] theorem data_inner (d : PTWData σ) (r : PTWNode σ) : (inner d r).data = d := rfl

/-- The first update of a new node takes the leaf branch. -/
theorem update_new (P : Predictor σ α) (fresh : Py σ) (f : σ) (h0 : ℕ) (a : α) (h : List α) (w : ℝ) :
    update P fresh h0 a h w (leaf (new f h0)) = leafUpdate P (new f h0) a h w := by
  have : ¬ ((new f h0).complete = true) := by
    rw [not_complete_iff]
    simp [new]
  simp only [update]
  rw [if_neg this]

/-- `d` holds the base model started from `fr t` and run on `xs`. -/
structure Core (P : Predictor σ α) (f : σ) (d : PTWData σ) (xs : List (Obs α)) : Prop where
  run : P.run f xs = .ok (d.baseLP, d.base)
  count : d.count = xs.length

/-- The base probabilities of blocks when the factory returns `fr t` at time `t`. -/
noncomputable def blockProb (P : Predictor σ α) (fr : ℕ → σ) (t : ℕ) (xs : List (Obs α)) : ℝ := P.seqProb (fr t) xs

theorem blockProb_nil (P : Predictor σ α) (fr : ℕ → σ) (t : ℕ) : blockProb P fr t [] = 1 := by
  simp [blockProb, seqProb, Predictor.run, probOf]

/-- The node represents the observations `xs` of a block starting at time `t`. -/
inductive Rep (P : Predictor σ α) (fr : ℕ → σ) (m : ℕ) : ℕ → PTWNode σ → List (Obs α) → Prop
  | leaf {t : ℕ} {d : PTWData σ} {xs : List (Obs α)} : Core P (fr t) d xs → d.height = m → xs.length ≤ 2 ^ m →
      d.lp = d.baseLP → Rep P fr m t (leaf d) xs
  | inner {t k : ℕ} {d : PTWData σ} {r : PTWNode σ} {xs : List (Obs α)} : Core P (fr t) d xs →
      d.height = m + (k + 1) → 2 ^ (m + k) < xs.length → xs.length ≤ 2 ^ (m + (k + 1)) →
      Real.exp d.leftLP = ptwProb (blockProb P fr) m k t (xs.take (2 ^ (m + k))) →
      Real.exp d.lp = ptwProb (blockProb P fr) m (k + 1) t xs →
      Rep P fr m (t + 2 ^ (m + k)) r (xs.drop (2 ^ (m + k))) → Rep P fr m t (inner d r) xs

variable {fr : ℕ → σ} {m : ℕ}

theorem Core.exp_base {f : σ} {d : PTWData σ} {xs : List (Obs α)} (h : Core P f d xs) :
    Real.exp d.baseLP = P.seqProb f xs := by
  rw [seqProb_of_run h.run]

theorem Rep.core {t : ℕ} {n : PTWNode σ} {xs : List (Obs α)} (h : Rep P fr m t n xs) : Core P (fr t) n.data xs := by
  cases h with
  | leaf h => exact h
  | inner h => exact h

theorem Rep.height {t : ℕ} {n : PTWNode σ} {xs : List (Obs α)} (h : Rep P fr m t n xs) :
    n.data.height = m + levelsFor m xs.length := by
  cases h with
  | leaf h1 h2 h3 h4 => rw [levelsFor_zero h3]; exact h2
  | inner h1 h2 h3 h4 h5 h6 h7 => rw [levelsFor_succ h3 h4]; exact h2

theorem Rep.exp_lp {t : ℕ} {n : PTWNode σ} {xs : List (Obs α)} (h : Rep P fr m t n xs) :
    Real.exp n.data.lp = ptwProb (blockProb P fr) m (levelsFor m xs.length) t xs := by
  cases h with
  | leaf h1 h2 h3 h4 =>
    rw [levelsFor_zero h3, data_leaf, h4, h1.exp_base]
    rfl
  | inner h1 h2 h3 h4 h5 h6 h7 => rw [levelsFor_succ h3 h4]; exact h6

theorem Rep.length_le {t : ℕ} {n : PTWNode σ} {xs : List (Obs α)} (h : Rep P fr m t n xs) :
    xs.length ≤ 2 ^ n.data.height := by
  rw [h.height]
  exact levelsFor_spec m xs.length

theorem rep_new (t : ℕ) : Rep P fr m t (.leaf (PTWData.new (fr t) m)) [] :=
  .leaf ⟨rfl, rfl⟩ rfl (by simp) rfl

/-- Correction of the probability of a represented node to `j` levels. -/
theorem Rep.correct {t : ℕ} {n : PTWNode σ} {xs : List (Obs α)} (h : Rep P fr m t n xs) {k : ℕ}
    (hk : levelsFor m xs.length ≤ k) :
    Real.exp (PTWData.correct n.data.baseLP (m + k - n.data.height) n.data.lp) =
      ptwProb (blockProb P fr) m k t xs := by
  rw [exp_correct (p := blockProb P fr) (blockProb_nil P fr) (levelsFor_spec m xs.length) h.core.exp_base h.exp_lp,
    h.height]
  congr 1
  omega

theorem Core.step {f : σ} {d d' : PTWData σ} {xs : List (Obs α)} (h : Core P f d xs) {o : Obs α}
    (hs : d.baseStep P o.sym o.hist o.weight = .ok d') :
    P.run f (xs ++ [o]) = .ok (d'.baseLP, d'.base) ∧ d'.count = d.count ∧ d'.height = d.height ∧
      d'.leftLP = d.leftLP ∧ d'.lp = d.lp := by
  simp only [baseStep, bind_eq_ok, pure_eq_ok, Except.ok.injEq, Prod.exists] at hs
  obtain ⟨r, b, hb, rfl⟩ := hs
  exact ⟨CTWNode.run_snoc_ok h.run hb, rfl, rfl, rfl, rfl⟩

theorem Core.leafUpdate {t : ℕ} {d : PTWData σ} {xs : List (Obs α)} (h : Core P (fr t) d xs) (hh : d.height = m)
    (hl : xs.length < 2 ^ m) {o : Obs α} {n' : PTWNode σ}
    (hs : leafUpdate P d o.sym o.hist o.weight = .ok n') : Rep P fr m t n' (xs ++ [o]) := by
  simp only [PTWNode.leafUpdate, bind_eq_ok, pure_eq_ok, Except.ok.injEq] at hs
  obtain ⟨d1, hd, rfl⟩ := hs
  obtain ⟨h1, h2, h3, h4, h5⟩ := h.step hd
  refine .leaf ⟨h1, ?_⟩ (h3.trans hh) (by simpa using hl) rfl
  simp [h2, h.count]

/-- Rebuilding a node of height `m + (k + 1)` from its updated right child. -/
theorem rep_combine {t k : ℕ} {d : PTWData σ} {r : PTWNode σ} {ys : List (Obs α)}
    (hrun : P.run (fr t) ys = .ok (d.baseLP, d.base)) (hc : d.count + 1 = ys.length)
    (hh : d.height = m + (k + 1)) (h1 : 2 ^ (m + k) < ys.length) (h2 : ys.length ≤ 2 ^ (m + (k + 1)))
    (hl : Real.exp d.leftLP = ptwProb (blockProb P fr) m k t (ys.take (2 ^ (m + k))))
    (hr : Rep P fr m (t + 2 ^ (m + k)) r (ys.drop (2 ^ (m + k)))) : Rep P fr m t (combine d r) ys := by
  refine .inner ⟨hrun, hc⟩ hh h1 h2 hl ?_ hr
  have hlen : (ys.drop (2 ^ (m + k))).length ≤ 2 ^ (m + k) := by
    rw [List.length_drop]
    have : 2 ^ (m + (k + 1)) = 2 ^ (m + k) + 2 ^ (m + k) := by
      rw [show m + (k + 1) = m + k + 1 by omega, pow_succ]; ring
    omega
  have hcor := hr.correct (levelsFor_min hlen)
  have hsub : d.height - r.data.height - 1 = m + k - r.data.height := by omega
  simp only
  rw [exp_half_lse2, hsub, Real.exp_add, hl, hcor]
  simp only [ptwProb]
  rw [show Real.exp d.baseLP = blockProb P fr t ys from (seqProb_of_run hrun).symm]

theorem promoted_rep {t : ℕ} {n : PTWNode σ} {xs : List (Obs α)} (h : Rep P fr m t n xs)
    (hcomp : n.data.complete = true) {o : Obs α} {n' : PTWNode σ}
    (hs : promoted P (.ok (fr (t + xs.length))) m n.data o.sym o.hist o.weight = .ok n') :
    Rep P fr m t n' (xs ++ [o]) := by
  rw [complete_iff, h.core.count] at hcomp
  have hlen : xs.length = 2 ^ n.data.height := le_antisymm h.length_le hcomp
  have hht := h.height
  set k := levelsFor m xs.length with hk
  rw [hht] at hlen
  simp only [promoted, bind_eq_ok, pure_eq_ok, Except.ok.injEq] at hs
  obtain ⟨f, hf, d1, hd, r, hr, rfl⟩ := hs
  subst hf
  have hcore : Core P (fr t) { n.data with leftLP := n.data.lp, height := n.data.height + 1 } xs :=
    ⟨h.core.run, h.core.count⟩
  obtain ⟨g1, g2, g3, g4, g5⟩ := hcore.step hd
  have htake : (xs ++ [o]).take (2 ^ (m + k)) = xs := by
    rw [← hlen]; simp
  have hdrop : (xs ++ [o]).drop (2 ^ (m + k)) = [o] := by
    rw [← hlen]; simp
  have hpow : 2 ^ (m + (k + 1)) = 2 ^ (m + k) + 2 ^ (m + k) := by
    rw [show m + (k + 1) = m + k + 1 by omega, pow_succ]; ring
  have hpos : 0 < 2 ^ (m + k) := by positivity
  refine rep_combine (k := k) g1 (by rw [g2]; simp [h.core.count]) (by rw [g3]; simp [hht, add_assoc]) ?_ ?_ ?_ ?_
  · simp [hlen]
  · rw [List.length_append, hlen, hpow]
    simp only [List.length_cons, List.length_nil]
    omega
  · rw [g4, htake, hk]
    exact h.exp_lp
  · rw [hdrop, ← hlen]
    have hnew : Core P (fr (t + xs.length)) (PTWData.new (fr (t + xs.length)) m) [] := ⟨rfl, rfl⟩
    exact hnew.leafUpdate rfl (by simp) hr

/-- An update extends the represented observations; the factory is called at time `t + xs.length`. -/
theorem Rep.update {t : ℕ} {n : PTWNode σ} {xs : List (Obs α)} (h : Rep P fr m t n xs) {o : Obs α} {n' : PTWNode σ}
    (hs : n.update P (.ok (fr (t + xs.length))) m o.sym o.hist o.weight = .ok n') :
    Rep P fr m t n' (xs ++ [o]) := by
  induction h generalizing n' with
  | @leaf t d xs h1 h2 h3 h4 =>
    simp only [PTWNode.update] at hs
    split_ifs at hs with hc
    · exact promoted_rep (.leaf h1 h2 h3 h4) hc hs
    · rw [complete_iff, h1.count, h2, not_le] at hc
      exact h1.leafUpdate h2 hc hs
  | @inner t k d r xs h1 h2 h3 h4 h5 h6 h7 ih =>
    simp only [PTWNode.update] at hs
    split_ifs at hs with hc
    · exact promoted_rep (.inner h1 h2 h3 h4 h5 h6 h7) hc hs
    · rw [complete_iff, h1.count, h2, not_le] at hc
      simp only [bind_eq_ok, pure_eq_ok, Except.ok.injEq] at hs
      obtain ⟨d1, hd, r', hr, rfl⟩ := hs
      obtain ⟨g1, g2, g3, g4, g5⟩ := h1.step hd
      have htime : t + 2 ^ (m + k) + (xs.drop (2 ^ (m + k))).length = t + xs.length := by
        rw [List.length_drop]; omega
      rw [htime] at ih
      refine rep_combine (k := k) g1 (by rw [g2, h1.count]; simp) (by rw [g3, h2]) ?_ ?_ ?_ ?_
      · rw [List.length_append]; omega
      · rw [List.length_append, List.length_singleton]; omega
      · rw [g4, h5, List.take_append_of_le_length h3.le]
      · rw [List.drop_append_of_le_length h3.le]
        exact ih hr

/-- Every base model of the tree satisfies `I`. -/
def All (I : σ → Prop) : PTWNode σ → Prop
  | .leaf d => I d.base
  | .inner d r => I d.base ∧ All I r

theorem All.data {I : σ → Prop} {n : PTWNode σ} (h : All I n) : I n.data.base := by
  cases n with
  | leaf d => exact h
  | inner d r => exact h.1

/-- `update` accepts the symbols of `A` with weights in `W`. -/
def _root_.Verif.Predictor.Total (P : Predictor σ α) (I : σ → Prop) (A : List α) (W : ℝ → Prop) : Prop :=
  ∀ s a h w, I s → a ∈ A → W w → ∃ r s', P.update s a h w = .ok (r, s') ∧ I s'

theorem baseStep_total {I : σ → Prop} {A : List α} {W : ℝ → Prop} (hP : P.Total I A W) {d : PTWData σ}
    (hd : I d.base) {a : α} (ha : a ∈ A) (h : List α) {w : ℝ} (hw : W w) :
    ∃ d', d.baseStep P a h w = .ok d' ∧ I d'.base := by
  obtain ⟨r, s', h1, h2⟩ := hP d.base a h w hd ha hw
  exact ⟨{ d with base := s', baseLP := d.baseLP + r }, by simp [baseStep, h1], h2⟩

theorem leafUpdate_total {I : σ → Prop} {A : List α} {W : ℝ → Prop} (hP : P.Total I A W) {d : PTWData σ}
    (hd : I d.base) {a : α} (ha : a ∈ A) (h : List α) {w : ℝ} (hw : W w) :
    ∃ n', leafUpdate P d a h w = .ok n' ∧ All I n' := by
  obtain ⟨d', h1, h2⟩ := baseStep_total hP hd ha h hw
  exact ⟨.leaf { d' with lp := d'.baseLP, count := d'.count + 1 }, by simp only [leafUpdate, h1, ok_bind, pure_eq_ok], h2⟩

theorem promoted_total {I : σ → Prop} {A : List α} {W : ℝ → Prop} (hP : P.Total I A W) {f : σ} (hf : I f)
    {d : PTWData σ} (hd : I d.base) {a : α} (ha : a ∈ A) (h : List α) {w : ℝ} (hw : W w) :
    ∃ n', promoted P (.ok f) m d a h w = .ok n' ∧ All I n' := by
  obtain ⟨d', h1, h2⟩ := baseStep_total hP (d := { d with leftLP := d.lp, height := d.height + 1 }) hd ha h hw
  obtain ⟨r, h3, h4⟩ := leafUpdate_total hP (d := PTWData.new f m) hf ha h hw
  exact ⟨combine d' r, by simp only [promoted, h1, h3, ok_bind, pure_eq_ok], h2, h4⟩

/-- Over a base model that does not raise, an update does not raise. -/
theorem All.update {I : σ → Prop} {A : List α} {W : ℝ → Prop} (hP : P.Total I A W) {f : σ} (hf : I f)
    {n : PTWNode σ} (hn : All I n) {a : α} (ha : a ∈ A) (h : List α) {w : ℝ} (hw : W w) :
    ∃ n', n.update P (.ok f) m a h w = .ok n' ∧ All I n' := by
  induction n with
  | leaf d =>
    simp only [PTWNode.update]
    split_ifs
    · exact promoted_total hP hf hn ha h hw
    · exact leafUpdate_total hP hn ha h hw
  | inner d r ih =>
    simp only [PTWNode.update]
    split_ifs
    · exact promoted_total hP hf hn.1 ha h hw
    · obtain ⟨d', h1, h2⟩ := baseStep_total hP hn.1 ha h hw
      obtain ⟨r', h3, h4⟩ := ih hn.2
      exact ⟨combine d' r', by simp only [h1, h3, ok_bind, pure_eq_ok], h2, h4⟩

end PTWNode

end Verif
