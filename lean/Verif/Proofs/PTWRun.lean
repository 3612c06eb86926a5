import Verif.Proofs.PTW
import Verif.Proofs.AveragerLawful

/-! Runs of `PTW` and `PTWFixedLength`; normalisation. -/

namespace Verif

open Predictor

section Spec

variable {β α : Type} {p : ℕ → List β → ℝ} {m : ℕ}

theorem levelsFor_next (m n : ℕ) : levelsFor m (n + 1) =
    if n = 2 ^ (m + levelsFor m n) then levelsFor m n + 1 else levelsFor m n := by
  have h1 := levelsFor_spec m n
  split_ifs with h
  · apply levelsFor_succ
    · omega
    · have hpow : 2 ^ (m + (levelsFor m n + 1)) = 2 ^ (m + levelsFor m n) + 2 ^ (m + levelsFor m n) := by
        rw [show m + (levelsFor m n + 1) = m + levelsFor m n + 1 by omega, pow_succ]; ring
      have hpos : 0 < 2 ^ (m + levelsFor m n) := by positivity
      omega
  · apply le_antisymm
    · apply levelsFor_min
      omega
    · apply levelsFor_min
      have := levelsFor_spec m (n + 1)
      omega

/-- If the base probabilities of the extensions by one item sum up, so do those of the mixture. -/
theorem ptwProb_sum (hnil : ∀ t, p t [] = 1) (G : List β → Prop) (hdrop : ∀ xs n, G xs → G (xs.drop n)) (A : List α) (f : α → β)
    (hsum : ∀ t xs, G xs → (A.map fun a => p t (xs ++ [f a])).sum = p t xs) (k t : ℕ) (xs : List β) (hG : G xs)
    (hlen : xs.length < 2 ^ (m + k)) :
    (A.map fun a => ptwProb p m k t (xs ++ [f a])).sum = ptwProb p m k t xs := by
  induction k generalizing t xs with
  | zero => exact hsum t xs hG
  | succ k ih =>
    simp only [ptwProb]
    have hpow : 2 ^ (m + (k + 1)) = 2 ^ (m + k) + 2 ^ (m + k) := by
      rw [show m + (k + 1) = m + k + 1 by omega, pow_succ]; ring
    rw [List.sum_map_add, List.sum_map_mul_left, hsum t xs hG, List.sum_map_mul_left]
    congr 2
    by_cases hlt : xs.length < 2 ^ (m + k)
    · have h1 : ∀ a, (xs ++ [f a]).take (2 ^ (m + k)) = xs ++ [f a] := fun a => by
        apply List.take_of_length_le
        simp; omega
      have h2 : ∀ a, (xs ++ [f a]).drop (2 ^ (m + k)) = [] := fun a => by
        apply List.drop_of_length_le
        simp; omega
      simp only [h1, h2, ptwProb_nil hnil, mul_one]
      rw [ih t xs hG hlt, List.take_of_length_le hlt.le, List.drop_of_length_le hlt.le, ptwProb_nil hnil, mul_one]
    · rw [not_lt] at hlt
      have h1 : ∀ a, (xs ++ [f a]).take (2 ^ (m + k)) = xs.take (2 ^ (m + k)) := fun a =>
        List.take_append_of_le_length hlt
      have h2 : ∀ a, (xs ++ [f a]).drop (2 ^ (m + k)) = xs.drop (2 ^ (m + k)) ++ [f a] := fun a =>
        List.drop_append_of_le_length hlt
      simp only [h1, h2]
      rw [List.sum_map_mul_left, ih _ _ (hdrop _ _ hG)]
      rw [List.length_drop]; omega

end Spec

variable {σ α : Type} {P : Predictor σ α}

/-- Observations with symbols in `A` and weights satisfying `W`. -/
def GoodObs (A : List α) (W : ℝ → Prop) (xs : List (Obs α)) : Prop := ∀ o ∈ xs, o.sym ∈ A ∧ W o.weight

theorem GoodObs.take {A : List α} {W : ℝ → Prop} (xs : List (Obs α)) (n : ℕ) (h : GoodObs A W xs) :
    GoodObs A W (xs.take n) := fun o ho => h o (List.mem_of_mem_take ho)

theorem GoodObs.drop {A : List α} {W : ℝ → Prop} (xs : List (Obs α)) (n : ℕ) (h : GoodObs A W xs) :
    GoodObs A W (xs.drop n) := fun o ho => h o (List.mem_of_mem_drop ho)

theorem GoodObs.snoc {A : List α} {W : ℝ → Prop} {xs : List (Obs α)} (h : GoodObs A W xs) {o : Obs α}
    (ho : o.sym ∈ A ∧ W o.weight) : GoodObs A W (xs ++ [o]) := by
  intro x hx
  rw [List.mem_append, List.mem_singleton] at hx
  rcases hx with hx | rfl
  · exact h x hx
  · exact ho

theorem seqProb_sum {I : σ → Prop} {A : List α} {W : ℝ → Prop} (hP : P.UpdateLawful I A W) {s : σ} (hs : I s)
    {xs : List (Obs α)} (hx : GoodObs A W xs) (h : List α) {w : ℝ} (hw : W w) :
    (A.map fun a => P.seqProb s (xs ++ [⟨a, h, w⟩])).sum = P.seqProb s xs := by
  obtain ⟨r, s', h1, h2⟩ := hP.run_ok hs hx
  rw [seqProb_of_run h1]
  have : ∀ a ∈ A, P.seqProb s (xs ++ [⟨a, h, w⟩]) = Real.exp r * probOf (P.update s' a h w) := by
    intro a ha
    obtain ⟨q, s'', h3, _⟩ := hP.total s' a h w h2 ha hw
    rw [seqProb_of_run (CTWNode.run_snoc_ok (o := ⟨a, h, w⟩) h1 h3), h3, probOf_ok, Real.exp_add]
  rw [List.map_congr_left this, List.sum_map_mul_left, hP.sum_probOf h2 hw h, mul_one]

theorem seqProb_pos {I : σ → Prop} {A : List α} {W : ℝ → Prop} (hP : P.UpdateLawful I A W) {s : σ} (hs : I s)
    {xs : List (Obs α)} (hx : GoodObs A W xs) : 0 < P.seqProb s xs := by
  obtain ⟨r, s', h1, h2⟩ := hP.run_ok hs hx
  rw [seqProb_of_run h1]
  exact Real.exp_pos r

namespace PTW

open PTWNode

variable {fr : ℕ → σ} {m : ℕ}

/-- The state after observing `xs`, when the factory returns `fr t` at time `t`. -/
structure Inv (P : Predictor σ α) (fr : ℕ → σ) (m : ℕ) (s : PTW σ) (xs : List (Obs α)) : Prop where
  rep : Rep P fr m 0 s.tree xs
  lp : s.logProb = s.tree.data.lp + s.adj

theorem inv_init : Inv P fr m (init (fr 0) m) [] := ⟨rep_new 0, by simp [init, PTWData.new]⟩

theorem Inv.update {s s' : PTW σ} {xs : List (Obs α)} (hi : Inv P fr m s xs) {o : Obs α} {r : ℝ}
    (hu : s.update P (.ok (fr xs.length)) m o.sym o.hist o.weight = .ok (r, s')) :
    Inv P fr m s' (xs ++ [o]) ∧ Real.exp r =
      ptwProb (blockProb P fr) m (levelsFor m (xs.length + 1)) 0 (xs ++ [o]) /
        ptwProb (blockProb P fr) m (levelsFor m (xs.length + 1)) 0 xs := by
  simp only [PTW.update, bind_eq_ok, pure_eq_ok, Except.ok.injEq, Prod.mk.injEq] at hu
  obtain ⟨n, hn, rfl, rfl⟩ := hu
  have hrep : Rep P fr m 0 n (xs ++ [o]) := hi.rep.update (by rwa [zero_add])
  refine ⟨⟨hrep, rfl⟩, ?_⟩
  have e1 := hrep.exp_lp
  have e2 := hi.rep.exp_lp
  rw [List.length_append, List.length_singleton] at e1
  rw [← e1, hi.lp]
  have hnext := levelsFor_next m xs.length
  have hh := hi.rep.height
  have hcount := hi.rep.core.count
  simp only [adjusted]
  split_ifs with hc
  · rw [PTWData.complete_iff, hcount, hh] at hc
    have heq : xs.length = 2 ^ (m + levelsFor m xs.length) := le_antisymm (levelsFor_spec m xs.length) hc
    rw [if_pos heq] at hnext
    rw [hnext, ptwProb_succ_of_le (blockProb_nil P fr) (levelsFor_spec m xs.length), ← e2]
    have e3 : Real.exp s.tree.data.baseLP = blockProb P fr 0 xs := hi.rep.core.exp_base
    have e4 : n.data.lp + (s.adj + (s.tree.data.lp - (log05 + logsumexp2 s.tree.data.baseLP s.tree.data.lp))) -
        (s.tree.data.lp + s.adj) = n.data.lp - (log05 + logsumexp2 s.tree.data.baseLP s.tree.data.lp) := by ring
    rw [e4, Real.exp_sub, exp_half_lse2, e3]
  · rw [PTWData.complete_iff, hcount, hh, not_le] at hc
    rw [if_neg (by omega)] at hnext
    rw [hnext, ← e2]
    have e4 : n.data.lp + s.adj - (s.tree.data.lp + s.adj) = n.data.lp - s.tree.data.lp := by ring
    rw [e4, Real.exp_sub]

theorem update_tree {s s' : PTW σ} {f : Py σ} {o : Obs α} {r : ℝ}
    (hu : s.update P f m o.sym o.hist o.weight = .ok (r, s')) :
    s.tree.update P f m o.sym o.hist o.weight = .ok s'.tree := by
  simp only [PTW.update, bind_eq_ok, pure_eq_ok, Except.ok.injEq, Prod.mk.injEq] at hu
  obtain ⟨n, hn, rfl, rfl⟩ := hu
  exact hn

theorem update_total {I : σ → Prop} {A : List α} {W : ℝ → Prop} (hP : P.UpdateLawful I A W) {f : σ} (hf : I f)
    {s : PTW σ} (hs : All I s.tree) {a : α} (ha : a ∈ A) (h : List α) {w : ℝ} (hw : W w) :
    ∃ r s', s.update P (.ok f) m a h w = .ok (r, s') ∧ All I s'.tree := by
  obtain ⟨n, h1, h2⟩ := hs.update (m := m) hP.total hf ha h hw
  exact ⟨n.data.lp + s.adjusted - s.logProb, ⟨n, n.data.lp + s.adjusted, s.adjusted⟩, by simp only [PTW.update, h1, ok_bind, pure_eq_ok], h2⟩

theorem blockProb_sum {I : σ → Prop} {A : List α} {W : ℝ → Prop} (hP : P.UpdateLawful I A W) (hfr : ∀ t, I (fr t))
    {xs : List (Obs α)} (hx : GoodObs A W xs) (h : List α) {w : ℝ} (hw : W w) (k t : ℕ)
    (hlen : xs.length < 2 ^ (m + k)) :
    (A.map fun a => ptwProb (blockProb P fr) m k t (xs ++ [⟨a, h, w⟩])).sum = ptwProb (blockProb P fr) m k t xs :=
  ptwProb_sum (blockProb_nil P fr) (GoodObs A W) GoodObs.drop A (fun a => ⟨a, h, w⟩)
    (fun t _ hG => seqProb_sum hP (hfr t) hG h hw) k t xs hx hlen

theorem ptwProb_pos {I : σ → Prop} {A : List α} {W : ℝ → Prop} (hP : P.UpdateLawful I A W) (hfr : ∀ t, I (fr t))
    {xs : List (Obs α)} (hx : GoodObs A W xs) (k t : ℕ) : 0 < ptwProb (blockProb P fr) m k t xs := by
  have h1 : ∀ t ys, 0 ≤ blockProb P fr t ys := fun t ys => P.seqProb_nonneg _ _
  cases k with
  | zero => exact seqProb_pos hP (hfr t) hx
  | succ k =>
    simp only [ptwProb]
    have h2 : 0 < blockProb P fr t xs := seqProb_pos hP (hfr t) hx
    have h3 := mul_nonneg (ptwProb_nonneg (m := m) h1 k t (xs.take (2 ^ (m + k))))
      (ptwProb_nonneg (m := m) h1 k (t + 2 ^ (m + k)) (xs.drop (2 ^ (m + k))))
    linarith

/-- The probabilities that `update` would report sum to one. -/
theorem Inv.sum {I : σ → Prop} {A : List α} {W : ℝ → Prop} (hP : P.UpdateLawful I A W) (hfr : ∀ t, I (fr t))
    {s : PTW σ} {xs : List (Obs α)} (hi : Inv P fr m s xs) (hs : All I s.tree) (hx : GoodObs A W xs) (h : List α)
    {w : ℝ} (hw : W w) :
    (A.map fun a => probOf (s.update P (.ok (fr xs.length)) m a h w)).sum = 1 := by
  have hpos : ptwProb (blockProb P fr) m (levelsFor m (xs.length + 1)) 0 xs ≠ 0 := (ptwProb_pos hP hfr hx _ _).ne'
  have : ∀ a ∈ A, probOf (s.update P (.ok (fr xs.length)) m a h w) =
      ptwProb (blockProb P fr) m (levelsFor m (xs.length + 1)) 0 (xs ++ [⟨a, h, w⟩]) *
        (ptwProb (blockProb P fr) m (levelsFor m (xs.length + 1)) 0 xs)⁻¹ := by
    intro a ha
    obtain ⟨r, s', h1, _⟩ := update_total (m := m) hP (hfr xs.length) hs ha h hw
    rw [h1, probOf_ok, (hi.update (o := ⟨a, h, w⟩) h1).2, div_eq_mul_inv]
  rw [List.map_congr_left this, List.sum_map_mul_right, blockProb_sum hP hfr hx h hw, mul_inv_cancel₀ hpos]
  have := levelsFor_spec m (xs.length + 1)
  omega

/-- `PTW` over a base model with normalised updates has normalised updates, in every state reached by updates. -/
theorem updateLawful {I : σ → Prop} {A : List α} {W : ℝ → Prop} (hP : P.UpdateLawful I A W) {fresh : σ}
    (hf : I fresh) : (predictor P fresh m).UpdateLawful
      (fun s => ∃ xs, GoodObs A W xs ∧ Inv P (fun _ => fresh) m s xs ∧ All I s.tree) A W where
  total := by
    rintro s a h w ⟨xs, hx, hi, hs⟩ ha hw
    obtain ⟨r, s', h1, h2⟩ := update_total (m := m) hP hf hs ha h hw
    exact ⟨r, s', h1, xs ++ [⟨a, h, w⟩], hx.snoc ⟨ha, hw⟩, (hi.update (o := ⟨a, h, w⟩) h1).1, h2⟩
  normalised := by
    rintro s h w ⟨xs, hx, hi, hs⟩ hw f hfa
    rw [← hi.sum hP (fun _ => hf) hs hx h hw]
    congr 1
    apply List.map_congr_left
    intro a ha
    obtain ⟨s', h1⟩ := hfa a ha
    have h1' : s.update P (.ok fresh) m a h w = .ok (f a, s') := h1
    simp only [h1', probOf_ok]

/-- A run of `PTW` with a constant factory. -/
theorem run_inv {fresh : σ} {xs ys : List (Obs α)} {s s' : PTW σ} {r : ℝ} (hi : Inv P (fun _ => fresh) m s xs)
    (hr : (predictor P fresh m).run s ys = .ok (r, s')) : Inv P (fun _ => fresh) m s' (xs ++ ys) := by
  induction ys generalizing xs s r with
  | nil =>
    simp only [Predictor.run, pure_eq_ok, Except.ok.injEq, Prod.mk.injEq] at hr
    obtain ⟨rfl, rfl⟩ := hr
    rwa [List.append_nil]
  | cons o ys ih =>
    rw [run_cons_ok] at hr
    obtain ⟨r1, s1, r2, h1, h2, rfl⟩ := hr
    have := ih (hi.update (o := o) h1).1 h2
    rwa [List.append_assoc, List.singleton_append] at this

end PTW

namespace PTWFixedLength

open PTWNode

variable {fr : ℕ → σ} {m : ℕ}

theorem update_ratio {s s' : PTW σ} {xs : List (Obs α)} {k height : ℕ} (hk : height - m = k)
    (hi : Rep P fr m 0 s.tree xs)
    {o : Obs α} {r : ℝ} (hlen : xs.length < 2 ^ (m + k))
    (hu : update P (.ok (fr xs.length)) m height s o.sym o.hist o.weight = .ok (r, s')) :
    Rep P fr m 0 s'.tree (xs ++ [o]) ∧ Real.exp s'.logProb = ptwProb (blockProb P fr) m k 0 (xs ++ [o]) ∧
      r = s'.logProb - s.logProb := by
  simp only [update, bind_eq_ok, pure_eq_ok, Except.ok.injEq, Prod.mk.injEq] at hu
  obtain ⟨n, hn, rfl, rfl⟩ := hu
  have hrep : Rep P fr m 0 n (xs ++ [o]) := hi.update (by rwa [zero_add])
  refine ⟨hrep, ?_, rfl⟩
  have hlev : levelsFor m (xs ++ [o]).length ≤ k := levelsFor_min (by simpa using hlen)
  rw [← hrep.correct hlev]
  have hm : m ≤ n.data.height := by rw [hrep.height]; omega
  have : height - n.data.height = m + k - n.data.height := by omega
  rw [this]

theorem run_ratio {fresh : σ} {s s' : PTW σ} {xs ys : List (Obs α)} {k height : ℕ} (hk : height - m = k)
    (hi : Rep P (fun _ => fresh) m 0 s.tree xs)
    (hlp : Real.exp s.logProb = ptwProb (blockProb P fun _ => fresh) m k 0 xs) {r : ℝ}
    (hlen : (xs ++ ys).length ≤ 2 ^ (m + k))
    (hr : (predictor P fresh m height).run s ys = .ok (r, s')) :
    Rep P (fun _ => fresh) m 0 s'.tree (xs ++ ys) ∧
      Real.exp s'.logProb = ptwProb (blockProb P fun _ => fresh) m k 0 (xs ++ ys) ∧
      r = s'.logProb - s.logProb := by
  induction ys generalizing xs s r with
  | nil =>
    simp only [Predictor.run, pure_eq_ok, Except.ok.injEq, Prod.mk.injEq] at hr
    obtain ⟨rfl, rfl⟩ := hr
    rw [List.append_nil]
    exact ⟨hi, hlp, by ring⟩
  | cons o ys ih =>
    rw [run_cons_ok] at hr
    obtain ⟨r1, s1, r2, h1, h2, rfl⟩ := hr
    have hlen' : xs.length < 2 ^ (m + k) := by
      rw [List.length_append, List.length_cons] at hlen
      omega
    obtain ⟨g1, g2, g3⟩ := update_ratio hk hi hlen' h1
    have := ih g1 g2 (by simpa using hlen) h2
    rw [List.append_assoc, List.singleton_append] at this
    refine ⟨this.1, this.2.1, ?_⟩
    rw [this.2.2, g3]
    ring

end PTWFixedLength

end Verif
