import Verif.Proofs.Categorical

/-! Tree sources and piecewise stationary sources over any alphabet. -/

namespace Verif

open Categorical

namespace CatTree

variable {α κ : Type} [DecidableEq α] [Fintype κ] [DecidableEq κ]

omit [DecidableEq α] [Fintype κ] in
theorem subCtx_ok {I : Obs α → Prop} {S : List (List κ × Obs α)} (h : ∀ p ∈ S, I p.2) (c : κ) :
    ∀ p ∈ subCtx c S, I p.2 := by
  intro p hp
  obtain ⟨q, hq, e⟩ := TreeSource.subCtx_mem hp
  rw [← e]
  exact h q hq

theorem prob_nonneg {A : List α} {d : ℕ} {T : CatTree α κ d} (hT : T.Valid A) (S : List (List κ × Obs α))
    (hS : ∀ p ∈ S, p.2.sym ∈ A) : 0 ≤ T.prob S := by
  induction T generalizing S with
  | leaf q =>
    refine catProb_nonneg (A := A) hT ?_
    intro o ho
    obtain ⟨p, hp, rfl⟩ := List.mem_map.mp ho
    exact hS p hp
  | split f ih => exact Finset.prod_nonneg fun c _ => ih c (hT c) _ (subCtx_ok (I := fun o => o.sym ∈ A) hS c)

omit [DecidableEq α] in
theorem price_pos (k : ℕ) {d : ℕ} (T : CatTree α κ d) (S : List (List κ × Obs α)) : 0 < T.price k S := by
  induction T generalizing S with
  | leaf q => exact lt_of_lt_of_le one_pos (one_le_catPrice _ _)
  | split f ih => exact Finset.prod_pos fun c _ => ih c _

theorem prob_le {A : List α} (hA : A.Nodup) (hne : A ≠ []) {s0 : KT α} (h0 : KT.init A none = .ok s0) {d : ℕ}
    {T : CatTree α κ d} (hT : T.Valid A) (S : List (List κ × Obs α)) (hS : ∀ p ∈ S, p.2.sym ∈ A ∧ p.2.weight = 1) :
    T.prob S ≤ T.price A.length S * T.shape.prob (KT.predictor.seqProb s0) S := by
  induction T generalizing S with
  | leaf q =>
    have := catProb_le hA hne h0 (xs := S.map Prod.snd) (by
      intro o ho
      obtain ⟨p, hp, rfl⟩ := List.mem_map.mp ho
      exact hS p hp) hT
    simpa [prob, price, shape, Pruning.prob] using this
  | split f ih =>
    simp only [prob, price, shape, Pruning.prob]
    rw [← Finset.prod_mul_distrib]
    refine Finset.prod_le_prod (fun c _ => prob_nonneg (hT c) _ ?_) fun c _ => ih c (hT c) _ ?_
    · exact subCtx_ok (I := fun o => o.sym ∈ A) (fun p hp => (hS p hp).1) c
    · exact subCtx_ok (I := fun o => o.sym ∈ A ∧ o.weight = 1) hS c

end CatTree

section Pieces

variable {α : Type} [DecidableEq α]

omit [DecidableEq α] in
theorem catPieceProb_append (q : ℕ → α → ℝ) (t : ℕ) (xs ys : List (Obs α)) :
    catPieceProb q t (xs ++ ys) = catPieceProb q t xs * catPieceProb q (t + xs.length) ys := by
  induction xs generalizing t with
  | nil => simp [catPieceProb]
  | cons o xs ih =>
    simp only [List.cons_append, catPieceProb, ih, List.length_cons]
    rw [show t + 1 + xs.length = t + (xs.length + 1) by omega]
    ring

omit [DecidableEq α] in
theorem catPieceProb_const {q : ℕ → α → ℝ} {c : α → ℝ} {t : ℕ} {xs : List (Obs α)}
    (h : ∀ i < xs.length, q (t + i) = c) : catPieceProb q t xs = catProb c xs := by
  induction xs generalizing t with
  | nil => simp [catPieceProb, catProb]
  | cons o xs ih =>
    have h0 : q t = c := h 0 (by simp)
    have := ih (t := t + 1) (fun i hi => by
      rw [show t + 1 + i = t + (i + 1) by omega]
      exact h (i + 1) (by simpa using hi))
    simp only [catPieceProb, this, h0, catProb, List.map_cons, List.prod_cons]

omit [DecidableEq α] in
theorem catPieceProb_nonneg {A : List α} {q : ℕ → α → ℝ} (h : ∀ i, IsDist A (q i)) (t : ℕ) {xs : List (Obs α)}
    (hx : ∀ o ∈ xs, o.sym ∈ A) : 0 ≤ catPieceProb q t xs := by
  induction xs generalizing t with
  | nil => simp [catPieceProb]
  | cons o xs ih => exact mul_nonneg ((h t).1 _ (hx o (by simp))) (ih _ fun o ho => hx o (by simp [ho]))

omit [DecidableEq α] in
theorem catPieceProb_segments {k : ℕ} (q : ℕ → α → ℝ) (m : ℕ) (T : TPart k) (t : ℕ) (xs : List (Obs α)) :
    catPieceProb q t xs = ((T.segments m t xs).map fun g => catPieceProb q g.1 g.2).prod := by
  induction T generalizing t xs with
  | whole => simp [TPart.segments]
  | @split k l r ihl ihr =>
    simp only [TPart.segments, List.map_append, List.prod_append, ← ihl, ← ihr]
    conv_lhs => rw [← List.take_append_drop (2 ^ (m + k)) xs, catPieceProb_append]
    by_cases hle : 2 ^ (m + k) ≤ xs.length
    · rw [List.length_take, Nat.min_eq_left hle]
    · rw [List.drop_eq_nil_of_le (by omega)]
      simp [catPieceProb]

theorem segments_start {β : Type} {k : ℕ} (m : ℕ) (T : TPart k) (t : ℕ) (xs : List β) :
    ∀ g ∈ T.segments m t xs, g.2 ≠ [] → g.1 < t + xs.length := by
  induction T generalizing t xs with
  | whole =>
    intro g hg hne
    simp only [TPart.segments, List.mem_singleton] at hg
    subst hg
    have := List.length_pos_of_ne_nil hne
    simp only at this ⊢
    omega
  | @split k l r ihl ihr =>
    intro g hg hne
    simp only [TPart.segments, List.mem_append] at hg
    rcases hg with hg | hg
    · have := ihl _ _ g hg hne
      rw [List.length_take] at this
      omega
    · have h1 := ihr _ _ g hg hne
      have h2 := (segments_mem_sub m r _ _ g hg).1
      have := List.length_pos_of_ne_nil hne
      rw [List.length_drop] at h1 h2
      omega

/-- Blocks on each of which the source is constant, each predicted with a loss of at most `K`. -/
theorem prod_catPieces_le {A : List α} {K : ℝ} (hK : 1 ≤ K) {f : ℕ → List (Obs α) → ℝ} {q : ℕ → α → ℝ}
    (hq : ∀ i, IsDist A (q i)) (l : List (ℕ × List (Obs α))) (h2 : ∀ g ∈ l, ∀ o ∈ g.2, o.sym ∈ A)
    (hf : ∀ g ∈ l, 0 ≤ f g.1 g.2 ∧ catProb (q g.1) g.2 ≤ K * f g.1 g.2)
    (h3 : ∀ g ∈ l, ∀ i < g.2.length, q (g.1 + i) = q g.1) :
    (l.map fun g => catPieceProb q g.1 g.2).prod ≤ K ^ l.length * (l.map fun g => f g.1 g.2).prod := by
  induction l with
  | nil => simp
  | cons g l ih =>
    simp only [List.map_cons, List.prod_cons, List.length_cons, pow_succ]
    have e := catPieceProb_const (h3 g (by simp))
    obtain ⟨hf0, hb⟩ := hf g (by simp)
    rw [← e] at hb
    have := ih (fun g hg => h2 g (by simp [hg])) (fun g hg => hf g (by simp [hg])) (fun g hg => h3 g (by simp [hg]))
    have hn : 0 ≤ (l.map fun g => catPieceProb q g.1 g.2).prod := by
      apply List.prod_nonneg
      intro x hx
      obtain ⟨g', hg', rfl⟩ := List.mem_map.mp hx
      exact catPieceProb_nonneg hq _ (h2 g' (by simp [hg']))
    calc _ ≤ _ := mul_le_mul hb this hn (mul_nonneg (by linarith) hf0)
      _ = _ := by ring

end Pieces

end Verif
