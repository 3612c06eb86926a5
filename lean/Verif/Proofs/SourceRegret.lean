import Verif.Proofs.KTRedundancy
import Verif.Proofs.PTWRegret

/-! Tree sources and piecewise stationary sources against mixtures over the KT estimator. -/

namespace Verif

open Redundancy

namespace TreeSource

variable {κ : Type} [Fintype κ] [DecidableEq κ]

theorem prob_nonneg {d : ℕ} {T : TreeSource κ d} (hT : T.Valid) (S : List (List κ × Obs Bool)) : 0 ≤ T.prob S := by
  induction T generalizing S with
  | leaf θ => exact bernProb_nonneg hT.1 hT.2 _
  | split f ih => exact Finset.prod_nonneg fun c _ => ih c (hT c) _

theorem price_pos {d : ℕ} (T : TreeSource κ d) (S : List (List κ × Obs Bool)) : 0 < T.price S := by
  induction T generalizing S with
  | leaf θ => exact lt_of_lt_of_le one_pos (one_le_ktPrice _)
  | split f ih => exact Finset.prod_pos fun c _ => ih c _

omit [Fintype κ] in
theorem subCtx_mem {β : Type} {c : κ} {S : List (List κ × β)} {p : List κ × β} (h : p ∈ subCtx c S) :
    ∃ q ∈ S, q.2 = p.2 := by
  simp only [subCtx, List.mem_filterMap] at h
  obtain ⟨q, hq, h⟩ := h
  refine ⟨q, hq, ?_⟩
  split at h
  · simp at h
  · split_ifs at h
    simp only [Option.some.injEq] at h
    rw [← h]

theorem prob_le {d : ℕ} {T : TreeSource κ d} (hT : T.Valid) (S : List (List κ × Obs Bool))
    (hw : ∀ p ∈ S, p.2.weight = 1) :
    T.prob S ≤ T.price S * T.shape.prob (KTBinary.predictor.seqProb (KTBinary.init none)) S := by
  induction T generalizing S with
  | leaf θ =>
    have := bernProb_le (xs := S.map Prod.snd) (by
      intro o ho
      simp only [List.mem_map] at ho
      obtain ⟨p, hp, rfl⟩ := ho
      exact hw p hp) hT.1 hT.2
    simpa [prob, price, shape, Pruning.prob] using this
  | split f ih =>
    simp only [prob, price, shape, Pruning.prob]
    rw [← Finset.prod_mul_distrib]
    refine Finset.prod_le_prod (fun c _ => prob_nonneg (hT c) _) fun c _ => ih c (hT c) _ ?_
    intro p hp
    obtain ⟨q, hq, e⟩ := subCtx_mem hp
    rw [← e]
    exact hw q hq

end TreeSource

section Pieces

variable {γ : Type} [DecidableEq γ]

theorem changes_split (θ : ℕ → γ) (t n1 n2 : ℕ) :
    (changeTimes θ t n1).card + (changeTimes θ (t + n1) n2).card ≤ (changeTimes θ t (n1 + n2)).card := by
  have hd : Disjoint (changeTimes θ t n1) (changeTimes θ (t + n1) n2) := by
    rw [Finset.disjoint_left]
    intro i h1 h2
    simp only [changeTimes, Finset.mem_filter, Finset.mem_Ioo] at h1 h2
    omega
  rw [← Finset.card_union_of_disjoint hd]
  apply Finset.card_le_card
  intro i hi
  simp only [changeTimes, Finset.mem_union, Finset.mem_filter, Finset.mem_Ioo] at hi ⊢
  rcases hi with ⟨h1, h2⟩ | ⟨h1, h2⟩
  · exact ⟨⟨h1.1, by omega⟩, h2⟩
  · exact ⟨⟨by omega, by omega⟩, h2⟩

theorem const_of_changes {θ : ℕ → γ} {t n : ℕ} (h : changeTimes θ t n = ∅) : ∀ i < n, θ (t + i) = θ t := by
  intro i
  induction i with
  | zero => intro _; rfl
  | succ i ih =>
    intro hi
    rw [← ih (by omega)]
    by_contra hne
    have : t + (i + 1) ∈ changeTimes θ t n := by
      simp only [changeTimes, Finset.mem_filter, Finset.mem_Ioo]
      exact ⟨⟨by omega, by omega⟩, by simpa using hne⟩
    rw [h] at this
    simp at this

theorem exists_partition {β : Type} (θ : ℕ → γ) (m k t : ℕ) (xs : List β) (ht : 2 ^ m ∣ t) (hl : xs.length ≤ 2 ^ (m + k))
    (hal : ∀ i ∈ changeTimes θ t xs.length, 2 ^ m ∣ i) :
    ∃ T : TPart k, T.size ≤ (changeTimes θ t xs.length).card * k + 1 ∧
      ∀ g ∈ T.segments m t xs, ∀ i < g.2.length, θ (g.1 + i) = θ g.1 := by
  induction k generalizing t xs with
  | zero =>
    have he : changeTimes θ t xs.length = ∅ := by
      rw [Finset.eq_empty_iff_forall_notMem]
      intro i hi
      have h1 := hal i hi
      simp only [changeTimes, Finset.mem_filter, Finset.mem_Ioo] at hi
      obtain ⟨a, rfl⟩ := ht
      obtain ⟨b, rfl⟩ := h1
      rw [Nat.add_zero] at hl
      have hp : 0 < 2 ^ m := by positivity
      have h2 : 2 ^ m * a < 2 ^ m * b := hi.1.1
      have h3 : 2 ^ m * b < 2 ^ m * (a + 1) := by
        rw [Nat.mul_add, Nat.mul_one]
        omega
      have := Nat.lt_of_mul_lt_mul_left h2
      have := Nat.lt_of_mul_lt_mul_left h3
      omega
    refine ⟨.whole, by simp [TPart.size], ?_⟩
    intro g hg
    simp only [TPart.segments, List.mem_singleton] at hg
    subst hg
    exact const_of_changes he
  | succ k ih =>
    by_cases he : changeTimes θ t xs.length = ∅
    · refine ⟨.whole, by simp [TPart.size], ?_⟩
      intro g hg
      simp only [TPart.segments, List.mem_singleton] at hg
      subst hg
      exact const_of_changes he
    · have hpos : 1 ≤ (changeTimes θ t xs.length).card := Finset.card_pos.mpr (Finset.nonempty_iff_ne_empty.mpr he)
      have hk : 2 ^ (m + (k + 1)) = 2 ^ (m + k) + 2 ^ (m + k) := by rw [← Nat.add_assoc, pow_succ]; omega
      set M := 2 ^ (m + k) with hM
      have hMd : 2 ^ m ∣ M := pow_dvd_pow 2 (by omega)
      have sub1 : changeTimes θ t (xs.take M).length ⊆ changeTimes θ t xs.length := by
        intro i hi
        simp only [changeTimes, Finset.mem_filter, Finset.mem_Ioo, List.length_take] at hi ⊢
        exact ⟨⟨hi.1.1, by omega⟩, hi.2⟩
      have sub2 : changeTimes θ (t + M) (xs.drop M).length ⊆ changeTimes θ t xs.length := by
        intro i hi
        simp only [changeTimes, Finset.mem_filter, Finset.mem_Ioo, List.length_drop] at hi ⊢
        exact ⟨⟨by omega, by omega⟩, hi.2⟩
      obtain ⟨T1, s1, c1⟩ := ih t (xs.take M) ht (by rw [List.length_take]; omega) fun i hi => hal i (sub1 hi)
      obtain ⟨T2, s2, c2⟩ := ih (t + M) (xs.drop M) (dvd_add ht hMd) (by rw [List.length_drop]; omega)
        fun i hi => hal i (sub2 hi)
      have hsum : (changeTimes θ t (xs.take M).length).card + (changeTimes θ (t + M) (xs.drop M).length).card ≤
          (changeTimes θ t xs.length).card := by
        by_cases hle : M ≤ xs.length
        · have h := changes_split θ t M (xs.length - M)
          rw [show M + (xs.length - M) = xs.length by omega] at h
          rw [List.length_take, List.length_drop, Nat.min_eq_left hle]
          exact h
        · have : changeTimes θ (t + M) (xs.drop M).length = ∅ := by
            rw [Finset.eq_empty_iff_forall_notMem]
            intro i hi
            simp only [changeTimes, Finset.mem_filter, Finset.mem_Ioo, List.length_drop] at hi
            omega
          rw [this, Finset.card_empty, Nat.add_zero]
          exact Finset.card_le_card sub1
      refine ⟨.split T1 T2, ?_, ?_⟩
      · simp only [TPart.size]
        have h2 := Nat.mul_le_mul_right k hsum
        rw [Nat.add_mul] at h2
        rw [Nat.mul_add, Nat.mul_one]
        omega
      · intro g hg
        simp only [TPart.segments, List.mem_append] at hg
        rcases hg with hg | hg
        · exact c1 g hg
        · exact c2 g hg

theorem pieceProb_append (θ : ℕ → ℝ) (t : ℕ) (xs ys : List (Obs Bool)) :
    pieceProb θ t (xs ++ ys) = pieceProb θ t xs * pieceProb θ (t + xs.length) ys := by
  induction xs generalizing t with
  | nil => simp [pieceProb]
  | cons o xs ih =>
    simp only [List.cons_append, pieceProb, ih, List.length_cons]
    rw [show t + 1 + xs.length = t + (xs.length + 1) by omega]
    ring

theorem pieceProb_const {θ : ℕ → ℝ} {c : ℝ} {t : ℕ} {xs : List (Obs Bool)} (h : ∀ i < xs.length, θ (t + i) = c) :
    pieceProb θ t xs = bernProb c xs := by
  induction xs generalizing t with
  | nil => simp [pieceProb, bernProb]
  | cons o xs ih =>
    have h0 : θ t = c := h 0 (by simp)
    have := ih (t := t + 1) (fun i hi => by
      rw [show t + 1 + i = t + (i + 1) by omega]
      exact h (i + 1) (by simpa using hi))
    simp only [pieceProb, this, h0, bernProb, List.map_cons, List.prod_cons]

theorem pieceProb_nonneg {θ : ℕ → ℝ} (h : ∀ i, 0 ≤ θ i ∧ θ i ≤ 1) (t : ℕ) (xs : List (Obs Bool)) :
    0 ≤ pieceProb θ t xs := by
  induction xs generalizing t with
  | nil => simp [pieceProb]
  | cons o xs ih =>
    refine mul_nonneg ?_ (ih _)
    have := h t
    split_ifs <;> linarith

theorem pieceProb_segments {k : ℕ} (θ : ℕ → ℝ) (m : ℕ) (T : TPart k) (t : ℕ) (xs : List (Obs Bool)) :
    pieceProb θ t xs = ((T.segments m t xs).map fun g => pieceProb θ g.1 g.2).prod := by
  induction T generalizing t xs with
  | whole => simp [TPart.segments]
  | @split k l r ihl ihr =>
    simp only [TPart.segments, List.map_append, List.prod_append, ← ihl, ← ihr]
    conv_lhs => rw [← List.take_append_drop (2 ^ (m + k)) xs, pieceProb_append]
    by_cases hle : 2 ^ (m + k) ≤ xs.length
    · rw [List.length_take, Nat.min_eq_left hle]
    · rw [List.drop_eq_nil_of_le (by omega)]
      simp [pieceProb]

theorem segments_mem_sub {β : Type} {k : ℕ} (m : ℕ) (T : TPart k) (t : ℕ) (xs : List β) :
    ∀ g ∈ T.segments m t xs, g.2.length ≤ xs.length ∧ ∀ o ∈ g.2, o ∈ xs := by
  induction T generalizing t xs with
  | whole => simp [TPart.segments]
  | @split k l r ihl ihr =>
    intro g hg
    simp only [TPart.segments, List.mem_append] at hg
    rcases hg with hg | hg
    · have := ihl _ _ g hg
      rw [List.length_take] at this
      exact ⟨by omega, fun o ho => List.mem_of_mem_take (this.2 o ho)⟩
    · have := ihr _ _ g hg
      rw [List.length_drop] at this
      exact ⟨this.1.trans (Nat.sub_le _ _), fun o ho => List.mem_of_mem_drop (this.2 o ho)⟩

theorem prod_pieces_le {n : ℕ} {θ : ℕ → ℝ} (hθ : ∀ i, 0 ≤ θ i ∧ θ i ≤ 1) (l : List (ℕ × List (Obs Bool)))
    (h1 : ∀ g ∈ l, g.2.length ≤ n) (h2 : ∀ g ∈ l, ∀ o ∈ g.2, o.weight = 1)
    (h3 : ∀ g ∈ l, ∀ i < g.2.length, θ (g.1 + i) = θ g.1) :
    (l.map fun g => pieceProb θ g.1 g.2).prod ≤ ktPrice n ^ l.length *
      (l.map fun g => KTBinary.predictor.seqProb (KTBinary.init none) g.2).prod := by
  induction l with
  | nil => simp
  | cons g l ih =>
    simp only [List.map_cons, List.prod_cons, List.length_cons, pow_succ]
    have e := pieceProb_const (h3 g (by simp))
    have hb := bernProb_le (h2 g (by simp)) (hθ g.1).1 (hθ g.1).2
    rw [← e] at hb
    have hq := Predictor.seqProb_nonneg KTBinary.predictor (KTBinary.init none) g.2
    have hp1 := one_le_ktPrice g.2.length
    have hb2 := hb.trans (mul_le_mul_of_nonneg_right (ktPrice_mono (h1 g (by simp))) hq)
    have := ih (fun g hg => h1 g (by simp [hg])) (fun g hg => h2 g (by simp [hg])) (fun g hg => h3 g (by simp [hg]))
    have hn : 0 ≤ (l.map fun g => pieceProb θ g.1 g.2).prod := by
      apply List.prod_nonneg
      intro x hx
      simp only [List.mem_map] at hx
      obtain ⟨g, _, rfl⟩ := hx
      exact pieceProb_nonneg hθ _ _
    have hk : 0 ≤ ktPrice n := le_trans zero_le_one (one_le_ktPrice n)
    calc _ ≤ _ := mul_le_mul hb2 this hn (mul_nonneg hk hq)
      _ = _ := by ring

end Pieces

end Verif
