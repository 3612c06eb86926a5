import Verif.Model.Splitting
import Verif.Spec.Runs
import Mathlib.Data.List.Sort

/-! Lemmas about splitting data and about regions of labels. -/

namespace Verif

namespace Splitting

/-! ### Samples -/

theorem mem_sampleRows (k : ℕ) (l : List ℕ) (a : ℕ) : a ∈ sampleRows k l ↔ ∃ f ∈ l, f ≤ a ∧ a < f + k := by
  simp only [sampleRows, List.mem_mergeSort, List.mem_flatMap, List.mem_map, List.mem_range]
  constructor
  · rintro ⟨f, hf, j, hj, rfl⟩
    exact ⟨f, hf, by omega, by omega⟩
  · rintro ⟨f, hf, h1, h2⟩
    exact ⟨f, hf, a - f, by omega, by omega⟩

theorem length_sampleRows (k : ℕ) (l : List ℕ) : (sampleRows k l).length = l.length * k := by
  simp [sampleRows, List.length_flatMap]

theorem sorted_sampleRows (k : ℕ) (l : List ℕ) : (sampleRows k l).Pairwise (· ≤ ·) := by
  have := List.pairwise_mergeSort (le := fun a b : ℕ => decide (a ≤ b)) (by intro a b c; simp; omega)
    (by intro a b; simp; omega) (l.flatMap fun i => (List.range k).map fun j => i + j)
  exact this.imp (by simp)

/-- Samples that start at least `k` apart have different rows. -/
theorem nodup_sampleRows (k : ℕ) (l : List ℕ) (h : l.Pairwise fun a b => a + k ≤ b ∨ b + k ≤ a) :
    (sampleRows k l).Nodup := by
  rw [sampleRows, (List.mergeSort_perm _ _).nodup_iff, List.nodup_flatMap]
  constructor
  · intro i _
    exact List.nodup_range.map fun a b hab => by simpa using hab
  · refine h.imp ?_
    intro a b hab x h1 h2
    simp only [List.mem_map, List.mem_range] at h1 h2
    obtain ⟨i, hi, rfl⟩ := h1
    obtain ⟨j, hj, he⟩ := h2
    omega

theorem mem_rangeStep (a b t x : ℕ) (ht : 0 < t) : x ∈ rangeStep a b t ↔ x < b ∧ ∃ i, x = a + i * t := by
  simp only [rangeStep, List.mem_map, List.mem_range]
  have key : ∀ i, i < (b - a + t - 1) / t ↔ a + i * t < b := by
    intro i
    rw [show i < (b - a + t - 1) / t ↔ i + 1 ≤ (b - a + t - 1) / t from Iff.rfl, Nat.le_div_iff_mul_le ht, Nat.succ_mul]
    omega
  constructor
  · rintro ⟨i, hi, rfl⟩
    exact ⟨(key i).mp hi, i, rfl⟩
  · rintro ⟨h, i, rfl⟩
    exact ⟨i, (key i).mpr h, rfl⟩

theorem pairwise_rangeStep (a b t : ℕ) : (rangeStep a b t).Pairwise fun x y => x + t ≤ y := by
  rw [rangeStep, List.pairwise_map]
  refine List.pairwise_lt_range.imp ?_
  intro i j hij
  have : (i + 1) * t ≤ j * t := Nat.mul_le_mul_right t hij
  rw [Nat.succ_mul] at this
  omega

/-! ### Dictionaries of lists -/

section Dict

variable {L V : Type} [DecidableEq L]

theorem dictAppend_keys (d : List (L × List V)) (k : L) (v : V) (hd : (d.map Prod.fst).Nodup) :
    ((dictAppend d k v).map Prod.fst).Nodup ∧
      ∀ c, c ∈ (dictAppend d k v).map Prod.fst ↔ c = k ∨ c ∈ d.map Prod.fst := by
  induction d with
  | nil => simp [dictAppend]
  | cons p d ih =>
    obtain ⟨k', vs⟩ := p
    simp only [List.map_cons, List.nodup_cons] at hd
    obtain ⟨h1, h2⟩ := ih hd.2
    by_cases h : k' = k
    · subst h
      simp only [dictAppend, if_true, List.map_cons, List.nodup_cons, List.mem_cons]
      exact ⟨hd, fun c => by tauto⟩
    · simp only [dictAppend, if_neg h, List.map_cons, List.nodup_cons, List.mem_cons]
      refine ⟨⟨?_, h1⟩, fun c => ?_⟩
      · rw [h2]
        push Not
        exact ⟨h, hd.1⟩
      · rw [h2]; tauto

theorem dictAppend_mem (d : List (L × List V)) (k : L) (v : V) (hd : (d.map Prod.fst).Nodup) (c : L) (vs : List V) :
    (c, vs) ∈ dictAppend d k v ↔
      (c ≠ k ∧ (c, vs) ∈ d) ∨ (c = k ∧ ((∃ ws, (k, ws) ∈ d ∧ vs = ws ++ [v]) ∨ (k ∉ d.map Prod.fst ∧ vs = [v]))) := by
  induction d with
  | nil => simp [dictAppend]
  | cons p d ih =>
    obtain ⟨k', ws'⟩ := p
    simp only [List.map_cons, List.nodup_cons] at hd
    have ih := ih hd.2
    have hno : ∀ ws, (k', ws) ∉ d := fun ws hw => hd.1 (List.mem_map.mpr ⟨_, hw, rfl⟩)
    by_cases h : k' = k
    · subst h
      simp only [dictAppend, if_true, List.mem_cons, Prod.mk.injEq, List.map_cons]
      constructor
      · rintro (⟨rfl, rfl⟩ | hm)
        · exact Or.inr ⟨rfl, Or.inl ⟨ws', Or.inl ⟨trivial, rfl⟩, rfl⟩⟩
        · by_cases hc : c = k'
          · subst hc; exact absurd hm (hno vs)
          · exact Or.inl ⟨hc, Or.inr hm⟩
      · rintro (⟨hc, (⟨rfl, -⟩ | hm)⟩ | ⟨rfl, (⟨ws, (⟨-, rfl⟩ | hm), rfl⟩ | ⟨hn, -⟩)⟩)
        · exact absurd rfl hc
        · exact Or.inr hm
        · exact Or.inl ⟨rfl, rfl⟩
        · exact absurd hm (hno ws)
        · exact absurd (Or.inl trivial) hn
    · simp only [dictAppend, if_neg h, List.mem_cons, Prod.mk.injEq, List.map_cons, ih]
      constructor
      · rintro (⟨rfl, rfl⟩ | (⟨hc, hm⟩ | ⟨rfl, (⟨ws, hm, rfl⟩ | ⟨hn, rfl⟩)⟩))
        · exact Or.inl ⟨h, Or.inl ⟨rfl, rfl⟩⟩
        · exact Or.inl ⟨hc, Or.inr hm⟩
        · exact Or.inr ⟨rfl, Or.inl ⟨ws, Or.inr hm, rfl⟩⟩
        · exact Or.inr ⟨rfl, Or.inr ⟨by push Not; exact ⟨Ne.symm h, hn⟩, rfl⟩⟩
      · rintro (⟨hc, (⟨rfl, rfl⟩ | hm)⟩ | ⟨rfl, (⟨ws, (⟨rfl, -⟩ | hm), rfl⟩ | ⟨hn, rfl⟩)⟩)
        · exact Or.inl ⟨rfl, rfl⟩
        · exact Or.inr (Or.inl ⟨hc, hm⟩)
        · exact absurd rfl h
        · exact Or.inr (Or.inr ⟨rfl, Or.inl ⟨ws, hm, rfl⟩⟩)
        · push Not at hn
          exact Or.inr (Or.inr ⟨rfl, Or.inr ⟨hn.2, rfl⟩⟩)

/-- What the dictionary holds after appending the pairs `l` one by one. -/
def Collected (l : List (L × V)) (d : List (L × List V)) : Prop :=
  (d.map Prod.fst).Nodup ∧ (∀ c, c ∈ d.map Prod.fst ↔ c ∈ l.map Prod.fst) ∧
    ∀ c vs, (c, vs) ∈ d ↔ c ∈ l.map Prod.fst ∧ vs = (l.filter fun p => p.1 = c).map Prod.snd

theorem collected_append (l : List (L × V)) (d : List (L × List V)) (k : L) (v : V) (h : Collected l d) :
    Collected (l ++ [(k, v)]) (dictAppend d k v) := by
  obtain ⟨h1, h2, h3⟩ := h
  obtain ⟨a1, a2⟩ := dictAppend_keys d k v h1
  refine ⟨a1, fun c => ?_, fun c vs => ?_⟩
  · rw [a2, h2]; simp only [List.map_append, List.mem_append, List.map_cons, List.map_nil, List.mem_singleton]; tauto
  · rw [dictAppend_mem d k v h1]
    by_cases hc : c = k
    · subst hc
      simp only [ne_eq, not_true_eq_false, false_and, true_and, false_or, List.map_append, List.map_cons, List.map_nil,
        List.mem_append, List.mem_singleton, or_true, List.filter_append, List.filter_cons, decide_true, if_true,
        List.filter_nil]
      constructor
      · rintro (⟨ws, hw, rfl⟩ | ⟨hn, rfl⟩)
        · rw [((h3 c ws).mp hw).2]
        · rw [h2] at hn
          have : l.filter (fun p => decide (p.1 = c)) = [] := by
            rw [List.filter_eq_nil_iff]
            intro p hp
            simp only [decide_eq_true_eq]
            rintro rfl
            exact hn (List.mem_map.mpr ⟨p, hp, rfl⟩)
          rw [this]; rfl
      · rintro rfl
        by_cases hk : c ∈ l.map Prod.fst
        · exact Or.inl ⟨_, (h3 c _).mpr ⟨hk, rfl⟩, rfl⟩
        · refine Or.inr ⟨by rwa [h2], ?_⟩
          have : l.filter (fun p => decide (p.1 = c)) = [] := by
            rw [List.filter_eq_nil_iff]
            intro p hp
            simp only [decide_eq_true_eq]
            rintro rfl
            exact hk (List.mem_map.mpr ⟨p, hp, rfl⟩)
          rw [this]; rfl
    · have hk : ¬ k = c := fun h => hc h.symm
      simp only [ne_eq, hc, not_false_eq_true, true_and, false_and, or_false, h3, List.map_append, List.map_cons,
        List.map_nil, List.mem_append, List.mem_singleton, List.filter_append, List.filter_cons, hk, decide_false,
        Bool.false_eq_true, if_false, List.filter_nil, List.append_nil]

end Dict

/-! ### Regions -/

section Regions

variable {L : Type} [DecidableEq L]

/-- Neighbours in an increasing list. -/
theorem mem_zip_tail (s : List ℕ) (hs : s.Pairwise (· < ·)) (a b : ℕ) :
    (a, b) ∈ s.zip s.tail ↔ a ∈ s ∧ b ∈ s ∧ a < b ∧ ∀ c ∈ s, ¬ (a < c ∧ c < b) := by
  induction s with
  | nil => simp
  | cons x xs ih =>
    cases xs with
    | nil =>
      simp only [List.tail_cons, List.zip_nil_right, List.not_mem_nil, List.mem_singleton, false_iff]
      rintro ⟨rfl, rfl, h, -⟩
      omega
    | cons y ys =>
      have hx := (List.pairwise_cons.mp hs).1
      have hs' := (List.pairwise_cons.mp hs).2
      have hy := (List.pairwise_cons.mp hs').1
      have hxy := hx y (by simp)
      have ih := ih hs'
      simp only [List.tail_cons] at ih ⊢
      rw [List.zip_cons_cons, List.mem_cons, ih, Prod.mk.injEq]
      constructor
      · rintro (⟨rfl, rfl⟩ | ⟨h1, h2, h3, h4⟩)
        · refine ⟨by simp, by simp, hxy, ?_⟩
          intro c hc
          simp only [List.mem_cons] at hc
          rcases hc with rfl | rfl | hc
          · omega
          · omega
          · have := hy c hc; omega
        · refine ⟨List.mem_cons_of_mem _ h1, List.mem_cons_of_mem _ h2, h3, ?_⟩
          intro c hc
          rcases List.mem_cons.mp hc with rfl | hc
          · have := hx a h1; omega
          · exact h4 c hc
      · rintro ⟨h1, h2, h3, h4⟩
        rcases List.mem_cons.mp h1 with rfl | h1
        · left
          refine ⟨rfl, ?_⟩
          rcases List.mem_cons.mp h2 with rfl | h2
          · omega
          · by_contra hne
            have hyb : y < b := by
              rcases List.mem_cons.mp h2 with rfl | h2
              · exact absurd rfl hne
              · exact hy b h2
            exact h4 y (by simp) ⟨hxy, hyb⟩
        · right
          rcases List.mem_cons.mp h2 with h2 | h2
          · have := hx a h1; omega
          · exact ⟨h1, h2, h3, fun c hc => h4 c (List.mem_cons_of_mem _ hc)⟩

/-- The changes after the first row. -/
def inner (labels : List L) : List ℕ :=
  (List.range' 1 (labels.length - 1)).filter fun i => labels[i]? ≠ labels[i - 1]?

theorem mem_inner (labels : List L) (i : ℕ) :
    i ∈ inner labels ↔ 1 ≤ i ∧ i < labels.length ∧ labels[i]? ≠ labels[i - 1]? := by
  simp only [inner, List.mem_filter, List.mem_range'_1, decide_eq_true_eq]
  constructor
  · rintro ⟨⟨h1, h2⟩, h3⟩
    exact ⟨h1, by omega, h3⟩
  · rintro ⟨h1, h2, h3⟩
    exact ⟨⟨h1, by omega⟩, h3⟩

theorem changes_eq (labels : List L) (h : labels ≠ []) : changes labels = 0 :: inner labels := by
  obtain ⟨n, hn⟩ : ∃ n, labels.length = n + 1 := ⟨labels.length - 1, by have := List.length_pos_of_ne_nil h; omega⟩
  rw [changes, inner, hn, Nat.add_sub_cancel, List.range_eq_range', List.range'_succ, List.filter_cons]
  simp only [true_or, decide_true, if_true]
  congr 1
  apply List.filter_congr
  intro i hi
  have : i ≠ 0 := by
    have := (List.mem_range'_1.mp hi).1
    omega
  simp [this]

/-- The boundaries between regions. -/
def bounds (labels : List L) : List ℕ := 0 :: inner labels ++ [labels.length]

theorem bounds_sorted (labels : List L) (h : labels ≠ []) : (bounds labels).Pairwise (· < ·) := by
  have hl := List.length_pos_of_ne_nil h
  rw [bounds, List.cons_append, List.pairwise_cons, List.pairwise_append]
  refine ⟨?_, ?_, by simp, ?_⟩
  · intro x hx
    simp only [List.mem_append, mem_inner, List.mem_singleton] at hx
    omega
  · exact (List.pairwise_lt_range' (s := 1) (n := labels.length - 1)).filter _
  · intro x hx y hy
    rw [mem_inner] at hx
    rw [List.mem_singleton] at hy
    omega

theorem zip_append_left {α β : Type} (l : List α) (x : α) (m : List β) (h : m.length = l.length) :
    (l ++ [x]).zip m = l.zip m := by
  induction l generalizing m with
  | nil =>
    have : m = [] := List.length_eq_zero_iff.mp (by simpa using h)
    simp [this]
  | cons a l ih =>
    cases m with
    | nil => simp at h
    | cons b m => simp [ih m (by simpa using h)]

theorem regionList_eq (labels : List L) (h : labels ≠ []) :
    regionList labels = .ok ((bounds labels).zip (bounds labels).tail) := by
  rw [regionList, changes_eq labels h]
  simp only [if_true]
  rw [bounds, List.cons_append, List.tail_cons, ← List.cons_append, zip_append_left]
  simp

theorem mem_bounds (labels : List L) (i : ℕ) :
    i ∈ bounds labels ↔ i = 0 ∨ i = labels.length ∨ (1 ≤ i ∧ i < labels.length ∧ labels[i]? ≠ labels[i - 1]?) := by
  simp only [bounds, List.cons_append, List.mem_cons, List.mem_append, mem_inner, List.not_mem_nil, or_false]
  tauto

/-- The regions are the maximal runs. -/
theorem region_iff (labels : List L) (h : labels ≠ []) (a b : ℕ) (c : L) :
    ((a, b) ∈ (bounds labels).zip (bounds labels).tail ∧ labels[a]? = some c) ↔ IsRun labels c a b := by
  rw [mem_zip_tail _ (bounds_sorted labels h)]
  constructor
  · rintro ⟨⟨h1, h2, h3, h4⟩, h5⟩
    have hbl : b ≤ labels.length := by
      rw [mem_bounds] at h2
      omega
    have hin : ∀ i, a ≤ i → i < b → labels[i]? = some c := by
      intro i hi
      induction i, hi using Nat.le_induction with
      | base => intro _; exact h5
      | succ i hi ih =>
        intro hib
        have := ih (by omega)
        by_contra hne
        refine h4 (i + 1) ?_ ⟨by omega, hib⟩
        rw [mem_bounds]
        right; right
        refine ⟨by omega, by omega, ?_⟩
        rw [Nat.add_sub_cancel, this]
        exact hne
    refine ⟨h3, hbl, hin, ?_, ?_⟩
    · rw [mem_bounds] at h1
      rcases h1 with h1 | h1 | ⟨_, _, h1⟩
      · exact Or.inl h1
      · omega
      · right
        rw [h5] at h1
        exact fun he => h1 he.symm
    · rw [mem_bounds] at h2
      rcases h2 with h2 | h2 | ⟨_, _, h2⟩
      · omega
      · rw [h2, List.getElem?_eq_none le_rfl]
        simp
      · rw [hin (b - 1) (by omega) (by omega)] at h2
        exact h2
  · intro hr
    have h5 := hr.inside a le_rfl hr.lt
    have hlt := hr.lt
    have hle := hr.le
    refine ⟨⟨?_, ?_, hr.lt, ?_⟩, h5⟩
    · rw [mem_bounds]
      rcases hr.before with h1 | h1
      · exact Or.inl h1
      · by_cases ha : a = 0
        · exact Or.inl ha
        · right; right
          refine ⟨by omega, by omega, ?_⟩
          rw [h5]
          exact fun he => h1 he.symm
    · rw [mem_bounds]
      by_cases hb : b = labels.length
      · exact Or.inr (Or.inl hb)
      · right; right
        refine ⟨by omega, by omega, ?_⟩
        rw [hr.inside (b - 1) (by omega) (by omega)]
        exact hr.after
    · rintro x hx ⟨h1, h2⟩
      rw [mem_bounds] at hx
      rcases hx with hx | hx | ⟨_, _, hx⟩
      · omega
      · omega
      · apply hx
        rw [hr.inside x (by omega) h2, hr.inside (x - 1) (by omega) (by omega)]

/-- Appending the regions one by one, with their labels. -/
theorem fold_collected (labels : List L) (rs : List (ℕ × ℕ)) (hr : ∀ r ∈ rs, r.1 < labels.length)
    (l : List (L × (ℕ × ℕ))) (d : List (L × List (ℕ × ℕ))) (h : Collected l d) :
    ∃ d', rs.foldlM (fun d v => do
        let cls ← pyGet labels v.1
        pure (dictAppend d cls v)) d = .ok d' ∧
      Collected (l ++ rs.filterMap fun r => labels[r.1]?.map fun c => (c, r)) d' := by
  induction rs generalizing l d with
  | nil => exact ⟨d, rfl, by simpa using h⟩
  | cons r rs ih =>
    have hlt := hr r (by simp)
    obtain ⟨d', h1, h2⟩ := ih (fun x hx => hr x (by simp [hx])) _ _ (collected_append l d labels[r.1] r h)
    refine ⟨d', ?_, ?_⟩
    · rw [List.foldlM_cons]
      simp only [pyGet, List.getElem?_eq_getElem hlt, ok_bind, pure_eq_ok] at h1 ⊢
      exact h1
    · rw [List.filterMap_cons, List.getElem?_eq_getElem hlt]
      simp only [Option.map_some]
      rw [List.append_assoc, List.singleton_append] at h2
      exact h2

theorem getRegions_collected (labels : List L) (h : labels ≠ []) :
    ∃ d, getRegions labels = .ok d ∧ Collected (((bounds labels).zip (bounds labels).tail).filterMap
      fun r => labels[r.1]?.map fun c => (c, r)) d := by
  have hr : ∀ r ∈ (bounds labels).zip (bounds labels).tail, r.1 < labels.length := by
    rintro ⟨a, b⟩ hab
    rw [mem_zip_tail _ (bounds_sorted labels h)] at hab
    obtain ⟨-, h2, h3, -⟩ := hab
    rw [mem_bounds] at h2
    simp only
    omega
  obtain ⟨d, h1, h2⟩ := fold_collected labels _ hr [] [] ⟨by simp, by simp, by simp⟩
  refine ⟨d, ?_, by simpa using h2⟩
  rw [getRegions, if_neg h, regionList_eq labels h, ok_bind]
  exact h1

/-- Every row lies in a run. -/
theorem exists_run (labels : List L) (i : ℕ) (hi : i < labels.length) :
    ∃ a b, IsRun labels labels[i] a b ∧ a ≤ i ∧ i < b := by
  classical
  have h : labels ≠ [] := by rintro rfl; simp at hi
  -- start
  have h1 : ∃ a, a ≤ i ∧ (∀ j, a ≤ j → j ≤ i → labels[j]? = some labels[i]) ∧
      (a = 0 ∨ labels[a - 1]? ≠ some labels[i]) := by
    have hex : ∃ a, a ≤ i ∧ ∀ j, a ≤ j → j ≤ i → labels[j]? = some labels[i] :=
      ⟨i, le_rfl, fun j h1 h2 => by rw [show j = i by omega, List.getElem?_eq_getElem hi]⟩
    refine ⟨Nat.find hex, (Nat.find_spec hex).1, (Nat.find_spec hex).2, ?_⟩
    by_cases h0 : Nat.find hex = 0
    · exact Or.inl h0
    · right
      intro he
      have := Nat.find_min hex (m := Nat.find hex - 1) (by omega)
      apply this
      refine ⟨by have := (Nat.find_spec hex).1; omega, fun j hj1 hj2 => ?_⟩
      by_cases hj : j = Nat.find hex - 1
      · rw [hj]; exact he
      · exact (Nat.find_spec hex).2 j (by omega) hj2
  have h2 : ∃ b, i < b ∧ labels[b]? ≠ some labels[i] :=
    ⟨labels.length, hi, by rw [List.getElem?_eq_none le_rfl]; simp⟩
  obtain ⟨a, ha, hain, hab⟩ := h1
  have hb := Nat.find_spec h2
  have hbin : ∀ j, i ≤ j → j < Nat.find h2 → labels[j]? = some labels[i] := by
    intro j h1 h3
    by_cases hj : j = i
    · rw [hj, List.getElem?_eq_getElem hi]
    · by_contra hne
      exact Nat.find_min h2 h3 ⟨by omega, hne⟩
  refine ⟨a, Nat.find h2, ⟨by omega, ?_, ?_, hab, hb.2⟩, ha, hb.1⟩
  · exact Nat.find_min' h2 ⟨hi, by rw [List.getElem?_eq_none le_rfl]; simp⟩
  · intro j h3 h4
    by_cases hj : j ≤ i
    · exact hain j h3 hj
    · exact hbin j (by omega) h4

omit [DecidableEq L] in
/-- The two runs of a label that are not the same do not touch. -/
theorem run_order (labels : List L) (c : L) (a b a' b' : ℕ) (h : IsRun labels c a b) (h' : IsRun labels c a' b')
    (hlt : a < a') : b < a' := by
  by_contra hge
  push Not at hge
  have h1 := h'.lt
  have h2 := h'.before
  rcases h2 with h2 | h2
  · omega
  · exact h2 (h.inside (a' - 1) (by omega) (by omega))

omit [DecidableEq L] in
theorem run_unique_start (labels : List L) (c : L) (a b b' : ℕ) (h : IsRun labels c a b) (h' : IsRun labels c a b') :
    b = b' := by
  rcases lt_trichotomy b b' with hlt | he | hlt
  · exact absurd (h'.inside b (by have := h.lt; omega) hlt) h.after
  · exact he
  · exact absurd (h.inside b' (by have := h'.lt; omega) hlt) h'.after

/-- The loop of `get_outer_boundaries` over regions in order. -/
theorem outerLoop_eq (s e : ℕ) (hse : s < e) (rs : List (ℕ × ℕ)) (hlt : ∀ r ∈ rs, r.1 < r.2)
    (hs : rs.Pairwise fun x y => x.2 < y.1) (f0 l0 : ℕ) :
    let r := outerLoop s e rs (f0, l0)
    ((∃ x, (x, s) ∈ rs ∧ r.1 = x) ∨ ((∀ x, (x, s) ∉ rs) ∧ r.1 = f0)) ∧
    ((∃ y, (e, y) ∈ rs ∧ r.2 = y) ∨ ((∀ y, (e, y) ∉ rs) ∧ r.2 = l0)) := by
  induction rs generalizing f0 with
  | nil => simp [outerLoop]
  | cons r rs ih =>
    obtain ⟨a, b⟩ := r
    have hab := hlt (a, b) (by simp)
    have hr := (List.pairwise_cons.mp hs).1
    simp only at hab hr
    have hlt' : ∀ r ∈ rs, r.1 < r.2 := fun r hr => hlt r (by simp [hr])
    by_cases he : a = e
    · subst he
      have hbs : b ≠ s := by omega
      simp only [outerLoop, if_neg hbs, if_true]
      constructor
      · right
        refine ⟨fun x hx => ?_, trivial⟩
        rcases List.mem_cons.mp hx with h | h
        · have := (Prod.mk.inj h).2; omega
        · have h1 := hr (x, s) h
          have h2 := hlt' (x, s) h
          simp only at h1 h2
          omega
      · exact Or.inl ⟨b, by simp, rfl⟩
    · have ih := ih hlt' (List.pairwise_cons.mp hs).2 (if b = s then a else f0)
      simp only [outerLoop, if_neg he]
      obtain ⟨i1, i2⟩ := ih
      constructor
      · rcases i1 with ⟨x, hx, hx2⟩ | ⟨hx, hx2⟩
        · exact Or.inl ⟨x, by simp [hx], hx2⟩
        · by_cases hb : b = s
          · subst hb
            rw [if_pos rfl] at hx2
            exact Or.inl ⟨a, by simp, by rw [if_pos rfl]; exact hx2⟩
          · rw [if_neg hb] at hx2
            right
            refine ⟨fun x hm => ?_, by rw [if_neg hb]; exact hx2⟩
            rcases List.mem_cons.mp hm with h | h
            · exact hb (Prod.mk.inj h).2.symm
            · exact hx x h
      · rcases i2 with ⟨y, hy, hy2⟩ | ⟨hy, hy2⟩
        · exact Or.inl ⟨y, by simp [hy], hy2⟩
        · right
          refine ⟨fun y hm => ?_, hy2⟩
          rcases List.mem_cons.mp hm with h | h
          · exact he (Prod.mk.inj h).1.symm
          · exact hy y h

end Regions

end Splitting

end Verif
