import Verif.Model.Params
import Verif.Proofs.Strings
import Mathlib.Data.List.Forall2

/-!
# Lemmas on parameter sets
-/

namespace Verif

namespace PyDict

variable {κ ν : Type} [DecidableEq κ]

theorem keys_erase_sublist (d : PyDict κ ν) (k : κ) : (keys (erase d k)).Sublist (keys d) := by
  induction d with
  | nil => exact List.Sublist.refl _
  | cons a d ih =>
    obtain ⟨k', v'⟩ := a
    rw [erase]
    by_cases h : k' = k
    · rw [if_pos h]; exact List.sublist_cons_self _ _
    · rw [if_neg h]; exact List.Sublist.cons_cons _ ih

theorem nodup_keys_erase {d : PyDict κ ν} (h : (keys d).Nodup) (k : κ) : (keys (erase d k)).Nodup :=
  h.sublist (keys_erase_sublist d k)

theorem get?_erase {d : PyDict κ ν} (h : (keys d).Nodup) (k j : κ) :
    get? (erase d k) j = if j = k then none else get? d j := by
  induction d with
  | nil => simp [erase, get?]
  | cons a d ih =>
    obtain ⟨k', v'⟩ := a
    rw [keys_cons, List.nodup_cons] at h
    rw [erase]
    by_cases hk : k' = k
    · subst hk
      rw [if_pos rfl]
      by_cases hj : j = k'
      · subst hj
        rw [if_pos rfl, get?_eq_none]; exact h.1
      · rw [if_neg hj, get?, if_neg (fun e => hj e.symm)]
    · rw [if_neg hk, get?]
      by_cases hj : k' = j
      · subst hj
        rw [if_pos rfl, if_neg hk, get?, if_pos rfl]
      · rw [if_neg hj, ih h.2, get?, if_neg hj]

theorem get?_set (d : PyDict κ ν) (k j : κ) (v : ν) : get? (set d k v) j = if j = k then some v else get? d j := by
  by_cases h : j = k
  · subst h; rw [if_pos rfl, get?_set_self]
  · rw [if_neg h, get?_set_other d v h]

end PyDict

namespace Params
open PyDict

section Keys
variable {K V : Type} [LinearOrder K]

theorem mem_sortKeys {l : List K} {k : K} : k ∈ sortKeys l ↔ k ∈ l := by
  rw [sortKeys, List.mem_mergeSort]

theorem sorted_sortKeys {l : List K} (h : l.Nodup) : (sortKeys l).Pairwise (· < ·) := by
  have hs : (sortKeys l).Pairwise (· ≤ ·) := by
    have := List.pairwise_mergeSort (le := fun a b : K => decide (a ≤ b)) (by simpa using fun a b c => le_trans)
      (by simpa using fun a b => le_total a b) l
    simpa [sortKeys] using this
  have hn : (sortKeys l).Nodup := (List.mergeSort_perm l _).nodup_iff.2 h
  exact (hs.and hn).imp fun h => lt_of_le_of_ne h.1 h.2

/-- One step of the counting loop. -/
def bump (c : PyDict K ℕ) (k : K) : PyDict K ℕ := c.set k (1 + (c.get? k).getD 0)

theorem countKeys_eq (ps : List (PyDict K V)) : countKeys ps = (ps.flatMap keys).foldl bump [] := by
  rw [countKeys]
  generalize ([] : PyDict K ℕ) = c
  induction ps generalizing c with
  | nil => rfl
  | cons p ps ih => rw [List.foldl_cons, List.flatMap_cons, List.foldl_append, ih]; rfl

theorem foldl_bump (l : List K) (c : PyDict K ℕ) (hc : (keys c).Nodup) :
    (keys (l.foldl bump c)).Nodup ∧ (∀ k, k ∈ keys (l.foldl bump c) ↔ k ∈ keys c ∨ k ∈ l) ∧
    ∀ k, ((l.foldl bump c).get? k).getD 0 = (c.get? k).getD 0 + l.count k := by
  induction l generalizing c with
  | nil => simp [hc]
  | cons a l ih =>
    obtain ⟨h1, h2, h3⟩ := ih (bump c a) (nodup_keys_set hc)
    refine ⟨h1, fun k => ?_, fun k => ?_⟩
    · rw [List.foldl_cons, h2, bump, mem_keys_set, List.mem_cons]
      tauto
    · rw [List.foldl_cons, h3, bump, get?_set, List.count_cons]
      by_cases hk : k = a
      · subst hk; simp; omega
      · have hk' : ¬ a = k := fun e => hk e.symm
        simp [hk, hk']

theorem count_flatMap_keys (ps : List (PyDict K V)) (h : ∀ p ∈ ps, (keys p).Nodup) (k : K) :
    (ps.flatMap keys).count k = ps.countP (fun p => k ∈ keys p) := by
  induction ps with
  | nil => rfl
  | cons p ps ih =>
    rw [List.flatMap_cons, List.count_append, ih fun q hq => h q (List.mem_cons_of_mem _ hq), List.countP_cons]
    have := h p (by simp)
    by_cases hk : k ∈ keys p
    · rw [List.count_eq_one_of_mem this hk]; simp [hk]; omega
    · rw [List.count_eq_zero_of_not_mem hk]; simp [hk]

theorem foldl_filter_keys (ps : List (PyDict K V)) (l : List K) (k : K) :
    k ∈ ps.foldl (fun keys q => keys.filter (· ∈ PyDict.keys q)) l ↔ k ∈ l ∧ ∀ p ∈ ps, k ∈ PyDict.keys p := by
  induction ps generalizing l with
  | nil => simp
  | cons p ps ih =>
    rw [List.foldl_cons, ih]
    simp only [List.mem_filter, decide_eq_true_eq, List.mem_cons, forall_eq_or_imp]
    tauto

theorem foldl_filter_nodup (ps : List (PyDict K V)) (l : List K) (h : l.Nodup) :
    (ps.foldl (fun keys q => keys.filter (· ∈ PyDict.keys q)) l).Nodup := by
  induction ps generalizing l with
  | nil => exact h
  | cons p ps ih => exact ih _ (h.filter _)

theorem popUnequal_spec [DecidableEq V] (sh p : PyDict K V) (hs : (keys sh).Nodup) :
    (keys (popUnequal sh p)).Nodup ∧ ∀ k v, (popUnequal sh p).get? k = some v ↔
      sh.get? k = some v ∧ ∀ v', (k, v') ∈ p → v' = v := by
  rw [popUnequal]
  induction p generalizing sh with
  | nil => simp [hs]
  | cons a p ih =>
    obtain ⟨j, u⟩ := a
    rw [List.foldl_cons]
    simp only
    cases hj : sh.get? j with
    | none =>
      obtain ⟨h1, h2⟩ := ih sh hs
      refine ⟨h1, fun k v => ?_⟩
      rw [h2]
      constructor
      · rintro ⟨ha, hb⟩
        refine ⟨ha, fun v' hv' => ?_⟩
        rcases List.mem_cons.1 hv' with e | e
        · cases e; rw [hj] at ha; cases ha
        · exact hb v' e
      · rintro ⟨ha, hb⟩
        exact ⟨ha, fun v' hv' => hb v' (List.mem_cons_of_mem _ hv')⟩
    | some w =>
      by_cases hw : w = u
      · subst hw
        simp only [ne_eq, not_true, if_false]
        obtain ⟨h1, h2⟩ := ih sh hs
        refine ⟨h1, fun k v => ?_⟩
        rw [h2]
        constructor
        · rintro ⟨ha, hb⟩
          refine ⟨ha, fun v' hv' => ?_⟩
          rcases List.mem_cons.1 hv' with e | e
          · cases e; rw [hj] at ha; exact Option.some.inj ha
          · exact hb v' e
        · rintro ⟨ha, hb⟩
          exact ⟨ha, fun v' hv' => hb v' (List.mem_cons_of_mem _ hv')⟩
      · simp only [ne_eq, hw, not_false_iff, if_true]
        obtain ⟨h1, h2⟩ := ih (sh.erase j) (nodup_keys_erase hs j)
        refine ⟨h1, fun k v => ?_⟩
        rw [h2, get?_erase hs]
        constructor
        · rintro ⟨ha, hb⟩
          by_cases hk : k = j
          · rw [if_pos hk] at ha; cases ha
          · rw [if_neg hk] at ha
            refine ⟨ha, fun v' hv' => ?_⟩
            rcases List.mem_cons.1 hv' with e | e
            · cases e; exact absurd rfl hk
            · exact hb v' e
        · rintro ⟨ha, hb⟩
          by_cases hk : k = j
          · subst hk
            have := hb u (by simp)
            rw [hj] at ha
            exact absurd ((Option.some.inj ha).trans this.symm) hw
          · rw [if_neg hk]
            exact ⟨ha, fun v' hv' => hb v' (List.mem_cons_of_mem _ hv')⟩

theorem foldl_popUnequal [DecidableEq V] (ps : List (PyDict K V)) (sh : PyDict K V) (hs : (keys sh).Nodup) :
    (keys (ps.foldl popUnequal sh)).Nodup ∧ ∀ k v, (ps.foldl popUnequal sh).get? k = some v ↔
      sh.get? k = some v ∧ ∀ p ∈ ps, ∀ v', (k, v') ∈ p → v' = v := by
  induction ps generalizing sh with
  | nil => simp [hs]
  | cons p ps ih =>
    obtain ⟨h1, h2⟩ := popUnequal_spec sh p hs
    obtain ⟨h3, h4⟩ := ih (popUnequal sh p) h1
    refine ⟨h3, fun k v => ?_⟩
    rw [List.foldl_cons, h4, h2]
    simp only [List.mem_cons, forall_eq_or_imp]
    tauto

theorem get?_filter_keys (p : PyDict K V) (f : K → Bool) (k : K) :
    get? (p.filter fun kv => f kv.1) k = if f k then get? p k else none := by
  induction p with
  | nil => simp [get?]
  | cons a p ih =>
    obtain ⟨j, u⟩ := a
    rw [List.filter_cons]
    by_cases hf : f j = true
    · rw [if_pos hf, get?, get?]
      by_cases hj : j = k
      · subst hj; simp [hf]
      · rw [if_neg hj, ih, if_neg hj]
    · rw [if_neg hf, ih, get?]
      by_cases hj : j = k
      · subst hj; simp [hf]
      · rw [if_neg hj]

end Keys

section Groups
variable {L P : Type} [DecidableEq L]

theorem get?_appendTo (g : PyDict L (List P)) (k : L) (p : P) (j : L) :
    get? (appendTo g k p) j = if j = k then some ((get? g k).getD [] ++ [p]) else get? g j := by
  rw [appendTo]
  cases h : get? g k with
  | none => simp only [get?_set]; simp
  | some l => simp only [get?_set]; simp

/-- Grouping by a label: each group is the list of the elements with this label. -/
theorem get?_group (f : P → L) (ps : List P) (g : PyDict L (List P)) (j : L) :
    get? (ps.foldl (fun g p => appendTo g (f p) p) g) j =
      if ps.filter (fun p => f p = j) = [] then get? g j
      else some ((get? g j).getD [] ++ ps.filter fun p => f p = j) := by
  induction ps generalizing g with
  | nil => simp
  | cons p ps ih =>
    rw [List.foldl_cons, ih, get?_appendTo, List.filter_cons]
    by_cases hj : j = f p
    · subst hj
      simp
    · have hj' : ¬ f p = j := fun e => hj e.symm
      simp [hj, hj']

end Groups

end Params
end Verif
