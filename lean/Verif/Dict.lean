import Verif.Py
import Mathlib.Algebra.BigOperators.Group.List.Basic
import Mathlib.Data.List.Nodup

/-!
# Python dictionaries

An insertion-ordered association list.  `set` overwrites in place or appends, as a Python `dict` does.
-/

namespace Verif

/-- A Python `dict` with keys `κ` and values `ν`, in insertion order. -/
abbrev PyDict (κ ν : Type) := List (κ × ν)

namespace PyDict

variable {κ ν : Type} [DecidableEq κ]

/-- `d.get(k)`. -/
def get? : PyDict κ ν → κ → Option ν
  | [], _ => none
  | (k', v) :: d, k => if k' = k then some v else get? d k

/-- `d[k]`: raises `KeyError` if missing. -/
def getE (d : PyDict κ ν) (k : κ) : Py ν :=
  match get? d k with
  | some v => .ok v
  | none => .error .keyError

/-- `d[k] = v`: overwrites in place if present, else appends. -/
def set : PyDict κ ν → κ → ν → PyDict κ ν
  | [], k, v => [(k, v)]
  | (k', v') :: d, k, v => if k' = k then (k', v) :: d else (k', v') :: set d k v

/-- `del d[k]`, ignoring a missing key. -/
def erase : PyDict κ ν → κ → PyDict κ ν
  | [], _ => []
  | (k', v') :: d, k => if k' = k then d else (k', v') :: erase d k

/-- `d.keys()`. -/
def keys (d : PyDict κ ν) : List κ := d.map Prod.fst

/-- `d.values()`. -/
def values (d : PyDict κ ν) : List ν := d.map Prod.snd

omit [DecidableEq κ] in
@[simp] theorem keys_nil : keys ([] : PyDict κ ν) = [] := rfl
omit [DecidableEq κ] in
@[simp] theorem keys_cons (k : κ) (v : ν) (d : PyDict κ ν) :
    keys ((k, v) :: d) = k :: keys d := rfl
omit [DecidableEq κ] in
@[simp] theorem values_nil : values ([] : PyDict κ ν) = [] := rfl
omit [DecidableEq κ] in
@[simp] theorem values_cons (k : κ) (v : ν) (d : PyDict κ ν) :
    values ((k, v) :: d) = v :: values d := rfl

theorem get?_eq_none {d : PyDict κ ν} {k : κ} : get? d k = none ↔ k ∉ keys d := by
  induction d with
  | nil => simp [get?]
  | cons p d ih =>
    obtain ⟨k', v⟩ := p
    by_cases h : k' = k
    · simp [get?, h]
    · simp [get?, h, ih, Ne.symm h]

theorem get?_isSome {d : PyDict κ ν} {k : κ} : (∃ v, get? d k = some v) ↔ k ∈ keys d := by
  rw [← not_iff_not, ← get?_eq_none]
  cases get? d k <;> simp

theorem get?_set_self (d : PyDict κ ν) (k : κ) (v : ν) : get? (set d k v) k = some v := by
  induction d with
  | nil => simp [set, get?]
  | cons p d ih =>
    obtain ⟨k', v'⟩ := p
    by_cases h : k' = k
    · simp [set, get?, h]
    · simp [set, get?, h, ih]

theorem get?_set_other (d : PyDict κ ν) {k j : κ} (v : ν) (hjk : j ≠ k) :
    get? (set d k v) j = get? d j := by
  induction d with
  | nil => simp [set, get?, hjk.symm]
  | cons p d ih =>
    obtain ⟨k', v'⟩ := p
    by_cases h : k' = k
    · subst h
      simp [set, get?, hjk.symm]
    · simp only [set, h, if_false, get?, ih]

theorem keys_set_of_mem {d : PyDict κ ν} {k : κ} (v : ν) (h : k ∈ keys d) :
    keys (set d k v) = keys d := by
  induction d with
  | nil => simp at h
  | cons p d ih =>
    obtain ⟨k', v'⟩ := p
    by_cases hk : k' = k
    · simp [set, hk]
    · have : k ∈ keys d := by
        simpa [Ne.symm hk] using h
      simp [set, hk, ih this]

theorem keys_set_of_not_mem {d : PyDict κ ν} {k : κ} (v : ν) (h : k ∉ keys d) :
    keys (set d k v) = keys d ++ [k] := by
  induction d with
  | nil => simp [set]
  | cons p d ih =>
    obtain ⟨k', v'⟩ := p
    simp only [keys_cons, List.mem_cons, not_or] at h
    simp [set, Ne.symm h.1, ih h.2]

theorem mem_keys_set {d : PyDict κ ν} {k j : κ} {v : ν} :
    j ∈ keys (set d k v) ↔ j = k ∨ j ∈ keys d := by
  by_cases h : k ∈ keys d
  · rw [keys_set_of_mem v h]
    constructor
    · exact Or.inr
    · rintro (rfl | h') <;> assumption
  · rw [keys_set_of_not_mem v h]
    simp [or_comm]

theorem nodup_keys_set {d : PyDict κ ν} {k : κ} {v : ν} (h : (keys d).Nodup) :
    (keys (set d k v)).Nodup := by
  by_cases hk : k ∈ keys d
  · rwa [keys_set_of_mem v hk]
  · rw [keys_set_of_not_mem v hk, List.nodup_append]
    refine ⟨h, by simp, ?_⟩
    intro a ha b hb
    simp only [List.mem_singleton] at hb
    rintro rfl
    exact hk (hb ▸ ha)

/-- Replacing the value `v` of an existing key by `v + w` adds `w` to the sum of the values. -/
theorem sum_values_set {d : PyDict κ ℝ} {k : κ} {v : ℝ} (h : get? d k = some v) (w : ℝ) :
    (values (set d k (v + w))).sum = (values d).sum + w := by
  induction d with
  | nil => simp [get?] at h
  | cons p d ih =>
    obtain ⟨k', v'⟩ := p
    by_cases hk : k' = k
    · simp only [get?, hk, if_true, Option.some.injEq] at h
      subst h
      simp [set, hk]
      ring
    · simp only [get?, hk, if_false] at h
      simp [set, hk, ih h]
      ring

theorem sum_values_set_new {d : PyDict κ ℝ} {k : κ} (h : get? d k = none) (w : ℝ) :
    (values (set d k w)).sum = (values d).sum + w := by
  induction d with
  | nil => simp [set]
  | cons p d ih =>
    obtain ⟨k', v'⟩ := p
    by_cases hk : k' = k
    · simp [get?, hk] at h
    · simp only [get?, hk, if_false] at h
      simp [set, hk, ih h]
      ring

theorem mem_of_get? {d : PyDict κ ν} {k : κ} {v : ν} (h : get? d k = some v) : (k, v) ∈ d := by
  induction d with
  | nil => simp [get?] at h
  | cons p d ih =>
    obtain ⟨k', v'⟩ := p
    by_cases hk : k' = k
    · simp only [get?, hk, if_true, Option.some.injEq] at h
      simp [hk, h]
    · simp only [get?, hk, if_false] at h
      exact List.mem_cons_of_mem _ (ih h)

theorem get?_of_mem {d : PyDict κ ν} (hd : (keys d).Nodup) {k : κ} {v : ν} (h : (k, v) ∈ d) :
    get? d k = some v := by
  induction d with
  | nil => simp at h
  | cons p d ih =>
    obtain ⟨k', v'⟩ := p
    simp only [keys_cons, List.nodup_cons] at hd
    rcases List.mem_cons.mp h with h | h
    · simp only [Prod.mk.injEq] at h
      simp [get?, h.1, h.2]
    · have : k' ≠ k := by
        rintro rfl
        exact hd.1 (List.mem_map.mpr ⟨_, h, rfl⟩)
      simp [get?, this, ih hd.2 h]

theorem mem_set {d : PyDict κ ν} {k : κ} {v : ν} {p : κ × ν} (h : p ∈ set d k v) :
    p = (k, v) ∨ p ∈ d := by
  induction d with
  | nil =>
    left
    simpa [set] using h
  | cons q d ih =>
    obtain ⟨k', v'⟩ := q
    by_cases hk : k' = k
    · simp only [set, hk, if_true, List.mem_cons] at h
      rcases h with h | h
      · exact Or.inl h
      · exact Or.inr (List.mem_cons_of_mem _ h)
    · simp only [set, hk, if_false, List.mem_cons] at h
      rcases h with h | h
      · exact Or.inr (by simp [h])
      · rcases ih h with h | h
        · exact Or.inl h
        · exact Or.inr (List.mem_cons_of_mem _ h)

theorem set_comm {d : PyDict κ ν} {k j : κ} (u v : ν) (hkj : k ≠ j) (hk : k ∈ keys d) (hj : j ∈ keys d) :
    set (set d k u) j v = set (set d j v) k u := by
  induction d with
  | nil => simp at hk
  | cons p d ih =>
    obtain ⟨k', v'⟩ := p
    by_cases h1 : k' = k
    · subst h1
      simp [set, hkj]
    · by_cases h2 : k' = j
      · subst h2
        simp [set, h1]
      · simp only [keys_cons, List.mem_cons, Ne.symm h1, Ne.symm h2, false_or] at hk hj
        simp [set, h1, h2, ih hk hj]

theorem set_set (d : PyDict κ ν) (k : κ) (u v : ν) : set (set d k u) k v = set d k v := by
  induction d with
  | nil => simp [set]
  | cons p d ih =>
    obtain ⟨k', v'⟩ := p
    by_cases h : k' = k
    · simp [set, h]
    · simp [set, h, ih]

theorem getE_ok {d : PyDict κ ν} {k : κ} {v : ν} : getE d k = .ok v ↔ get? d k = some v := by
  unfold getE
  cases get? d k <;> simp

omit [DecidableEq κ] in
theorem length_keys (d : PyDict κ ν) : (keys d).length = d.length := by simp [keys]

/-- Two dictionaries with the same duplicate-free keys in the same order and the same lookups are equal. -/
theorem ext_of_keys {d e : PyDict κ ν} (hd : (keys d).Nodup) (hk : keys d = keys e)
    (h : ∀ k ∈ keys d, get? d k = get? e k) : d = e := by
  induction d generalizing e with
  | nil =>
    cases e with
    | nil => rfl
    | cons p e =>
      obtain ⟨_, _⟩ := p
      simp at hk
  | cons p d ih =>
    obtain ⟨k, v⟩ := p
    cases e with
    | nil => simp at hk
    | cons q e =>
      obtain ⟨k', v'⟩ := q
      simp only [keys_cons, List.cons.injEq] at hk
      obtain ⟨rfl, hk⟩ := hk
      simp only [keys_cons, List.nodup_cons] at hd
      have h1 := h k (by simp)
      simp only [get?, if_true, Option.some.injEq] at h1
      subst h1
      rw [ih hd.2 hk]
      intro j hj
      have h2 := h j (by simp [hj])
      have hne : k ≠ j := by
        rintro rfl
        exact hd.1 hj
      simpa [get?, hne] using h2

end PyDict

end Verif
