import Verif.Model.LogText
import Verif.Proofs.LogData
import Verif.Proofs.Structures
import Mathlib.Algebra.Order.Field.Basic
import Mathlib.Tactic.FieldSimp
import Mathlib.Tactic.Linarith

/-!
# C98: lines of log files and small numeric utilities
-/

namespace Verif

open Str Jobs LogData LogText

/-! ### Comments and headers -/

/-- **C98 (comments).** `skip_comments` gives the comments at the beginning and leaves the file at the first other line; it raises exactly if
there is none. -/
theorem C98_skip_comments (ls : List Str) :
    skipComments [] ls ls =
      if ∀ l ∈ ls, l.head? = some '#' then none
      else some (ls.takeWhile (fun l => l.head? = some '#'), ls.dropWhile fun l => l.head? = some '#') := by
  have key : ∀ (ls cs : List Str), skipComments cs ls ls =
      if ∀ l ∈ ls, l.head? = some '#' then none
      else some (cs ++ ls.takeWhile (fun l => l.head? = some '#'), ls.dropWhile fun l => l.head? = some '#') := by
    intro ls
    induction ls with
    | nil => intro cs; simp [skipComments]
    | cons l ls ih =>
      intro cs
      rw [skipComments]
      by_cases h : l.head? = some '#'
      · rw [if_pos h, ih]
        by_cases ha : ∀ l ∈ ls, l.head? = some '#'
        · rw [if_pos ha, if_pos (by simpa [h] using ha)]
        · rw [if_neg ha, if_neg (by
            intro hc
            exact ha fun x hx => hc x (by simp [hx]))]
          simp [h]
      · rw [if_neg h, if_neg (by
          intro hc
          exact h (hc l (by simp)))]
        simp [h]
  exact key ls []

example : skipComments [] ["# a\n".toList, "#b\n".toList, "x y\n".toList, "# c\n".toList]
    ["# a\n".toList, "#b\n".toList, "x y\n".toList, "# c\n".toList] =
    some (["# a\n".toList, "#b\n".toList], ["x y\n".toList, "# c\n".toList]) := by decide +kernel

/-- **C98 (columns).** `get_header_indices` gives for every header the last column with that header; without file it raises TypeError. -/
theorem C98_header_indices (w : World) (f : Str) :
    (w.files f = none → getHeaderIndices w f = .error .typeError) ∧
    ∀ hs, getHeaderList w f false = some hs → ∃ d, getHeaderIndices w f = .ok d ∧
      ∀ h i, d.get? h = some i ↔ hs[i]? = some h ∧ ∀ j, i < j → hs[j]? ≠ some h := by
  constructor
  · intro h
    rw [getHeaderIndices, getHeaderList, h]
  · intro hs hh
    refine ⟨getIndices hs, by rw [getHeaderIndices, hh], ?_⟩
    intro h i
    rw [getIndices]
    have key : ∀ (l : List Str) (n : ℕ) (d : PyDict Str ℕ) (i : ℕ),
        ((l.zipIdx n).foldl (fun (d : PyDict Str ℕ) hi => d.set hi.1 hi.2) d).get? h = some i ↔
          (∃ j, i = n + j ∧ l[j]? = some h ∧ ∀ k, j < k → l[k]? ≠ some h) ∨ (h ∉ l ∧ d.get? h = some i) := by
      intro l
      induction l with
      | nil => intro n d i; simp
      | cons x l ih =>
        intro n d i
        rw [List.zipIdx_cons, List.foldl_cons, ih]
        have hmem : h ∈ l ↔ ∃ k, l[k]? = some h := List.mem_iff_getElem?
        constructor
        · rintro (⟨j, rfl, h1, h2⟩ | ⟨h1, h2⟩)
          · left
            refine ⟨j + 1, by omega, by simpa using h1, ?_⟩
            intro k hk
            cases k with
            | zero => omega
            | succ k => simpa using h2 k (by omega)
          · by_cases hx : h = x
            · subst hx
              rw [PyDict.get?_set_self] at h2
              left
              refine ⟨0, by simpa using h2.symm, by simp, ?_⟩
              intro k hk
              cases k with
              | zero => omega
              | succ k =>
                rw [List.getElem?_cons_succ]
                intro hc
                exact h1 (hmem.mpr ⟨k, hc⟩)
            · rw [PyDict.get?_set_other _ _ hx] at h2
              right
              exact ⟨by simp [hx, h1], h2⟩
        · rintro (⟨j, rfl, h1, h2⟩ | ⟨h1, h2⟩)
          · cases j with
            | zero =>
              have hx : x = h := by simpa using h1
              subst hx
              right
              refine ⟨?_, by rw [PyDict.get?_set_self]; rfl⟩
              intro hc
              obtain ⟨k, hk⟩ := hmem.mp hc
              exact h2 (k + 1) (by omega) (by simpa using hk)
            | succ j =>
              left
              refine ⟨j, by omega, by simpa using h1, ?_⟩
              intro k hk
              have := h2 (k + 1) (by omega)
              simpa using this
          · simp only [List.mem_cons, not_or] at h1
            right
            exact ⟨h1.2, by rw [PyDict.get?_set_other _ _ h1.1]; exact h2⟩
    have := key hs 0 [] i
    simp only [PyDict.get?, reduceCtorEq, and_false, or_false, zero_add] at this
    rw [this]
    constructor
    · rintro ⟨j, rfl, h1, h2⟩
      exact ⟨h1, h2⟩
    · rintro ⟨h1, h2⟩
      exact ⟨i, rfl, h1, h2⟩

/-! ### Values of a line -/

section Format

variable {F : Type} (pyInt : Str → Option ℤ) (pyFloat : Str → Option F)

theorem LogText.strip_ends {s : Str} (hh : ∀ c ∈ s.head?, isSpace c = false) (hl : ∀ c ∈ s.getLast?, isSpace c = false) (hne : s ≠ []) :
    strip s = s ∧ strip (s ++ ['\n']) = s := by
  have hl' : ∀ c ∈ s.reverse.head?, isSpace c = false := fun c hc => hl c (by rwa [List.head?_reverse] at hc)
  have hh' : ∀ c ∈ (s ++ ['\n']).head?, isSpace c = false := by
    intro c hc
    rw [List.head?_append_of_ne_nil _ hne] at hc
    exact hh c hc
  constructor
  · rw [strip, dropWhile_of_head hh, dropWhile_of_head hl', List.reverse_reverse]
  · rw [strip, dropWhile_of_head hh', List.reverse_append, List.reverse_singleton, List.singleton_append,
      List.dropWhile_cons_of_pos (by decide), dropWhile_of_head hl', List.reverse_reverse]

theorem LogText.join_ends {ws : List Str} (hne : ws ≠ []) (h : ∀ t ∈ ws, t ≠ [] ∧ ∀ c ∈ t, isSpace c = false) :
    (∀ c ∈ (join ' ' ws).head?, isSpace c = false) ∧ (∀ c ∈ (join ' ' ws).getLast?, isSpace c = false) ∧ join ' ' ws ≠ [] := by
  have h1 : ∀ c ∈ (join ' ' ws).head?, isSpace c = false := by
    obtain ⟨u, us, rfl⟩ := List.exists_cons_of_ne_nil hne
    intro c hc
    obtain ⟨hu, hs⟩ := h u (by simp)
    by_cases he : us = []
    · subst he
      exact hs c (List.mem_of_mem_head? hc)
    · rw [join_cons he, List.head?_append_of_ne_nil _ hu] at hc
      exact hs c (List.mem_of_mem_head? hc)
  obtain ⟨vs, v, rfl⟩ : ∃ vs v, ws = vs ++ [v] := ⟨ws.dropLast, ws.getLast hne, (List.dropLast_append_getLast hne).symm⟩
  obtain ⟨hv, hs⟩ := h v (by simp)
  by_cases he : vs = []
  · subst he
    refine ⟨h1, ?_, hv⟩
    intro c hc
    exact hs c (List.mem_of_getLast? hc)
  · refine ⟨h1, ?_, ?_⟩
    · intro c hc
      rw [Structures.join_append_singleton he, show join ' ' vs ++ ' ' :: v = (join ' ' vs ++ [' ']) ++ v by simp,
        List.getLast?_append_of_ne_nil _ hv] at hc
      exact hs c (List.mem_of_getLast? hc)
    · rw [Structures.join_append_singleton he]
      simp

theorem LogText.strip_line {ws : List Str} (hne : ws ≠ []) (h : ∀ t ∈ ws, t ≠ [] ∧ ∀ c ∈ t, isSpace c = false) :
    strip (join ' ' ws ++ ['\n']) = join ' ' ws :=
  have ⟨h1, h2, h3⟩ := join_ends hne h
  (strip_ends h1 h2 h3).2

/-- **C98 (values).** From a line of words separated by single blanks `get_formatted_data` gives the values of the words in the columns asked
for, counted from the end if negative, and a blank for `None`; without columns all of them.  A column that does not exist
raises IndexError. -/
theorem C98_formatted_data (ws : List Str) (hne : ws ≠ []) (h : ∀ t ∈ ws, t ≠ [] ∧ ∀ c ∈ t, isSpace c = false) :
    getFormattedData pyInt pyFloat (join ' ' ws ++ ['\n']) none = .ok (ws.map (datum pyInt pyFloat)) ∧
    (∀ cs : List (Option ℤ), (∀ i, some i ∈ cs → -(ws.length : ℤ) ≤ i ∧ i < ws.length) →
      getFormattedData pyInt pyFloat (join ' ' ws ++ ['\n']) (some cs) = .ok (cs.map fun c =>
        match c with
        | none => datum pyInt pyFloat [' ']
        | some i => datum pyInt pyFloat (ws.getD (i % ws.length).toNat []))) ∧
    (∀ cs : List (Option ℤ), (∃ i, some i ∈ cs ∧ (i < -(ws.length : ℤ) ∨ (ws.length : ℤ) ≤ i)) →
      getFormattedData pyInt pyFloat (join ' ' ws ++ ['\n']) (some cs) = .error .indexError) := by
  have hsp : split ' ' (strip (join ' ' ws ++ ['\n'])) = ws := by
    rw [strip_line hne h]
    refine split_join hne ?_
    intro p hp hc
    have := (h p hp).2 ' ' hc
    revert this
    decide
  have hlen : 0 < ws.length := List.length_pos_of_ne_nil hne
  have hidx : ∀ i : ℤ, -(ws.length : ℤ) ≤ i → i < ws.length → pyIdx ws i = .ok (ws.getD (i % ws.length).toNat []) := by
    intro i h1 h2
    rw [pyIdx]
    by_cases h0 : 0 ≤ i
    · rw [if_pos h0, Int.emod_eq_of_lt h0 h2]
      have hl : i.toNat < ws.length := by omega
      simp [pyGet, hl]
    · rw [if_neg h0, if_pos (by omega)]
      have e : i % ws.length = ws.length + i := by
        rw [← Int.add_emod_left, Int.emod_eq_of_lt (by omega) (by omega)]
      rw [e]
      have hl : ((ws.length : ℤ) + i).toNat < ws.length := by omega
      simp [pyGet, hl]
  have hgood : ∀ cs : List (Option ℤ), (∀ i, some i ∈ cs → -(ws.length : ℤ) ≤ i ∧ i < ws.length) →
      formatLoop pyInt pyFloat ws cs = .ok (cs.map fun c =>
        match c with
        | none => datum pyInt pyFloat [' ']
        | some i => datum pyInt pyFloat (ws.getD (i % ws.length).toNat [])) := by
    intro cs
    induction cs with
    | nil => intro _; rfl
    | cons c cs ih =>
      intro hc
      have := ih fun i hi => hc i (by simp [hi])
      cases c with
      | none => simp only [formatLoop, this, ok_bind, pure_eq_ok]; rfl
      | some i =>
        obtain ⟨h1, h2⟩ := hc i (by simp)
        simp only [formatLoop, hidx i h1 h2, this, ok_bind, pure_eq_ok]
        rfl
  refine ⟨?_, ?_, ?_⟩
  · rw [getFormattedData, hsp, Option.getD_none, hgood]
    · rw [List.map_map]
      congr 1
      apply List.ext_getElem
      · simp
      · intro i h1 h2
        have hi : i < ws.length := by simpa using h1
        simp only [List.getElem_map, List.getElem_range, Function.comp]
        rw [Int.emod_eq_of_lt (by omega) (by omega)]
        simp [hi]
    · intro i hi
      simp only [List.mem_map, List.mem_range, Option.some.injEq] at hi
      obtain ⟨a, ha, rfl⟩ := hi
      constructor <;> omega
  · intro cs hc
    rw [getFormattedData, hsp]
    exact hgood cs hc
  · rintro cs ⟨i, hi, hb⟩
    rw [getFormattedData, hsp]
    show formatLoop pyInt pyFloat ws cs = _
    have hbad : pyIdx ws i = .error .indexError := by
      rw [pyIdx]
      rcases hb with hb | hb
      · rw [if_neg (by omega), if_neg (by omega)]
      · rw [if_pos (by omega)]
        have : ¬ i.toNat < ws.length := by omega
        simp [pyGet, this]
    have herr : ∀ j : ℤ, pyIdx ws j = .error .indexError ∨ ∃ s, pyIdx ws j = .ok s := by
      intro j
      rw [pyIdx]
      have hg : ∀ n, pyGet ws n = .error .indexError ∨ ∃ s, pyGet ws n = .ok s := by
        intro n
        rw [pyGet]
        cases ws[n]? with
        | none => exact .inl rfl
        | some s => exact .inr ⟨s, rfl⟩
      split_ifs
      · exact hg _
      · exact hg _
      · exact .inl rfl
    induction cs with
    | nil => simp at hi
    | cons c cs ih =>
      rcases List.mem_cons.mp hi with he | hi
      · subst he
        simp only [formatLoop, hbad, error_bind]
      · have := ih hi
        cases c with
        | none => simp only [formatLoop, ok_bind, this, error_bind]
        | some j =>
          rcases herr j with hj | ⟨s, hj⟩
          · simp only [formatLoop, hj, error_bind]
          · simp only [formatLoop, hj, ok_bind, this, error_bind]

/-- Three words. -/
example : ∀ t ∈ ["12".toList, "0.5".toList, "a".toList], t ≠ [] ∧ ∀ c ∈ t, isSpace c = false := by decide +kernel

/-- What is to become of a word: a number with a point becomes a float, one without an integer, and every other word is kept. -/
def LogText.Reads (s : Str) (d : Datum F) : Prop :=
  (∀ x, d = .float x ↔ '.' ∈ s ∧ pyFloat s = some x) ∧ (∀ n, d = .int n ↔ '.' ∉ s ∧ pyInt s = some n) ∧ ∀ t, d = .str t → t = s

/-- **C98 (kinds of values).** From a line of words separated by single blanks `get_formatted_data` gives as many values: floats for the
words with a point that are floats, integers for those without that are integers, and the words themselves otherwise. -/
theorem C98_formatted_kinds (ws : List Str) (hne : ws ≠ []) (h : ∀ t ∈ ws, t ≠ [] ∧ ∀ c ∈ t, isSpace c = false) :
    ∃ ds, getFormattedData pyInt pyFloat (join ' ' ws ++ ['\n']) none = .ok ds ∧
      List.Forall₂ (LogText.Reads pyInt pyFloat) ws ds := by
  refine ⟨_, (C98_formatted_data pyInt pyFloat ws hne h).1, ?_⟩
  rw [List.forall₂_map_right_iff, List.forall₂_same]
  intro s _
  unfold LogText.Reads datum
  by_cases hp : '.' ∈ s
  · rw [if_pos hp]
    cases pyFloat s <;> simp [hp, eq_comm]
  · rw [if_neg hp]
    cases pyInt s <;> simp [hp, eq_comm]

/-- **C98 (blanks).** With two blanks between words there is an empty value, and the columns after it are shifted. -/
theorem C98_formatted_blanks (a b : Str) (ha : a ≠ [] ∧ ∀ c ∈ a, isSpace c = false) (hb : b ≠ [] ∧ ∀ c ∈ b, isSpace c = false) :
    getFormattedData pyInt pyFloat (a ++ ' ' :: ' ' :: b) none =
      .ok [datum pyInt pyFloat a, datum pyInt pyFloat [], datum pyInt pyFloat b] := by
  have hs : strip (a ++ ' ' :: ' ' :: b) = a ++ ' ' :: ' ' :: b := by
    refine (strip_ends ?_ ?_ (by simp)).1
    · intro c hc
      rw [List.head?_append_of_ne_nil _ ha.1] at hc
      exact ha.2 c (List.mem_of_mem_head? hc)
    · intro c hc
      rw [show a ++ ' ' :: ' ' :: b = (a ++ [' ', ' ']) ++ b by simp, List.getLast?_append_of_ne_nil _ hb.1] at hc
      exact hb.2 c (List.mem_of_getLast? hc)
  have hsa : ' ' ∉ a := fun hc => by
    have := ha.2 ' ' hc
    revert this
    decide
  have hsb : ' ' ∉ b := fun hc => by
    have := hb.2 ' ' hc
    revert this
    decide
  rw [getFormattedData, hs, split_append_cons, split_cons_self, split_of_not_mem hsb, split_of_not_mem hsa]
  rfl

end Format

/-! ### Bins -/

namespace LogText

/-- The data from `slice i` to `slice (i + 1)`. -/
def seg (data : List ℚ) (bins i : ℕ) : List ℚ := (data.take (slice bins (i + 1))).drop (slice bins i)

theorem slice_lt {bins : ℕ} (h1 : 1 ≤ bins) (h2 : bins ≤ 100) (i : ℕ) : slice bins i < slice bins (i + 1) := by
  rw [slice, slice, Nat.lt_iff_add_one_le, Nat.le_div_iff_mul_le h1, Nat.add_mul]
  have := Nat.div_mul_le_self (100 * i) bins
  omega

theorem slice_mono {bins : ℕ} {i j : ℕ} (h : i ≤ j) : slice bins i ≤ slice bins j :=
  Nat.div_le_div_right (Nat.mul_le_mul_left _ h)

theorem slice_self {bins : ℕ} (h1 : 1 ≤ bins) : slice bins bins = 100 := Nat.mul_div_cancel _ h1

theorem slice_zero (bins : ℕ) : slice bins 0 = 0 := by simp [slice]

theorem seg_flatten (data : List ℚ) {bins : ℕ} (h1 : 1 ≤ bins) (h2 : bins ≤ 100) (k : ℕ) :
    ((List.range k).map (seg data bins)).flatten = data.take (slice bins k) := by
  induction k with
  | zero => simp [slice_zero]
  | succ k ih =>
    rw [List.range_succ, List.map_append, List.flatten_append, ih]
    simp only [List.map_cons, List.map_nil, List.flatten_cons, List.flatten_nil, List.append_nil, seg]
    have : (data.take (slice bins (k + 1))).take (slice bins k) = data.take (slice bins k) := by
      rw [List.take_take, min_eq_left (slice_lt h1 h2 k).le]
    rw [← this, List.take_append_drop]

end LogText

/-- **C98 (bins).** For 100 data and at most 100 bins `bin_data` gives the means of consecutive, non-empty pieces whose lengths differ by at
most one. -/
theorem C98_bin_data (data : List ℚ) (hd : data.length = 100) (bins : ℕ) (h1 : 1 ≤ bins) (h2 : bins ≤ 100) :
    ∃ segs : List (List ℚ), segs.length = bins ∧ segs.flatten = data ∧
      (∀ s ∈ segs, s ≠ [] ∧ 100 / bins ≤ s.length ∧ s.length ≤ 100 / bins + 1) ∧
      binData data bins = .ok (segs.map fun s => s.sum / s.length) := by
  have hlast : slice bins bins = 100 := slice_self h1
  have hle : ∀ i, i < bins → slice bins (i + 1) ≤ 100 := fun i hi => hlast ▸ slice_mono hi
  have hlen : ∀ i, i < bins → (seg data bins i).length = slice bins (i + 1) - slice bins i := by
    intro i hi
    rw [seg, List.length_drop, List.length_take, hd, min_eq_left (hle i hi)]
  refine ⟨(List.range bins).map (seg data bins), by simp, ?_, ?_, ?_⟩
  · rw [seg_flatten data h1 h2, hlast, ← hd, List.take_length]
  · intro s hs
    obtain ⟨i, hi, rfl⟩ := List.mem_map.mp hs
    rw [List.mem_range] at hi
    have hl := hlen i hi
    have hlt := slice_lt h1 h2 i
    refine ⟨?_, ?_, ?_⟩
    · intro e
      rw [e, List.length_nil] at hl
      omega
    · rw [hl, slice, slice]
      have := Nat.add_div_le_add_div (100 * i) 100 bins
      rw [Nat.mul_add, Nat.mul_one]
      generalize 100 * i / bins = x at *
      generalize (100 * i + 100) / bins = y at *
      generalize 100 / bins = z at *
      omega
    · rw [hl, slice, slice, Nat.mul_add, Nat.mul_one, Nat.add_div (by omega : 0 < bins)]
      generalize 100 * i / bins = x
      generalize 100 / bins = z
      split_ifs <;> omega
  · rw [binData, if_pos]
    · congr 1
      rw [List.map_map]
      apply List.map_congr_left
      intro i hi
      rw [List.mem_range] at hi
      have hlt := slice_lt h1 h2 i
      simp only [Function.comp]
      rw [hlen i hi, Nat.cast_sub hlt.le]
      congr 1
      rw [reduceat]
      split_ifs with h3
      · rfl
      · have : i + 1 = bins := by omega
        rw [seg, this, hlast, ← hd, List.take_length]
    · rw [List.all_eq_true]
      intro i hi
      rw [List.mem_range] at hi
      have := slice_lt h1 h2 i
      have := hle i hi
      simp only [hd, decide_eq_true_eq]
      omega

/-- **C98 (other lengths).** For another number of data the last value is not a mean: for constant data it is the constant only if they are
100; with few data IndexError is raised. -/
theorem C98_bin_data_length (L : ℕ) (c : ℚ) (hc : c ≠ 0) (bins : ℕ) (h1 : 1 ≤ bins) (h2 : bins ≤ 100) :
    (L ≤ slice bins (bins - 1) → binData (List.replicate L c) bins = .error .indexError) ∧
    (slice bins (bins - 1) < L → ∃ r, binData (List.replicate L c) bins = .ok r ∧
      ((∀ x ∈ r, x = c) ↔ L = 100)) := by
  have hlast : slice bins bins = 100 := slice_self h1
  constructor
  · intro hL
    rw [binData, if_neg]
    rw [List.all_eq_true]
    intro hall
    have := hall (bins - 1) (by rw [List.mem_range]; omega)
    simp only [List.length_replicate, decide_eq_true_eq] at this
    omega
  · intro hL
    have hall : ((List.range bins).all fun i => decide (slice bins i < (List.replicate L c).length)) = true := by
      rw [List.all_eq_true]
      intro i hi
      rw [List.mem_range] at hi
      have : slice bins i ≤ slice bins (bins - 1) := slice_mono (by omega)
      simp only [List.length_replicate, decide_eq_true_eq]
      omega
    refine ⟨_, by rw [binData, if_pos hall], ?_⟩
    have hlt := slice_lt h1 h2 (bins - 1)
    rw [show bins - 1 + 1 = bins by omega, hlast] at hlt
    have hval : reduceat (List.replicate L c) bins (bins - 1) / ((slice bins (bins - 1 + 1) : ℚ) - slice bins (bins - 1)) =
        ((L : ℚ) - slice bins (bins - 1)) * c / (100 - slice bins (bins - 1)) := by
      rw [reduceat, if_neg (by omega), show bins - 1 + 1 = bins by omega, hlast, List.drop_replicate, List.sum_replicate, nsmul_eq_mul,
        Nat.cast_sub hL.le]
      norm_num
    have hpos : (0 : ℚ) < 100 - slice bins (bins - 1) := by
      have : ((slice bins (bins - 1) : ℕ) : ℚ) < (100 : ℕ) := Nat.cast_lt.mpr hlt
      push_cast at this
      linarith
    constructor
    · intro hx
      have := hx _ (List.mem_map.mpr ⟨bins - 1, by rw [List.mem_range]; omega, rfl⟩)
      rw [hval, div_eq_iff hpos.ne', mul_comm c] at this
      have := mul_right_cancel₀ hc this
      have : (L : ℚ) = (100 : ℕ) := by push_cast; linarith
      exact_mod_cast this
    · rintro rfl x hx
      obtain ⟨i, hi, rfl⟩ := List.mem_map.mp hx
      rw [List.mem_range] at hi
      by_cases hi' : i + 1 < bins
      · have hl := slice_lt h1 h2 i
        have hm : slice bins (i + 1) ≤ 100 := hlast ▸ slice_mono (by omega)
        have hp : (0 : ℚ) < (slice bins (i + 1) : ℚ) - slice bins i := by
          have : (slice bins i : ℚ) < slice bins (i + 1) := by exact_mod_cast hl
          linarith
        rw [reduceat, if_pos hi', if_pos hl, List.take_replicate, List.drop_replicate, List.sum_replicate, nsmul_eq_mul,
          min_eq_left hm, Nat.cast_sub hl.le, mul_comm, mul_div_assoc, div_self hp.ne', mul_one]
      · have : i = bins - 1 := by omega
        subst this
        rw [hval]
        push_cast
        rw [mul_comm, mul_div_assoc, div_self hpos.ne', mul_one]

/-! ### Scaling -/

/-- **C98 (scaled value).** `scale_val` maps the ends of the range to 0 and 1 and is increasing; with a positive cap the value is between 0 and
the cap; a range of one number raises. -/
theorem C98_scale_val (lo hi : ℚ) (h : lo < hi) :
    scaleVal lo lo hi none = .ok 0 ∧ scaleVal hi lo hi none = .ok 1 ∧
    (∀ x y, x < y → ∃ a b, scaleVal x lo hi none = .ok a ∧ scaleVal y lo hi none = .ok b ∧ a < b) ∧
    (∀ x c, 0 < c → ∃ a, scaleVal x lo hi (some c) = .ok a ∧ 0 ≤ a ∧ a ≤ c ∧
      ∀ b, scaleVal x lo hi none = .ok b → 0 ≤ b → b ≤ c → a = b) ∧
    ∀ x cap, scaleVal x lo lo cap = .error .zeroDivisionError := by
  have hd : 0 < hi - lo := by linarith
  refine ⟨?_, ?_, ?_, ?_, ?_⟩
  · simp [scaleVal, hd.ne']
  · simp [scaleVal, hd.ne']
  · intro x y hxy
    refine ⟨_, _, by rw [scaleVal, if_neg hd.ne'], by rw [scaleVal, if_neg hd.ne'], ?_⟩
    exact div_lt_div_of_pos_right (by linarith) hd
  · intro x c hc
    refine ⟨min (max ((x - lo) / (hi - lo)) 0) c, by simp [scaleVal, hd.ne', hc.ne'], le_min (le_max_right _ _) hc.le, min_le_right _ _, ?_⟩
    intro b hb h0 h1
    have e : scaleVal x lo hi none = .ok ((x - lo) / (hi - lo)) := by simp [scaleVal, hd.ne']
    rw [e] at hb
    cases hb
    rw [max_eq_left h0, min_eq_left h1]
  · intro x cap
    simp [scaleVal]

/-- **C98 (step size).** `calc_alpha_init` gives the numerator for which the first step size is `alpha`, if there is a decay, and otherwise
`alpha`, also for a negative decay. -/
theorem C98_alpha_init (alpha decay : ℚ) :
    (0 < decay → calcAlphaInit alpha decay / (decay + 0) = alpha) ∧ (decay ≤ 0 → calcAlphaInit alpha decay = alpha) := by
  refine ⟨fun h => ?_, fun h => ?_⟩
  · rw [calcAlphaInit, if_neg (by simp [h.ne', h]), add_zero, mul_div_assoc, div_self h.ne', mul_one]
  · rw [calcAlphaInit, if_pos (.inr h)]

/-- A concrete case: two lines of comments, a line of headers and a line of data. -/
example : skipComments [] ["#a".toList, "#".toList, "x y".toList, "#1 2".toList] ["#a".toList, "#".toList, "x y".toList, "#1 2".toList] =
    some (["#a".toList, "#".toList], ["x y".toList, "#1 2".toList]) := by
  rw [C98_skip_comments]
  decide

/-- A concrete case: three bins of 100 numbers have 33, 33 and 34 of them. -/
example : [slice 3 0, slice 3 1, slice 3 2, slice 3 3] = [0, 33, 66, 100] := by decide

/-- A concrete case: 200 ones in one bin have the `mean` 2. -/
example : ∃ r, binData (List.replicate 200 1) 1 = .ok r ∧ ¬ ∀ x ∈ r, x = 1 := by
  obtain ⟨r, h1, h2⟩ := (C98_bin_data_length 200 1 one_ne_zero 1 le_rfl (by norm_num)).2 (by decide)
  exact ⟨r, h1, fun h => absurd (h2.mp h) (by norm_num)⟩

/-- A concrete case: the range from 1 to 3. -/
example : scaleVal 2 1 3 none = .ok (1 / 2) ∧ scaleVal 5 1 3 (some 1) = .ok 1 := by
  constructor <;> simp [scaleVal] <;> norm_num

end Verif
