import Verif.Spec.IntText
import Verif.Props.Strings
import Verif.Props.LogDataMore

/-!
# C71: which texts are numbers

`get_protocol_parts` and other functions call `int(s)` and take a `ValueError` for "no number".
-/

namespace Verif

open Str IntText

namespace IntText

theorem Groups.digits {s t : Str} (h : Groups s t) : (∀ c ∈ s, c = '_' ∨ c.isDigit = true) ∧ s ≠ [] ∧
    (∀ c ∈ s.head?, c.isDigit = true) ∧ ∀ c ∈ s.getLast?, c.isDigit = true := by
  induction h with
  | one g hne hd =>
    have hd' : ∀ c ∈ g, c.isDigit = true := fun c hc => (isDigit_iff c).2 (hd c hc)
    exact ⟨fun c hc => .inr (hd' c hc), hne, fun c hc => hd' c (List.mem_of_mem_head? hc), fun c hc => hd' c (List.mem_of_mem_getLast? hc)⟩
  | more g s t hne hd _ ih =>
    have hd' : ∀ c ∈ g, c.isDigit = true := fun c hc => (isDigit_iff c).2 (hd c hc)
    refine ⟨fun c hc => ?_, by simp, fun c hc => ?_, fun c hc => ?_⟩
    · simp only [List.mem_append, List.mem_cons] at hc
      rcases hc with hc | hc | hc
      · exact .inr (hd' c hc)
      · exact .inl hc
      · exact ih.1 c hc
    · cases g with
      | nil => exact absurd rfl hne
      | cons x g => simp at hc; exact hd' c (by simp [hc])
    · cases s with
      | nil => exact absurd rfl ih.2.1
      | cons x s =>
        rw [List.getLast?_append_of_ne_nil _ (by simp), List.getLast?_cons_cons] at hc
        exact ih.2.2.2 c hc

theorem groups_iff (s t : Str) : Groups s t ↔
    (split '_' s).all (fun p => decide (p ≠ []) && p.all Char.isDigit) = true ∧ (split '_' s).flatten = t := by
  constructor
  · intro h
    induction h with
    | one g hne hd =>
      have hd' : ∀ c ∈ g, c.isDigit = true := fun c hc => (isDigit_iff c).2 (hd c hc)
      rw [split_of_not_mem fun hc => absurd (hd' _ hc) (by decide)]
      simp [hne]
      exact hd'
    | more g s t hne hd _ ih =>
      have hd' : ∀ c ∈ g, c.isDigit = true := fun c hc => (isDigit_iff c).2 (hd c hc)
      rw [split_append_cons, split_of_not_mem (s := g) fun hc => absurd (hd' _ hc) (by decide)]
      rw [List.all_append, List.flatten_append, ih.1, ih.2]
      simp [hne]
      exact hd'
  · rintro ⟨h1, rfl⟩
    have key : ∀ ps : List Str, ps ≠ [] → ps.all (fun p => decide (p ≠ []) && p.all Char.isDigit) = true →
        Groups (join '_' ps) ps.flatten := by
      intro ps
      induction ps with
      | nil => exact fun h => absurd rfl h
      | cons p ps ih =>
        intro _ hall
        simp only [List.all_cons, Bool.and_eq_true, decide_eq_true_eq, List.all_eq_true] at hall
        have hd : ∀ c ∈ p, 48 ≤ c.toNat ∧ c.toNat ≤ 57 := fun c hc => (isDigit_iff c).1 (hall.1.2 c hc)
        by_cases hps : ps = []
        · subst hps
          simpa [join] using Groups.one p hall.1.1 hd
        · rw [join_cons hps, List.flatten_cons]
          refine .more _ _ _ hall.1.1 hd (ih hps ?_)
          simp only [List.all_eq_true, Bool.and_eq_true, decide_eq_true_eq]
          exact hall.2
    have := key _ (split_ne_nil '_' s) h1
    rwa [join_split] at this

theorem unsigned_iff (s : Str) (n : ℕ) : unsigned s = .ok n ↔ ∃ t, Groups s t ∧ n = numeral t := by
  unfold unsigned
  by_cases h : (split '_' s).all (fun p => decide (p ≠ []) && p.all Char.isDigit) = true
  · rw [if_pos h, Except.ok.injEq]
    constructor
    · rintro rfl
      exact ⟨_, (groups_iff s _).2 ⟨h, rfl⟩, rfl⟩
    · rintro ⟨t, ht, rfl⟩
      rw [((groups_iff s t).1 ht).2]
      rfl
  · rw [if_neg h]
    refine ⟨fun h' => by simp at h', ?_⟩
    rintro ⟨t, ht, -⟩
    exact absurd ((groups_iff s t).1 ht).1 h

theorem strip_split (s : Str) : ∃ pre post, s = pre ++ strip s ++ post ∧ Blank pre ∧ Blank post := by
  refine ⟨s.takeWhile isSpace, ((s.dropWhile isSpace).reverse.takeWhile isSpace).reverse, ?_, fun c hc => ?_, fun c hc => ?_⟩
  · unfold strip
    rw [List.append_assoc, ← List.reverse_append, List.takeWhile_append_dropWhile, List.reverse_reverse, List.takeWhile_append_dropWhile]
  · exact (C92_white_space c).1 (List.mem_takeWhile_imp hc)
  · exact (C92_white_space c).1 (List.mem_takeWhile_imp (List.mem_reverse.1 hc))

theorem strip_of_parts {pre r post : Str} (h1 : Blank pre) (h2 : Blank post) (hh : ∀ c ∈ r.head?, isSpace c = false)
    (hl : ∀ c ∈ r.getLast?, isSpace c = false) (hne : r ≠ []) : strip (pre ++ r ++ post) = r := by
  have b1 : ∀ c ∈ pre, isSpace c = true := fun c hc => (C92_white_space c).2 (h1 c hc)
  have b2 : ∀ c ∈ post, isSpace c = true := fun c hc => (C92_white_space c).2 (h2 c hc)
  unfold strip
  have e1 : (pre ++ r ++ post).dropWhile isSpace = r ++ post := by
    rw [List.append_assoc, List.dropWhile_append_of_pos b1, dropWhile_of_head]
    intro c hc
    cases r with
    | nil => exact absurd rfl hne
    | cons x r => exact hh c (by simpa using hc)
  have e2 : (r ++ post).reverse.dropWhile isSpace = r.reverse := by
    rw [List.reverse_append, List.dropWhile_append_of_pos (fun c hc => b2 c (List.mem_reverse.1 hc)), dropWhile_of_head]
    intro c hc
    rw [List.head?_reverse] at hc
    exact hl c hc
  rw [e1, e2, List.reverse_reverse]

end IntText

/-- **C71 (numbers).** A part of a name counts as a number exactly if it is white space, an optional sign, groups of digits with single
underscores between them, and white space; its value is that of the digits. -/
theorem C71_int (s : Str) (z : ℤ) : pyInt s = .ok z ↔ IsText s z := by
  constructor
  · intro h
    obtain ⟨pre, post, hs, h1, h2⟩ := strip_split s
    unfold pyInt at h
    split at h
    · next r hr =>
      cases hu : unsigned r with
      | error e => rw [hu] at h; simp [Except.map] at h
      | ok n =>
        rw [hu] at h
        obtain ⟨t, ht, rfl⟩ := (unsigned_iff r n).1 hu
        exact ⟨pre, ['-'], r, t, post, by rw [hr] at hs; rw [hs]; simp, h1, h2, ht, .inl ⟨rfl, by simpa [Except.map] using h.symm⟩⟩
    · next r hr =>
      cases hu : unsigned r with
      | error e => rw [hu] at h; simp [Except.map] at h
      | ok n =>
        rw [hu] at h
        obtain ⟨t, ht, rfl⟩ := (unsigned_iff r n).1 hu
        exact ⟨pre, ['+'], r, t, post, by rw [hr] at hs; rw [hs]; simp, h1, h2, ht, .inr ⟨.inr rfl, by simpa [Except.map] using h.symm⟩⟩
    · cases hu : unsigned (strip s) with
      | error e => rw [hu] at h; simp [Except.map] at h
      | ok n =>
        rw [hu] at h
        obtain ⟨t, ht, rfl⟩ := (unsigned_iff _ n).1 hu
        exact ⟨pre, [], strip s, t, post, by simpa using hs, h1, h2, ht, .inr ⟨.inl rfl, by simpa [Except.map] using h.symm⟩⟩
  · rintro ⟨pre, sign, body, t, post, rfl, h1, h2, ht, h⟩
    obtain ⟨-, hne, hh, hl⟩ := ht.digits
    have hu := (unsigned_iff body _).2 ⟨t, ht, rfl⟩
    have hlast : ∀ c ∈ (sign ++ body).getLast?, isSpace c = false := by
      intro c hc
      rw [List.getLast?_append_of_ne_nil _ hne] at hc
      exact isSpace_of_isDigit (hl c hc)
    have hst : strip (pre ++ (sign ++ body) ++ post) = sign ++ body := by
      refine strip_of_parts h1 h2 ?_ hlast (by simp [hne])
      rcases h with ⟨rfl, -⟩ | ⟨rfl | rfl, -⟩
      · simp; decide
      · intro c hc
        exact isSpace_of_isDigit (hh c (by simpa using hc))
      · simp; decide
    rw [← List.append_assoc] at hst
    unfold pyInt
    rw [hst]
    rcases h with ⟨rfl, rfl⟩ | ⟨rfl | rfl, rfl⟩
    · simp [hu, Except.map]
    · cases body with
      | nil => exact absurd rfl hne
      | cons x body =>
        have hx := hh x (by simp)
        simp only [List.nil_append]
        split
        · next r hr => simp at hr; rw [hr.1] at hx; exact absurd hx (by decide)
        · next r hr => simp at hr; rw [hr.1] at hx; exact absurd hx (by decide)
        · rw [hu]; rfl
    · simp [hu, Except.map]

/-- `int(" -1_20 ")` is -120. -/
example : IsText " -1_20 ".toList (-120) :=
  ⟨[' '], ['-'], "1_20".toList, "120".toList, [' '], rfl, by simp [Blank, Logs.whiteSpace], by simp [Blank, Logs.whiteSpace],
    .more "1".toList "20".toList "20".toList (by simp) (by decide) (.one _ (by simp) (by decide)), .inl ⟨rfl, by decide⟩⟩

end Verif
