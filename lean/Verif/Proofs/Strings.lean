import Verif.Model.Strings

/-!
# Lemmas on strings
-/

namespace Verif
namespace Str

theorem split_ne_nil (c : Char) (s : Str) : split c s ≠ [] := by
  cases s with
  | nil => simp [split]
  | cons x xs =>
    rw [split]
    by_cases h : x = c
    · simp [h]
    · rw [if_neg h]
      cases split c xs <;> simp

theorem split_cons_self (c : Char) (s : Str) : split c (c :: s) = [] :: split c s := by
  simp [split]

theorem split_cons_ne {c x : Char} (h : x ≠ c) (s : Str) :
    ∃ p ps, split c s = p :: ps ∧ split c (x :: s) = (x :: p) :: ps := by
  cases hs : split c s with
  | nil => exact absurd hs (split_ne_nil c s)
  | cons p ps => exact ⟨p, ps, rfl, by rw [split, if_neg h, hs]⟩

theorem split_of_not_mem {c : Char} {s : Str} (h : c ∉ s) : split c s = [s] := by
  induction s with
  | nil => rfl
  | cons x xs ih =>
    simp only [List.mem_cons, not_or] at h
    rw [split, if_neg (fun e => h.1 e.symm), ih h.2]

theorem split_append_cons (c : Char) (a b : Str) : split c (a ++ c :: b) = split c a ++ split c b := by
  induction a with
  | nil => simp [split]
  | cons x xs ih =>
    by_cases h : x = c
    · subst h
      simp [split_cons_self, ih]
    · rw [List.cons_append, split, if_neg h, ih, split, if_neg h]
      cases hs : split c xs with
      | nil => exact absurd hs (split_ne_nil c xs)
      | cons p ps => simp

theorem not_mem_of_mem_split {c : Char} {s p : Str} (h : p ∈ split c s) : c ∉ p := by
  induction s generalizing p with
  | nil => simp only [split, List.mem_singleton] at h; simp [h]
  | cons x xs ih =>
    by_cases hx : x = c
    · subst hx
      rw [split_cons_self, List.mem_cons] at h
      rcases h with h | h
      · simp [h]
      · exact ih h
    · obtain ⟨q, qs, e1, e2⟩ := split_cons_ne hx xs
      rw [e2, List.mem_cons] at h
      rcases h with h | h
      · subst h
        simp only [List.mem_cons, not_or]
        exact ⟨fun e => hx e.symm, ih (by rw [e1]; simp)⟩
      · exact ih (by rw [e1]; exact List.mem_cons_of_mem _ h)

theorem join_cons {c : Char} {p : Str} {ps : List Str} (h : ps ≠ []) : join c (p :: ps) = p ++ c :: join c ps := by
  cases ps with
  | nil => exact absurd rfl h
  | cons q qs => rfl

theorem join_split (c : Char) (s : Str) : join c (split c s) = s := by
  induction s with
  | nil => rfl
  | cons x xs ih =>
    by_cases hx : x = c
    · subst hx
      rw [split_cons_self, join_cons (split_ne_nil _ _), ih]; rfl
    · rw [split, if_neg hx]
      cases hs : split c xs with
      | nil => exact absurd hs (split_ne_nil c xs)
      | cons p ps =>
        rw [hs] at ih
        cases ps with
        | nil => simpa [join] using ih
        | cons q qs => simpa [join] using ih

theorem split_join {c : Char} {ps : List Str} (hne : ps ≠ []) (h : ∀ p ∈ ps, c ∉ p) : split c (join c ps) = ps := by
  induction ps with
  | nil => exact absurd rfl hne
  | cons p ps ih =>
    cases ps with
    | nil => exact split_of_not_mem (h p (by simp))
    | cons q qs =>
      rw [join_cons (by simp), split_append_cons, split_of_not_mem (h p (by simp)),
        ih (by simp) (fun r hr => h r (List.mem_cons_of_mem _ hr))]
      rfl

theorem getLast?_split_append (c : Char) (a b : Str) (hb : c ∉ b) :
    (split c (a ++ c :: b)).getLast? = some b ∧ (split c (a ++ c :: b)).dropLast = split c a := by
  rw [split_append_cons, split_of_not_mem hb]
  simp

/-- A string with a `c` ends in a part without it. -/
theorem exists_last_part {c : Char} {s : Str} (h : c ∈ s) : ∃ a b, s = a ++ c :: b ∧ c ∉ b := by
  induction s with
  | nil => simp at h
  | cons x xs ih =>
    by_cases hxs : c ∈ xs
    · obtain ⟨a, b, e, hb⟩ := ih hxs
      exact ⟨x :: a, b, by rw [e]; rfl, hb⟩
    · have hx : c = x := by simpa [hxs] using h
      exact ⟨[], xs, by rw [hx]; rfl, hxs⟩

/-! ### Decimal numbers -/

theorem isDigit_iff (c : Char) : c.isDigit = true ↔ 48 ≤ c.toNat ∧ c.toNat ≤ 57 := by
  unfold Char.isDigit
  rw [Bool.and_eq_true, decide_eq_true_eq, decide_eq_true_eq]
  exact Iff.rfl

theorem not_digit_of_toNat {c : Char} (h : c.toNat < 48 ∨ 57 < c.toNat) : c.isDigit ≠ true := by
  rw [ne_eq, isDigit_iff]; omega

theorem isSpace_of_isDigit {c : Char} (h : c.isDigit = true) : isSpace c = false := by
  have h' := (isDigit_iff c).1 h
  have : c ≠ ' ' := by rintro rfl; revert h; decide
  simp only [isSpace, Bool.or_eq_false_iff, decide_eq_false_iff_not, Bool.and_eq_false_iff]
  refine ⟨⟨⟨this, ?_⟩, ?_⟩, ?_⟩ <;> simp [isWideSpace] <;> omega

theorem dropWhile_of_head {p : Char → Bool} {s : Str} (h : ∀ c ∈ s.head?, p c = false) : s.dropWhile p = s := by
  cases s with
  | nil => rfl
  | cons x xs => rw [List.dropWhile_cons_of_neg]; simp [h x (by simp)]

theorem strip_of {s : Str} (h : ∀ c ∈ s, isSpace c = false) : strip s = s := by
  have hh : ∀ c ∈ s.head?, isSpace c = false := fun c hc => h c (List.mem_of_mem_head? hc)
  have hl : ∀ c ∈ s.reverse.head?, isSpace c = false := fun c hc => h c (by
    have := List.mem_of_mem_head? hc; simpa using this)
  rw [strip, dropWhile_of_head hh, dropWhile_of_head hl, List.reverse_reverse]

/-- A non-empty string of digits is read as the number that it denotes. -/
theorem unsigned_digits {s : Str} (hne : s ≠ []) (h : ∀ c ∈ s, c.isDigit = true) :
    unsigned s = .ok (Nat.ofDigitChars 10 s 0) := by
  have hu : '_' ∉ s := fun hm => absurd (h _ hm) (by decide)
  rw [unsigned, split_of_not_mem hu, if_pos]
  · simp
  · simp [hne, List.all_eq_true]
    exact h

theorem pyInt_digits {s : Str} (hne : s ≠ []) (h : ∀ c ∈ s, c.isDigit = true) :
    pyInt s = .ok (Nat.ofDigitChars 10 s 0 : ℕ) := by
  rw [pyInt, strip_of fun c hc => isSpace_of_isDigit (h c hc)]
  cases s with
  | nil => exact absurd rfl hne
  | cons x xs =>
    have hx := h x (by simp)
    have h1 : x ≠ '-' := by rintro rfl; revert hx; decide
    have h2 : x ≠ '+' := by rintro rfl; revert hx; decide
    split
    · rename_i r e; exact absurd (List.cons.inj e).1 h1
    · rename_i r e; exact absurd (List.cons.inj e).1 h2
    · rw [unsigned_digits (by simp) h]; rfl

theorem isDigit_of_mem_ofNat {n : ℕ} {c : Char} (h : c ∈ ofNat n) : c.isDigit = true :=
  Nat.isDigit_of_mem_toDigits (by decide) (by decide) h

theorem ofNat_ne_nil (n : ℕ) : ofNat n ≠ [] := Nat.toDigits_ne_nil

theorem pyInt_ofNat (n : ℕ) : pyInt (ofNat n) = .ok (n : ℤ) := by
  rw [pyInt_digits (ofNat_ne_nil n) fun c hc => isDigit_of_mem_ofNat hc]
  congr 2
  exact Nat.ofDigitChars_ten_toDigits

theorem digit_ne {c d : Char} (h : c.isDigit = true) (hd : d.isDigit = false) : c ≠ d := by
  rintro rfl; rw [h] at hd; cases hd

theorem not_mem_ofNat {d : Char} (hd : d.isDigit = false) (n : ℕ) : d ∉ ofNat n := fun h => by
  rw [isDigit_of_mem_ofNat h] at hd; cases hd

theorem keepH_digit {c : Char} (h : c.isDigit = true) : keepH c = true := by
  simp [keepH, Char.isAlphanum, h]

theorem keepU_digit {c : Char} (h : c.isDigit = true) : keepU c = true := by
  simp [keepU, Char.isAlphanum, h]

theorem filter_ofInt (n : ℤ) : (ofInt n).filter keepH = ofInt n := by
  rw [List.filter_eq_self]
  intro c hc
  rw [ofInt] at hc
  by_cases h : n < 0
  · rw [if_pos h, List.mem_cons] at hc
    rcases hc with rfl | hc
    · decide
    · exact keepH_digit (isDigit_of_mem_ofNat hc)
  · rw [if_neg h] at hc
    exact keepH_digit (isDigit_of_mem_ofNat hc)

theorem digit_zfill {w : ℕ} {s : Str} (h : ∀ c ∈ s, c.isDigit = true) : ∀ c ∈ zfill w s, c.isDigit = true := by
  intro c hc
  rw [zfill, List.mem_append] at hc
  rcases hc with hc | hc
  · rw [List.eq_of_mem_replicate hc]; decide
  · exact h c hc

theorem ofDigitChars_zfill (w : ℕ) (s : Str) : Nat.ofDigitChars 10 (zfill w s) 0 = Nat.ofDigitChars 10 s 0 := by
  rw [zfill, Nat.ofDigitChars_append, Nat.ofDigitChars_replicate_zero]; simp

theorem pyInt_zfill (w n : ℕ) : pyInt (zfill w (ofNat n)) = .ok (n : ℤ) := by
  rw [pyInt_digits _ (digit_zfill fun c hc => isDigit_of_mem_ofNat hc), ofDigitChars_zfill]
  · congr 2
    exact Nat.ofDigitChars_ten_toDigits
  · intro h
    rw [zfill, List.append_eq_nil_iff] at h
    exact ofNat_ne_nil n h.2

theorem exists_first_part {c : Char} {s : Str} (h : c ∈ s) : ∃ a b, s = a ++ c :: b ∧ c ∉ a := by
  induction s with
  | nil => simp at h
  | cons x xs ih =>
    by_cases hx : x = c
    · exact ⟨[], xs, by rw [hx]; rfl, by simp⟩
    · have hxs : c ∈ xs := by
        rcases List.mem_cons.1 h with h | h
        · exact absurd h.symm hx
        · exact h
      obtain ⟨a, b, e, ha⟩ := ih hxs
      refine ⟨x :: a, b, by rw [e]; rfl, ?_⟩
      simp only [List.mem_cons, not_or]
      exact ⟨fun e => hx e.symm, ha⟩

end Str
end Verif
