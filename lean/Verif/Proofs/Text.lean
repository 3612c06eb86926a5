import Verif.Model.Text
import Verif.Proofs.Strings

/-! Lines and words. -/

namespace Verif

namespace Str

theorem readlines_line {l : Str} (h : '\n' ∉ l) (s : Str) : readlines (l ++ '\n' :: s) = (l ++ ['\n']) :: readlines s := by
  induction l with
  | nil => rfl
  | cons c l ih =>
    rw [List.mem_cons, not_or] at h
    rw [List.cons_append, readlines, if_neg (Ne.symm h.1), ih h.2]
    rfl

theorem readlines_last {l : Str} (h : '\n' ∉ l) (hne : l ≠ []) : readlines l = [l] := by
  induction l with
  | nil => exact absurd rfl hne
  | cons c l ih =>
    rw [List.mem_cons, not_or] at h
    rw [readlines, if_neg (Ne.symm h.1)]
    by_cases e : l = []
    · subst e
      rfl
    · rw [ih h.2 e]

theorem readlines_lines (ls : List Str) (h : ∀ l ∈ ls, '\n' ∉ l) (s : Str) :
    readlines ((ls.map (· ++ ['\n'])).flatten ++ s) = ls.map (· ++ ['\n']) ++ readlines s := by
  induction ls with
  | nil => rfl
  | cons l ls ih =>
    rw [List.map_cons, List.flatten_cons, List.append_assoc, List.append_assoc, List.singleton_append,
      readlines_line (h l List.mem_cons_self), ih fun l' hl => h l' (List.mem_cons_of_mem _ hl)]
    rfl

theorem flatten_readlines (s : Str) : (readlines s).flatten = s := by
  induction s with
  | nil => rfl
  | cons c s ih =>
    rw [readlines]
    by_cases h : c = '\n'
    · rw [if_pos h, List.flatten_cons, ih]
      rfl
    · rw [if_neg h]
      cases e : readlines s with
      | nil =>
        rw [e] at ih
        simp [← ih]
      | cons l ls =>
        rw [e] at ih
        simp [← ih]

theorem words_cons_space {c : Char} (h : isSpace c = true) (s : Str) : words (c :: s) = words s := by
  cases s <;> simp [words, h]

theorem words_spaces {p : Str} (h : ∀ c ∈ p, isSpace c = true) (s : Str) : words (p ++ s) = words s := by
  induction p with
  | nil => rfl
  | cons c p ih =>
    rw [List.cons_append, words_cons_space (h c List.mem_cons_self), ih fun d hd => h d (List.mem_cons_of_mem _ hd)]

theorem words_word {w : Str} (hne : w ≠ []) (h : ∀ c ∈ w, isSpace c = false) (s : Str)
    (hs : ∀ c ∈ s.head?, isSpace c = true) : words (w ++ s) = w :: words s := by
  induction w with
  | nil => exact absurd rfl hne
  | cons c w ih =>
    have hc := h c List.mem_cons_self
    have hw : ∀ d ∈ w, isSpace d = false := fun d hd => h d (List.mem_cons_of_mem _ hd)
    cases w with
    | nil =>
      cases s with
      | nil => simp [words, hc]
      | cons d s =>
        have hd : isSpace d = true := hs d rfl
        rw [List.singleton_append, words, hc]
        simp [hd]
    | cons d w =>
      have hd := hw d List.mem_cons_self
      have ih := ih (by simp) hw
      rw [List.cons_append] at ih
      rw [List.cons_append, List.cons_append, words, hc]
      simp [hd, ih]

theorem words_join {ws : List Str} (h : ∀ w ∈ ws, w ≠ [] ∧ ∀ c ∈ w, isSpace c = false) : words (join ' ' ws) = ws := by
  induction ws with
  | nil => rfl
  | cons w ws ih =>
    have hw := h w List.mem_cons_self
    cases ws with
    | nil =>
      have := words_word hw.1 hw.2 [] (by simp)
      rwa [List.append_nil] at this
    | cons v vs =>
      rw [join_cons (by simp), words_word hw.1 hw.2 _ (by simp [isSpace]), show ' ' :: join ' ' (v :: vs) = [' '] ++ join ' ' (v :: vs)
        from rfl, words_spaces (by simp [isSpace]), ih fun x hx => h x (List.mem_cons_of_mem _ hx)]

end Str

end Verif
