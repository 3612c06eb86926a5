import Verif.Proofs.Literals
import Verif.Proofs.Strings

/-!
# C128: arrays read from text
-/

namespace Verif

open Literals

variable {ν : Type} (num : Str → Py ν)

/-- **C128 (row by row).** If every string by itself is the text of a number or of a nested list of numbers, in any of its spellings, then `de_array` and
`strs_to_floats` of a list or series of them return these, in order: one for each string. -/
theorem C128_cells (ss : List Str) (vs : List (Lit ν)) (h : List.Forall₂ (fun s v => literalEval num s = .ok v) ss vs) :
    deArray num (.list (ss.map some)) = .ok (.list vs) ∧ deArray num (.seq (ss.map some)) = .ok (.list vs) ∧
    strsToFloats num (.list (ss.map some)) = .ok (.list vs) ∧ strsToFloats num (.seq (ss.map some)) = .ok (.list vs) := by
  have h1 := texts_some ss
  have h2 := literalEval_bracket h
  refine ⟨?_, ?_, ?_, ?_⟩
  · rw [deArray, Format.listify, Format.Listed.elems, Format.Obj.elems, h1, ok_bind, h2]
  · rw [deArray, Format.listify, if_neg (by simp), Format.Listed.elems, Format.Obj.elems, h1, ok_bind, h2]
  · rw [strsToFloats, h1, ok_bind]; exact h2
  · rw [strsToFloats, h1, ok_bind]; exact h2

/-- **C128 (round trip).** The texts that `str()` gives of nested lists are read back as these lists, whatever their shape.  One text by itself gives a list
with one element. -/
theorem C128_round_trip (tx : ν → Str) (vs : List (Lit ν)) (h : ∀ v ∈ vs, ∀ x, v.Has x → Plain (tx x) ∧ num (tx x) = .ok x) :
    deArray num (.list ((vs.map (Lit.text tx)).map some)) = .ok (.list vs) ∧
    ∀ v ∈ vs, deArray num (.str (v.text tx)) = .ok (.list [v]) := by
  refine ⟨(C128_cells num _ vs ?_).1, fun v hv => ?_⟩
  · rw [List.forall₂_map_left_iff, List.forall₂_same]
    exact fun v hv => literalEval_text v (h v hv)
  · rw [deArray, Format.listify, Format.Listed.elems, texts, texts, pure_eq_ok, ok_bind, pure_eq_ok, ok_bind]
    exact literalEval_bracket (.cons (literalEval_text v (h v hv)) .nil)

/-- **C128 (not a number).** One number anywhere that is written as a text that is no literal, as `nan` and `inf` are, makes the whole call raise. -/
theorem C128_unreadable (tx : ν → Str) (vs : List (Lit ν)) (v : Lit ν) (hv : v ∈ vs) (x : ν) (hx : v.Has x) (hp : Plain (tx x)) (e : PyErr)
    (he : num (tx x) = .error e) : ∃ e', deArray num (.list ((vs.map (Lit.text tx)).map some)) = .error e' := by
  rw [deArray, Format.listify, Format.Listed.elems, Format.Obj.elems, texts_some, ok_bind, literalEval, tokens_bracket, evalToks]
  cases h : parse num ⟨[], true⟩ [] (inter ((vs.map (Lit.text tx)).map (tokens [])) ++ [.close]) with
  | error e' => exact ⟨e', rfl⟩
  | ok w =>
    obtain ⟨y, hy⟩ := parse_atoms _ _ _ h (tx x) (List.mem_append_left _ (mem_inter (ts := tokens [] (v.text tx)) (by
      simp only [List.mem_map]
      exact ⟨_, ⟨v, hv, rfl⟩, rfl⟩) (has_token hx hp)))
    rw [he] at hy
    cases hy

/-- **C128 (missing cells).** An element that is no string, as a missing cell of a data frame, makes the call raise TypeError.  So does, for
`strs_to_floats`, something that is no sequence. -/
theorem C128_missing (l : List (Option Str)) (h : none ∈ l) :
    deArray num (.list l) = .error .typeError ∧ deArray num (.seq l) = .error .typeError ∧
    strsToFloats num (.list l) = .error .typeError ∧ strsToFloats num (.seq l) = .error .typeError ∧
    strsToFloats num (.iter l) = .error .typeError ∧ (∀ x, strsToFloats num (.scalar x) = .error .typeError) ∧
    strsToFloats num .none = .error .typeError := by
  have : texts (l.map .scalar) = .error .typeError := by
    induction l with
    | nil => cases h
    | cons x l ih =>
      cases x with
      | none => rfl
      | some s =>
        rw [List.map_cons, texts, ih (by simpa using h)]
        rfl
  refine ⟨?_, ?_, ?_, ?_, ?_, fun x => rfl, rfl⟩
  · rw [deArray, Format.listify, Format.Listed.elems, Format.Obj.elems, this]; rfl
  · rw [deArray, Format.listify, if_neg (by simp), Format.Listed.elems, Format.Obj.elems, this]; rfl
  all_goals rw [strsToFloats, this]; rfl

/-- **C128 (generators).** A generator is used up by `listify`: whatever it yields, `de_array` returns an empty array.  `strs_to_floats` reads
it as a list. -/
theorem C128_generator (l : List (Option Str)) :
    deArray num (.iter l) = .ok (.list []) ∧ strsToFloats num (.iter l) = strsToFloats num (.list l) := by
  refine ⟨?_, rfl⟩
  rw [deArray, Format.listify, if_neg (by simp), Format.Listed.elems, Format.Obj.elems, List.map_nil, texts, pure_eq_ok, ok_bind]
  exact literalEval_bracket .nil

/-- **C128 (a string alone).** `strs_to_floats` takes a string for the sequence of its characters, so that it raises for the text of every list, which
`de_array` reads. -/
theorem C128_string (s : Str) : ∃ e, strsToFloats num (.str ('[' :: s)) = .error e := by
  refine ⟨.valueError, ?_⟩
  have h : tokens [] (bracket ([['[']] ++ s.map fun c => [c])) = .open :: .open :: .comma :: (inter ((s.map fun c => [c]).map (tokens [])) ++ [.close]) ∨
      s = [] := by
    cases s with
    | nil => exact .inr rfl
    | cons c s =>
      left
      rw [tokens_bracket]
      simp [inter, tokens, flush]
  simp only [strsToFloats, List.map_cons, pure_eq_ok, ok_bind, literalEval]
  rcases h with h | rfl
  · simp only [List.cons_append, List.nil_append] at h
    rw [h]
    rfl
  · rfl

/-- **C128 (spaces).** Spaces at the end of a text and on both sides of brackets and commas do not matter. -/
theorem C128_spaces (s t : Str) (c : Char) (hc : c = '[' ∨ c = ']' ∨ c = ',') :
    literalEval num (s ++ [' ']) = literalEval num s ∧
    literalEval num (s ++ ' ' :: c :: t) = literalEval num (s ++ c :: t) ∧ literalEval num (s ++ c :: ' ' :: t) = literalEval num (s ++ c :: t) := by
  have hf : ∀ acc, flush (' ' :: acc) = flush acc := by
    intro acc
    simp [flush]
  have hl : ∀ t, tokens [] (' ' :: t) = tokens [] t := by
    intro t
    simp [tokens]
  have happ : ∀ (u v : Str), (∀ acc, tokens acc u = tokens acc v) → ∀ s acc, tokens acc (s ++ u) = tokens acc (s ++ v) := by
    intro u v huv s
    induction s with
    | nil => exact huv
    | cons d s ih =>
      intro acc
      simp only [List.cons_append, tokens, ih]
  have hend : ∀ acc, tokens acc [' '] = tokens acc [] := by
    intro acc
    by_cases ha : acc = []
    · subst ha; simp [tokens]
    · simp [tokens, ha, hf]
  have hbefore : ∀ acc, tokens acc (' ' :: c :: t) = tokens acc (c :: t) := by
    intro acc
    by_cases ha : acc = []
    · subst ha; exact hl _
    · rcases hc with rfl | rfl | rfl <;> simp [tokens, ha, hf]
  have hafter : ∀ acc, tokens acc (c :: ' ' :: t) = tokens acc (c :: t) := by
    intro acc
    rcases hc with rfl | rfl | rfl <;> simp [tokens]
  refine ⟨?_, ?_, ?_⟩
  · have := happ _ _ hend s []
    rw [List.append_nil] at this
    rw [literalEval, this, literalEval]
  · rw [literalEval, happ _ _ hbefore s, literalEval]
  · rw [literalEval, happ _ _ hafter s, literalEval]

/-- Spaces do matter inside of numbers. -/
example : literalEval Str.pyInt "[ 12 ,3 ] ".toList = .ok (.list [.num 12, .num 3]) ∧ literalEval Str.pyInt "[1 2]".toList = .error .valueError :=
  ⟨rfl, rfl⟩

/-- **C128 (rows may shift).** The number of rows need not be that of the strings; and if it is, the rows need not be those of the strings. -/
theorem C128_boundaries :
    deArray Str.pyInt (.list [some "[1]".toList, some "".toList]) = .ok (.list [.list [.num 1]]) ∧
    deArray Str.pyInt (.list [some "[0, 1".toList, some "2], 3".toList]) = .ok (.list [.list [.num 0, .num 1, .num 2], .num 3]) := by
  exact ⟨rfl, rfl⟩

/-- A round trip of rows of unequal length, one of them empty. -/
example : deArray Str.pyInt (.list [some "[0, 1]".toList, some "[]".toList, some "[[2], 34]".toList]) =
    .ok (.list [.list [.num 0, .num 1], .list [], .list [.list [.num 2], .num 34]]) := rfl

/-- The hypotheses of the round trip hold for lists of natural numbers in decimal notation. -/
example : ∀ x, (Lit.list [.num 12, .list [.num (7 : ℤ)]]).Has x → Plain (Str.ofInt x) ∧ Str.pyInt (Str.ofInt x) = .ok x := by
  intro x hx
  have : x = 12 ∨ x = 7 := by
    cases hx with
    | list hv hx =>
      simp only [List.mem_cons, List.not_mem_nil, or_false] at hv
      rcases hv with rfl | rfl
      · cases hx; exact .inl rfl
      · cases hx with
        | list hv hx =>
          simp only [List.mem_cons, List.not_mem_nil, or_false] at hv
          subst hv
          cases hx; exact .inr rfl
  rcases this with rfl | rfl
  · exact ⟨⟨by decide, by decide⟩, rfl⟩
  · exact ⟨⟨by decide, by decide⟩, rfl⟩

/-- `nan` is plain and no literal. -/
example : Plain "nan".toList ∧ ∃ e, Str.pyInt "nan".toList = .error e := ⟨⟨by decide, by decide⟩, _, rfl⟩

/-- The text of a numpy array has no commas, and is not read. -/
example : deArray Str.pyInt (.list [some "[0 1]".toList]) = .error .valueError := rfl

/-- A missing cell. -/
example : deArray Str.pyInt (.seq [some "[1]".toList, none]) = .error .typeError := rfl

/-- One number as a string: `strs_to_floats` gives its digits. -/
example : deArray Str.pyInt (.str "12".toList) = .ok (.list [.num 12]) ∧
    strsToFloats Str.pyInt (.str "12".toList) = .ok (.list [.num 1, .num 2]) := ⟨rfl, rfl⟩

end Verif
