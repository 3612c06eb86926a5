import Verif.Proofs.Jobs
import Mathlib.Data.List.TakeWhile

/-! The logs of jobs. -/

namespace Verif

namespace Jobs

open Str

theorem isSpace_colon : isSpace ':' = false := by decide

theorem stem_eq (f : Str) : (split '.' f).headD [] = stem f := by
  induction f with
  | nil => rfl
  | cons c f ih =>
    by_cases h : c = '.'
    · subst h
      rw [split_cons_self, stem, List.takeWhile_cons]
      rfl
    · obtain ⟨p, ps, e, e'⟩ := split_cons_ne h f
      rw [e, List.headD_cons] at ih
      rw [e', List.headD_cons, ih, stem, stem, List.takeWhile_cons, if_pos (by simpa using h)]

/-- The words of a text, apart from the first of them. -/
theorem words_eq_nil {s : Str} : words s = [] ↔ ∀ c ∈ s, isSpace c = true := by
  induction s with
  | nil => simp [words]
  | cons c s ih =>
    by_cases h : isSpace c = true
    · rw [words_cons_space h, ih]
      simp [h]
    · have hne : words (c :: s) ≠ [] := by
        cases s with
        | nil => simp [words, h]
        | cons d s =>
          rw [words, if_neg h]
          split_ifs
          · simp
          · split <;> simp
      simp [hne, h]

theorem exists_word {s : Str} (h : ¬ ∀ c ∈ s, isSpace c = true) :
    ∃ sp v rest, s = sp ++ v ++ rest ∧ (∀ c ∈ sp, isSpace c = true) ∧ v ≠ [] ∧ (∀ c ∈ v, isSpace c = false) ∧
      (∀ c ∈ rest.head?, isSpace c = true) ∧ ∃ ws, words s = v :: ws := by
  have h1 : s = s.takeWhile isSpace ++ s.dropWhile isSpace := (List.takeWhile_append_dropWhile).symm
  have hd : s.dropWhile isSpace ≠ [] := by
    intro e
    rw [List.dropWhile_eq_nil_iff] at e
    exact h e
  have h2 : s.dropWhile isSpace = (s.dropWhile isSpace).takeWhile (fun c => !isSpace c) ++
      (s.dropWhile isSpace).dropWhile (fun c => !isSpace c) := (List.takeWhile_append_dropWhile).symm
  have hsp : ∀ c ∈ s.takeWhile isSpace, isSpace c = true := fun c hc => List.mem_takeWhile_imp hc
  have hv : ∀ c ∈ (s.dropWhile isSpace).takeWhile (fun c => !isSpace c), isSpace c = false := by
    intro c hc
    have := List.mem_takeWhile_imp hc
    simpa using this
  have hv0 : (s.dropWhile isSpace).takeWhile (fun c => !isSpace c) ≠ [] := by
    obtain ⟨c, t, e⟩ := List.exists_cons_of_ne_nil hd
    have hc : isSpace c = false := by
      have := List.head_dropWhile_not isSpace hd
      simp only [e, List.head_cons] at this
      simpa using this
    rw [e, List.takeWhile_cons, hc]
    simp
  have hr : ∀ c ∈ ((s.dropWhile isSpace).dropWhile (fun c => !isSpace c)).head?, isSpace c = true := by
    intro c hc
    have hne : (s.dropWhile isSpace).dropWhile (fun c => !isSpace c) ≠ [] := by
      intro e
      rw [e] at hc
      simp at hc
    have := List.head_dropWhile_not (fun c => !isSpace c) hne
    rw [List.head?_eq_some_head hne, Option.mem_some_iff] at hc
    rw [hc] at this
    simpa using this
  refine ⟨_, _, _, by rw [List.append_assoc, ← h2, ← h1], hsp, hv0, hv, hr, ?_⟩
  refine ⟨words ((s.dropWhile isSpace).dropWhile (fun c => !isSpace c)), ?_⟩
  conv_lhs => rw [h1, h2]
  rw [words_spaces hsp, words_word hv0 hv _ hr]

/-- The second part of a line at colons. -/
theorem split_colon {line : Str} (h : ':' ∈ line) :
    ∃ a t, line = a ++ ':' :: t ∧ ':' ∉ a ∧ split ':' line = a :: split ':' t := by
  obtain ⟨a, t, e, ha⟩ := exists_first_part h
  exact ⟨a, t, e, ha, by rw [e, split_append_cons, split_of_not_mem ha]; rfl⟩

theorem head_split_colon (t : Str) : ∃ ps, split ':' t = t.takeWhile (· ≠ ':') :: ps := by
  induction t with
  | nil => exact ⟨[], rfl⟩
  | cons c t ih =>
    by_cases h : c = ':'
    · subst h
      exact ⟨split ':' t, by rw [split_cons_self, List.takeWhile_cons]; rfl⟩
    · obtain ⟨ps, e⟩ := ih
      obtain ⟨p, ps', e', e''⟩ := split_cons_ne h t
      rw [e] at e'
      obtain ⟨rfl, rfl⟩ := List.cons.inj e'
      exact ⟨ps, by rw [e'', List.takeWhile_cons, if_pos (by simpa using h)]⟩

theorem says_statLine {line k v : Str} (h : Says line k v) (data : PyDict Str Str) :
    statLine data (line ++ ['\n']) = data.set k v := by
  obtain ⟨a, sp, rest, rfl, ha, rfl, hsp, hv0, hv, hr⟩ := h
  have e1 : a ++ ':' :: sp ++ v ++ rest ++ ['\n'] = a ++ ':' :: (sp ++ v ++ (rest ++ ['\n'])) := by simp
  obtain ⟨ps, e2⟩ := head_split_colon (sp ++ v ++ (rest ++ ['\n']))
  have e3 : (sp ++ v ++ (rest ++ ['\n'])).takeWhile (· ≠ ':') = sp ++ (v ++ (rest ++ ['\n']).takeWhile (· ≠ ':')) := by
    rw [List.takeWhile_append_of_pos, List.append_assoc]
    intro c hc
    rcases List.mem_append.1 hc with hc | hc
    · have h1 := hsp c hc
      have : c ≠ ':' := by
        rintro rfl
        rw [isSpace_colon] at h1
        exact absurd h1 (by decide)
      simpa using this
    · simpa using (hv c hc).2
  have e4 : words (sp ++ (v ++ (rest ++ ['\n']).takeWhile (· ≠ ':'))) = v :: words ((rest ++ ['\n']).takeWhile (· ≠ ':')) := by
    rw [words_spaces hsp, words_word hv0 (fun c hc => (hv c hc).1)]
    intro c hc
    cases rest with
    | nil =>
      rw [List.nil_append, List.takeWhile_cons, if_pos (by decide)] at hc
      simp only [List.head?_cons, Option.mem_some_iff] at hc
      subst hc
      decide
    | cons d rest =>
      rw [List.cons_append, List.takeWhile_cons] at hc
      rcases hr d rfl with hd | rfl
      · have hd' : d ≠ ':' := by
          rintro rfl
          rw [isSpace_colon] at hd
          exact absurd hd (by decide)
        rw [if_pos (by simpa using hd')] at hc
        simp only [List.head?_cons, Option.mem_some_iff] at hc
        rwa [← hc]
      · simp at hc
  rw [statLine, e1, split_append_cons, split_of_not_mem ha, e2, e3]
  simp only [List.cons_append, List.nil_append, e4]

theorem not_says_statLine {line : Str} (hn : '\n' ∉ line) (h : ∀ k v, ¬ Says line k v) (data : PyDict Str Str) :
    statLine data (line ++ ['\n']) = data := by
  by_cases hc : ':' ∈ line
  · obtain ⟨a, t, e, ha, -⟩ := split_colon hc
    have e1 : line ++ ['\n'] = a ++ ':' :: (t ++ ['\n']) := by simp [e]
    obtain ⟨ps, e2⟩ := head_split_colon (t ++ ['\n'])
    rw [statLine, e1, split_append_cons, split_of_not_mem ha, e2]
    simp only [List.cons_append, List.nil_append]
    have hw : words ((t ++ ['\n']).takeWhile (· ≠ ':')) = [] := by
      by_contra hne
      rw [words_eq_nil] at hne
      obtain ⟨sp, v, rest, es, hsp, hv0, hv, hr, -⟩ := exists_word hne
      have hmem : ∀ c ∈ (t ++ ['\n']).takeWhile (· ≠ ':'), c ≠ ':' := fun c hc => by simpa using List.mem_takeWhile_imp hc
      have hvc : ∀ c ∈ v, c ≠ ':' := fun c hc => hmem c (by rw [es]; simp [hc])
      -- the line end is no part of the word
      have hsplit : t ++ ['\n'] = sp ++ v ++ (rest ++ (t ++ ['\n']).dropWhile (· ≠ ':')) := by
        rw [← List.append_assoc, ← es]
        exact (List.takeWhile_append_dropWhile).symm
      have htail : ∃ r, rest ++ (t ++ ['\n']).dropWhile (· ≠ ':') = r ++ ['\n'] := by
        have hne' : rest ++ (t ++ ['\n']).dropWhile (· ≠ ':') ≠ [] := by
          intro e0
          rw [e0, List.append_nil] at hsplit
          have h1 := congrArg List.getLast? hsplit
          rw [List.getLast?_append, List.getLast?_append, List.getLast?_eq_some_getLast hv0] at h1
          simp only [List.getLast?_singleton, Option.some_or, Option.some.injEq] at h1
          have := hv _ (List.getLast_mem hv0)
          rw [← h1] at this
          exact absurd this (by decide)
        obtain ⟨r, c, er⟩ := List.eq_nil_or_concat _ |>.resolve_left hne'
        refine ⟨r, ?_⟩
        rw [er] at hsplit ⊢
        have h1 := congrArg List.getLast? hsplit
        rw [List.getLast?_append, List.concat_eq_append, ← List.append_assoc, List.getLast?_append] at h1
        simp only [List.getLast?_singleton, Option.some_or, Option.some.injEq] at h1
        rw [h1, List.concat_eq_append]
      obtain ⟨r, er⟩ := htail
      rw [er, ← List.append_assoc] at hsplit
      have ht := List.append_cancel_right hsplit
      refine h (strip a) v ⟨a, sp, r, by rw [e, ht]; simp, ha, rfl, hsp, hv0, fun c hc => ⟨hv c hc, hvc c hc⟩, ?_⟩
      intro c hcr
      have hcr' : c ∈ (rest ++ (t ++ ['\n']).dropWhile (· ≠ ':')).head? := by
        rw [er]
        cases r with
        | nil => simp at hcr
        | cons d r => exact hcr
      cases rest with
      | cons d rest => exact .inl (hr c hcr')
      | nil =>
        rw [List.nil_append] at hcr'
        refine .inr ?_
        have hne : (t ++ ['\n']).dropWhile (· ≠ ':') ≠ [] := by
          intro e0
          rw [e0] at hcr'
          simp at hcr'
        have := List.head_dropWhile_not (fun c => decide (c ≠ ':')) hne
        rw [List.head?_eq_some_head hne, Option.mem_some_iff] at hcr'
        rw [hcr'] at this
        simpa using this
    rw [hw]
  · have : ':' ∉ line ++ ['\n'] := by simp [hc]
    rw [statLine, split_of_not_mem this]

theorem says_unique {line k k' v v' : Str} (h : Says line k v) (h' : Says line k' v') : k = k' ∧ v = v' := by
  have e1 := says_statLine h []
  rw [says_statLine h' []] at e1
  simp only [PyDict.set, List.cons.injEq, Prod.mk.injEq, and_true] at e1
  exact ⟨e1.1.symm, e1.2.symm⟩

theorem foldl_stat_get (ls : List Str) (h : ∀ l ∈ ls, '\n' ∉ l) (d : PyDict Str Str) (k : Str) :
    ((ls.map (· ++ ['\n'])).foldl statLine d).get? k =
      d.get? k ∧ (∀ l ∈ ls, ∀ v, ¬ Says l k v) ∨
    ∃ a l b v, ls = a ++ l :: b ∧ Says l k v ∧ (∀ l' ∈ b, ∀ v', ¬ Says l' k v') ∧
      ((ls.map (· ++ ['\n'])).foldl statLine d).get? k = some v := by
  induction ls using List.reverseRecOn with
  | nil => exact .inl ⟨rfl, by simp⟩
  | append_singleton ls l ih =>
    have ih := ih fun l' hl => h l' (List.mem_append_left _ hl)
    have hl : '\n' ∉ l := h l (by simp)
    rw [List.map_append, List.foldl_append, List.map_singleton, List.foldl_cons, List.foldl_nil]
    by_cases hs : ∃ k' v, Says l k' v
    · obtain ⟨k', v, hs⟩ := hs
      rw [says_statLine hs]
      by_cases e : k = k'
      · subst e
        exact .inr ⟨ls, l, [], v, rfl, hs, by simp, PyDict.get?_set_self _ _ _⟩
      · rw [PyDict.get?_set_other _ _ e]
        have hno : ∀ v', ¬ Says l k v' := fun v' hv => e (says_unique hv hs).1
        rcases ih with ⟨i1, i2⟩ | ⟨a, l', b, v', e1, i1, i2, i3⟩
        · refine .inl ⟨i1, fun l' hl' => ?_⟩
          rcases List.mem_append.1 hl' with hl' | hl'
          · exact i2 l' hl'
          · rw [List.mem_singleton] at hl'
            rw [hl']
            exact hno
        · refine .inr ⟨a, l', b ++ [l], v', by rw [e1]; simp, i1, fun l'' hl' => ?_, i3⟩
          rcases List.mem_append.1 hl' with hl' | hl'
          · exact i2 l'' hl'
          · rw [List.mem_singleton] at hl'
            rw [hl']
            exact hno
    · push Not at hs
      rw [not_says_statLine hl hs]
      rcases ih with ⟨i1, i2⟩ | ⟨a, l', b, v', e1, i1, i2, i3⟩
      · refine .inl ⟨i1, fun l' hl' => ?_⟩
        rcases List.mem_append.1 hl' with hl' | hl'
        · exact i2 l' hl'
        · rw [List.mem_singleton] at hl'
          rw [hl']
          exact hs k
      · refine .inr ⟨a, l', b ++ [l], v', by rw [e1]; simp, i1, fun l'' hl' => ?_, i3⟩
        rcases List.mem_append.1 hl' with hl' | hl'
        · exact i2 l'' hl'
        · rw [List.mem_singleton] at hl'
          rw [hl']
          exact hs k

end Jobs

end Verif
