import Verif.Spec.Structures
import Verif.Proofs.Strings
import Mathlib.Data.List.Infix

/-!
# Lemmas on paths
-/

namespace Verif

open Str

namespace Structures

theorem join_append_singleton {c : Char} {cs : List Str} (h : cs ≠ []) (x : Str) :
    join c (cs ++ [x]) = join c cs ++ c :: x := by
  induction cs with
  | nil => exact absurd rfl h
  | cons a cs ih =>
    cases cs with
    | nil => rfl
    | cons b cs =>
      rw [List.cons_append, join_cons (by simp), ih (by simp), join_cons (ps := b :: cs) (by simp)]
      simp

theorem join_append {c : Char} {cs ds : List Str} (h : cs ≠ []) (hd : ds ≠ []) :
    join c (cs ++ ds) = join c cs ++ c :: join c ds := by
  induction cs with
  | nil => exact absurd rfl h
  | cons a cs ih =>
    cases cs with
    | nil => rw [List.singleton_append, join_cons hd]; rfl
    | cons b cs =>
      rw [List.cons_append, join_cons (by simp), ih (by simp), join_cons (ps := b :: cs) (by simp)]
      simp

theorem afterLast_append {c : Char} (a : Str) {b : Str} (hb : c ∉ b) : afterLast c (a ++ c :: b) = b := by
  have : (a ++ c :: b).reverse = b.reverse ++ c :: a.reverse := by simp
  rw [afterLast, this, List.takeWhile_append_of_pos, List.takeWhile_cons_of_neg (by simp)]
  · simp
  · intro x hx
    simp only [ne_eq, decide_eq_true_eq]
    rintro rfl
    exact hb (by simpa using hx)

theorem afterLast_of_not_mem {c : Char} {b : Str} (hb : c ∉ b) : afterLast c b = b := by
  have h := List.takeWhile_append_of_pos (p := fun x => decide (x ≠ c)) (l₁ := b.reverse) (l₂ := []) (by
    intro x hx
    simp only [ne_eq, decide_eq_true_eq]
    rintro rfl
    exact hb (by simpa using hx))
  rw [List.append_nil, List.takeWhile_nil, List.append_nil] at h
  rw [afterLast, h, List.reverse_reverse]

theorem extension_infix (p : Str) : extension p <:+: afterLast '/' p := by
  rw [extension]
  split_ifs with h
  · obtain ⟨a, b, e, hb⟩ := exists_last_part h.1
    rw [e, afterLast_append a hb]
    exact ⟨a, [], by simp⟩
  · exact List.nil_infix

theorem goodComp_getLast {c : Str} (h : GoodComp c) : c.getLast? ≠ some '/' := fun e =>
  h.2.1 (List.mem_of_getLast? e)

theorem goodComp_head {c : Str} (h : GoodComp c) : c.head? ≠ some '/' := fun e =>
  h.2.1 (List.mem_of_mem_head? e)

theorem join_getLast {cs : List Str} (hne : cs ≠ []) (h : ∀ c ∈ cs, GoodComp c) :
    (join '/' cs).getLast? ≠ some '/' ∧ join '/' cs ≠ [] := by
  obtain ⟨ds, c, rfl⟩ : ∃ ds c, cs = ds ++ [c] := ⟨cs.dropLast, cs.getLast hne, (List.dropLast_append_getLast hne).symm⟩
  have hc := h c (by simp)
  by_cases hd : ds = []
  · subst hd; exact ⟨goodComp_getLast hc, hc.1⟩
  · rw [join_append_singleton hd]
    refine ⟨?_, by simp⟩
    have : join '/' ds ++ '/' :: c = (join '/' ds ++ ['/']) ++ c := by simp
    rw [this, List.getLast?_append_of_ne_nil _ hc.1]
    exact goodComp_getLast hc

theorem join_head {cs : List Str} (h : ∀ c ∈ cs, GoodComp c) : (join '/' cs).head? ≠ some '/' := by
  cases cs with
  | nil => simp [join]
  | cons c cs =>
    have hc := h c (by simp)
    cases cs with
    | nil => exact goodComp_head hc
    | cons d ds =>
      rw [join_cons (by simp)]
      cases c with
      | nil => exact absurd rfl hc.1
      | cons x xs =>
        have := goodComp_head hc
        simpa using this

theorem pathStr_append (k : ℕ) {cs : List Str} (hne : cs ≠ []) (c : Str) :
    pathStr k (cs ++ [c]) = pathStr k cs ++ '/' :: c := by
  rw [pathStr, join_append_singleton hne, pathStr, List.append_assoc]

theorem afterLast_pathStr (k : ℕ) (cs : List Str) {c : Str} (hc : GoodComp c) :
    afterLast '/' (pathStr k (cs ++ [c])) = c := by
  by_cases hne : cs = []
  · subst hne
    rw [List.nil_append, pathStr, join]
    cases k with
    | zero => exact afterLast_of_not_mem hc.2.1
    | succ k =>
      rw [List.replicate_succ', List.append_assoc]
      exact afterLast_append _ hc.2.1
  · rw [pathStr_append k hne]
    exact afterLast_append _ hc.2.1

/-- `os.path.split` takes off the last component. -/
theorem pathSplit_pathStr (k : ℕ) (cs : List Str) {c : Str} (h : ∀ c ∈ cs, GoodComp c) (hc : GoodComp c) :
    pathSplit (pathStr k (cs ++ [c])) = (pathStr k cs, c) := by
  rw [pathSplit, afterLast_pathStr k cs hc]
  by_cases hne : cs = []
  · subst hne
    have e : (pathStr k ([] ++ [c])).take ((pathStr k ([] ++ [c])).length - c.length) = pathStr k [] := by
      simp [pathStr, join]
    rw [e, if_pos]
    simp [pathStr, join]
  · have e : (pathStr k (cs ++ [c])).take ((pathStr k (cs ++ [c])).length - c.length) = pathStr k cs ++ ['/'] := by
      rw [pathStr_append k hne]
      have : pathStr k cs ++ '/' :: c = (pathStr k cs ++ ['/']) ++ c := by simp
      rw [this, List.length_append, Nat.add_sub_cancel, List.take_left]
    obtain ⟨h1, h2⟩ := join_getLast hne h
    have h3 : (pathStr k cs).getLast? ≠ some '/' := by
      rw [pathStr, List.getLast?_append_of_ne_nil _ h2]; exact h1
    have h4 : ∃ x ys, (pathStr k cs).reverse = x :: ys ∧ x ≠ '/' := by
      cases hr : (pathStr k cs).reverse with
      | nil =>
        rw [List.reverse_eq_nil_iff, pathStr, List.append_eq_nil_iff] at hr
        exact absurd hr.2 h2
      | cons x ys =>
        refine ⟨x, ys, rfl, ?_⟩
        rintro rfl
        apply h3
        rw [← List.head?_reverse, hr]
        rfl
    obtain ⟨x, ys, hx, hxs⟩ := h4
    rw [e, if_neg]
    · rw [rstrip, List.reverse_append, List.reverse_singleton, List.singleton_append,
        List.dropWhile_cons_of_pos (by simp), hx, List.dropWhile_cons_of_neg (by simpa using hxs), ← hx,
        List.reverse_reverse]
    · intro hall
      rw [List.all_eq_true] at hall
      have hm : x ∈ pathStr k cs ++ ['/'] := by
        have : x ∈ (pathStr k cs).reverse := by rw [hx]; simp
        simp only [List.mem_append]
        exact Or.inl (by simpa using this)
      exact hxs (by simpa using hall x hm)

theorem normLoop_good (r : Bool) {cs : List Str} (h : ∀ c ∈ cs, GoodComp c) (acc : List Str) :
    normLoop r acc cs = cs.reverse ++ acc := by
  induction cs generalizing acc with
  | nil => rfl
  | cons c cs ih =>
    have hc := h c (by simp)
    rw [normLoop, if_neg (by rintro (e | e) <;> [exact hc.1 e; exact hc.2.2.1 e]), if_pos (Or.inl hc.2.2.2),
      ih fun d hd => h d (List.mem_cons_of_mem _ hd)]
    simp

theorem split_good {cs : List Str} (hne : cs ≠ []) (h : ∀ c ∈ cs, GoodComp c) : split '/' (join '/' cs) = cs :=
  split_join hne fun c hc => (h c hc).2.1

theorem normLoop_split (r : Bool) {cs : List Str} (h : ∀ c ∈ cs, GoodComp c) :
    normLoop r [] (split '/' (join '/' cs)) = cs.reverse := by
  by_cases hne : cs = []
  · subst hne; rfl
  · rw [split_good hne h, normLoop_good r h, List.append_nil]

/-- `os.path.normpath` leaves a path in normal form as it is. -/
theorem normpath_pathStr {k : ℕ} (hk : k ≤ 2) {cs : List Str} (h : ∀ c ∈ cs, GoodComp c) (hne : k ≠ 0 ∨ cs ≠ []) :
    normpath (pathStr k cs) = pathStr k cs := by
  have hh := join_head h
  have hnil : pathStr k cs ≠ [] := by
    rw [pathStr]
    intro e
    rw [List.append_eq_nil_iff, List.replicate_eq_nil_iff] at e
    rcases hne with hne | hne
    · exact hne e.1
    · exact (join_getLast hne h).2 e.2
  rw [normpath, if_neg hnil]
  have hs : (if (pathStr k cs).head? = some '/' then
      (if (pathStr k cs).take 2 = ['/', '/'] ∧ (pathStr k cs).take 3 ≠ ['/', '/', '/'] then 2 else 1) else 0) = k := by
    rcases (by omega : k = 0 ∨ k = 1 ∨ k = 2) with rfl | rfl | rfl
    · rw [if_neg]; simpa [pathStr] using hh
    · rw [if_pos (by simp [pathStr, List.replicate]), if_neg]
      rintro ⟨e, -⟩
      simp only [pathStr, List.replicate, List.cons_append, List.nil_append, List.take_succ_cons] at e
      cases hj : join '/' cs with
      | nil => rw [hj] at e; simp at e
      | cons x xs => rw [hj] at e hh; simp at e hh; exact hh e
    · rw [if_pos (by simp [pathStr, List.replicate]), if_pos]
      refine ⟨by simp [pathStr, List.replicate], ?_⟩
      intro e
      simp only [pathStr, List.replicate, List.cons_append, List.nil_append, List.take_succ_cons] at e
      cases hj : join '/' cs with
      | nil => rw [hj] at e; simp at e
      | cons x xs => rw [hj] at e hh; simp at e hh; exact hh e
  simp only [hs]
  have hl : normLoop (decide (k ≠ 0)) [] (split '/' (pathStr k cs)) = cs.reverse := by
    have hskip : ∀ (n : ℕ) (r : Bool), normLoop r [] (split '/' (List.replicate n '/' ++ join '/' cs)) = cs.reverse := by
      intro n r
      induction n with
      | zero => exact normLoop_split r h
      | succ n ih =>
        rw [List.replicate_succ, List.cons_append, split_cons_self, normLoop, if_pos (Or.inl rfl), ih]
    exact hskip k _
  rw [hl, List.reverse_reverse]
  change (if pathStr k cs = [] then _ else pathStr k cs) = _
  rw [if_neg hnil]

/-- `os.path.join` of paths in normal form. -/
theorem pathJoin2_pathStr (k : ℕ) {cs ds : List Str} (h : ∀ c ∈ cs, GoodComp c) (hd : ∀ c ∈ ds, GoodComp c) (hne : ds ≠ []) :
    pathJoin2 (pathStr k cs) (pathStr 0 ds) = pathStr k (cs ++ ds) := by
  have e0 : pathStr 0 ds = join '/' ds := rfl
  rw [pathJoin2, e0, if_neg (join_head hd)]
  by_cases hc : cs = []
  · subst hc
    rw [if_pos]
    · simp [pathStr, join]
    · cases k with
      | zero => left; rfl
      | succ k => right; simp [pathStr, join, List.getLast?_replicate]
  · obtain ⟨h1, h2⟩ := join_getLast hc h
    rw [if_neg]
    · rw [pathStr, pathStr, join_append hc hne, List.append_assoc]
    · rintro (e | e)
      · rw [pathStr, List.append_eq_nil_iff] at e; exact h2 e.2
      · rw [pathStr, List.getLast?_append_of_ne_nil _ h2] at e; exact h1 e

/-- `os.path.join` of several paths in normal form. -/
theorem pathJoin_pathStr (ls : List (List Str)) (h : ∀ l ∈ ls, l ≠ [] ∧ ∀ c ∈ l, GoodComp c) :
    pathJoin (ls.map (pathStr 0)) = pathStr 0 ls.flatten := by
  cases ls with
  | nil => rfl
  | cons l ls =>
    rw [List.map_cons, pathJoin, List.flatten_cons]
    have key : ∀ (ls : List (List Str)) (cs : List Str), (∀ c ∈ cs, GoodComp c) → (∀ l ∈ ls, l ≠ [] ∧ ∀ c ∈ l, GoodComp c) →
        (ls.map (pathStr 0)).foldl pathJoin2 (pathStr 0 cs) = pathStr 0 (cs ++ ls.flatten) := by
      intro ls
      induction ls with
      | nil => intro cs _ _; simp
      | cons m ms ih =>
        intro cs hcs hms
        obtain ⟨hm1, hm2⟩ := hms m (by simp)
        rw [List.map_cons, List.foldl_cons, pathJoin2_pathStr 0 hcs hm2 hm1, ih (cs ++ m), List.flatten_cons, List.append_assoc]
        · intro c hc
          rcases List.mem_append.1 hc with hc | hc
          · exact hcs c hc
          · exact hm2 c hc
        · exact fun l hl => hms l (List.mem_cons_of_mem _ hl)
    exact key ls l (h l (by simp)).2 fun m hm => h m (List.mem_cons_of_mem _ hm)

end Structures

end Verif
