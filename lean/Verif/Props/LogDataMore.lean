import Verif.Props.LogData
import Verif.Props.JobLogs

/-!
# C92, continued: saving, counting lines, and what goes wrong
-/

namespace Verif

open Str Jobs Structures Logs LogData

/-- How a note is written. -/
def C92_note (n : Str) : Str := if n.head? = some '#' then strip n else '#' :: ' ' :: strip n

/-- The rows of a table with the columns `ks`. -/
def C92_rows (ks : List Str) (cols : Str → List Str) (n : ℕ) : List (List Str) :=
  (List.range n).map fun i => ks.map fun k => (cols k).getD i []

namespace LogData

theorem sortStr_unique {l ks : List Str} (hp : ks.Perm l) (hs : ks.Pairwise (· ≤ ·)) : sortStr l = ks := by
  have h1 : (sortStr l).Pairwise (· ≤ ·) := by
    have := List.pairwise_mergeSort (le := fun a b : Str => decide (a ≤ b))
      (fun a b c h1 h2 => by
        rw [decide_eq_true_iff] at h1 h2 ⊢
        exact List.le_trans h1 h2)
      (fun a b => by
        rw [Bool.or_eq_true, decide_eq_true_iff, decide_eq_true_iff]
        exact List.le_total a b) l
    exact this.imp fun h => by simpa using h
  exact ((List.mergeSort_perm _ _).trans hp.symm).eq_of_pairwise (fun a b _ _ h1 h2 => List.le_antisymm h1 h2) h1 hs

theorem noteLines_ok {notes : List Str} (h : ∀ n ∈ notes, n ≠ []) : noteLines notes = (textOf (notes.map C92_note), .ok ()) := by
  induction notes with
  | nil => rfl
  | cons n notes ih =>
    obtain ⟨c, cs, rfl⟩ := List.exists_cons_of_ne_nil (h n List.mem_cons_self)
    rw [noteLines, ih fun n hn => h n (List.mem_cons_of_mem _ hn), List.map_cons, textOf_cons, C92_note]
    by_cases e : c = '#'
    · simp [e]
    · simp [e]

theorem noteLines_error {a b : List Str} (h : ∀ n ∈ a, n ≠ []) :
    noteLines (a ++ [] :: b) = (textOf (a.map C92_note), .error .indexError) := by
  induction a with
  | nil => rfl
  | cons n a ih =>
    obtain ⟨c, cs, rfl⟩ := List.exists_cons_of_ne_nil (h n List.mem_cons_self)
    rw [List.cons_append, noteLines, ih fun n hn => h n (List.mem_cons_of_mem _ hn), List.map_cons, textOf_cons, C92_note]
    by_cases e : c = '#'
    · simp [e]
    · simp [e]

theorem rowValues_ok {data : PyDict Str (List Str)} {cols : Str → List Str} {i : ℕ} {ks : List Str}
    (h : ∀ k ∈ ks, data.get? k = some (cols k) ∧ i < (cols k).length) :
    rowValues data i ks = .ok (ks.map fun k => (cols k).getD i []) := by
  induction ks with
  | nil => rfl
  | cons k ks ih =>
    obtain ⟨h1, h2⟩ := h k List.mem_cons_self
    have hget : pyGet (cols k) i = .ok ((cols k).getD i []) := by
      rw [pyGet, List.getElem?_eq_getElem h2, List.getD_eq_getElem?_getD, List.getElem?_eq_getElem h2]
      rfl
    simp only [rowValues, PyDict.getE, h1, ok_bind, hget, ih fun k hk => h k (List.mem_cons_of_mem _ hk), pure_eq_ok, List.map_cons]

theorem rowLines_ok {data : PyDict Str (List Str)} {cols : Str → List Str} {ks : List Str} {is : List ℕ}
    (h : ∀ i ∈ is, ∀ k ∈ ks, data.get? k = some (cols k) ∧ i < (cols k).length) :
    rowLines data ks is = (textOf ((is.map fun i => ks.map fun k => (cols k).getD i []).map lineOf), .ok ()) := by
  induction is with
  | nil => rfl
  | cons i is ih =>
    rw [rowLines, rowValues_ok (h i List.mem_cons_self), ih fun i hi => h i (List.mem_cons_of_mem _ hi), List.map_cons, List.map_cons,
      textOf_cons, ← lineOf_eq]
    simp

end LogData

/-- The characters between the columns are those that Python takes for white space. -/
theorem C92_white_space (c : Char) : Str.isSpace c = true ↔ c.toNat ∈ Logs.whiteSpace := by
  have h : c = ' ' ↔ c.toNat = 32 := ⟨fun h => by rw [h]; rfl, fun h => Char.toNat_inj.1 h⟩
  simp only [Str.isSpace, Str.isWideSpace, h, Logs.whiteSpace, Bool.or_eq_true, Bool.and_eq_true, decide_eq_true_eq, List.mem_cons,
    List.not_mem_nil, or_false]
  omega

/-- Saving writes the path and the notes as comments, then the headers in order, then one line for every element of the first column
with the elements of all columns.  The rest of a longer column is not written.  Other files stay as they are. -/
theorem C92_save (w : World) (p : Str) (data : PyDict Str (List Str)) (notes : List Str) (k : Str) (ks : List Str)
    (hp : (k :: ks).Perm data.keys) (hs : (k :: ks).Pairwise (· ≤ ·)) (cols : Str → List Str)
    (hcols : ∀ k' ∈ k :: ks, data.get? k' = some (cols k') ∧ (cols k).length ≤ (cols k').length) (hn : ∀ n ∈ notes, n ≠ [])
    (hd : w.dirs p = false) (hw : w.writable p = true) :
    (saveLogData w p data notes).2 = .ok p ∧
    (saveLogData w p data notes).1.files = Function.update w.files p (some (textOf (('#' :: ' ' :: p) :: notes.map C92_note ++
      lineOf (k :: ks) :: (C92_rows (k :: ks) cols (cols k).length).map lineOf))) := by
  have hsort := sortStr_unique hp hs
  have h0 := (hcols k List.mem_cons_self).1
  have hrow := rowLines_ok (data := data) (cols := cols) (ks := k :: ks) (is := List.range (cols k).length) (by
    intro i hi k' hk'
    exact ⟨(hcols k' hk').1, (List.mem_range.1 hi).trans_le (hcols k' hk').2⟩)
  unfold saveLogData
  rw [hsort]
  have hg : pyGet (k :: ks) 0 = .ok k := rfl
  simp only [hg, PyDict.getE, h0, hd, hw, noteLines_ok hn, hrow, Bool.false_or, Bool.not_true, Bool.false_eq_true, if_false]
  refine ⟨rfl, ?_⟩
  congr 2
  rw [textOf_append, textOf_cons, textOf_cons, lineOf_eq, C92_rows]
  simp

/-- What was saved is read again: columns of the same length with words in them, under headers which differ after cleaning. -/
theorem C92_round_trip (w : World) (p : Str) (data : PyDict Str (List Str)) (notes : List Str) (k : Str) (ks : List Str)
    (hp : (k :: ks).Perm data.keys) (hs : (k :: ks).Pairwise (· ≤ ·)) (cols : Str → List Str) (n : ℕ)
    (hcols : ∀ k' ∈ k :: ks, data.get? k' = some (cols k') ∧ (cols k').length = n ∧ ∀ v ∈ cols k', Word v)
    (hn : ∀ x ∈ notes, x ≠ [] ∧ '\n' ∉ x) (hd : w.dirs p = false) (hw : w.writable p = true) (hpn : '\n' ∉ p)
    (hk : ∀ k' ∈ k :: ks, Word k') (hnd : (k :: ks).Nodup) (hh : k.head? ≠ some '#')
    (hclean : ∀ a ∈ k :: ks, ∀ b ∈ k :: ks, clean a = clean b → a = b) :
    C92_File (saveLogData w p data notes).1 p ((' ' :: p) :: notes.map fun x => (C92_note x).tail) (k :: ks)
      (C92_rows (k :: ks) cols n) ∧
    ∀ i k', (k :: ks)[i]? = some k' → C92_column (C92_rows (k :: ks) cols n) i = cols k' := by
  have hlen : (cols k).length = n := (hcols k List.mem_cons_self).2.1
  obtain ⟨-, h2⟩ := C92_save w p data notes k ks hp hs cols
    (fun k' hk' => ⟨(hcols k' hk').1, by rw [hlen, (hcols k' hk').2.1]⟩) (fun x hx => (hn x hx).1) hd hw
  have hstrip : ∀ x : Str, '\n' ∉ x → '\n' ∉ strip x := by
    intro x hx h
    apply hx
    rw [strip] at h
    have h := List.mem_reverse.1 h
    have h := (List.dropWhile_sublist _).subset h
    have h := List.mem_reverse.1 h
    exact (List.dropWhile_sublist _).subset h
  have hnote : ∀ x ∈ notes, C92_note x = '#' :: (C92_note x).tail ∧ '\n' ∉ (C92_note x).tail := by
    intro x hx
    obtain ⟨hx1, hx2⟩ := hn x hx
    by_cases e : x.head? = some '#'
    · have h1 : C92_note x = strip x := by rw [C92_note, if_pos e]
      have h2 : (strip x).head? = some '#' := by
        obtain ⟨c, cs, rfl⟩ := List.exists_cons_of_ne_nil hx1
        cases e
        exact strip_head (by decide) cs
      rw [h1]
      refine ⟨?_, fun h => hstrip x hx2 (List.mem_of_mem_tail h)⟩
      cases hy : strip x with
      | nil => rw [hy] at h2; cases h2
      | cons c cs => rw [hy] at h2; cases h2; rfl
    · rw [C92_note, if_neg e]
      exact ⟨rfl, by simpa using hstrip x hx2⟩
  refine ⟨⟨?_, ?_, hk, ?_, by simp, by simpa using hh, hnd, hclean⟩, ?_⟩
  · rw [h2, Function.update_self, hlen]
    congr 3
    simp only [List.map_cons, List.map_map, List.cons.injEq, true_and]
    exact List.map_congr_left fun x hx => (hnote x hx).1
  · intro c hc
    rcases List.mem_cons.1 hc with rfl | hc
    · simpa using hpn
    · obtain ⟨x, hx, rfl⟩ := List.mem_map.1 hc
      exact (hnote x hx).2
  · intro r hr
    obtain ⟨i, hi, rfl⟩ := List.mem_map.1 hr
    refine ⟨by simp, fun v hv => ?_⟩
    obtain ⟨k', hk', rfl⟩ := List.mem_map.1 hv
    obtain ⟨-, h3, h4⟩ := hcols k' hk'
    have hi' : i < (cols k').length := by rw [h3]; exact List.mem_range.1 hi
    rw [List.getD_eq_getElem?_getD, List.getElem?_eq_getElem hi', Option.getD_some]
    exact h4 _ (List.getElem_mem _)
  · intro i k' hi
    obtain ⟨hlt, he⟩ := List.getElem?_eq_some_iff.1 hi
    have hm : k' ∈ k :: ks := List.mem_of_getElem? hi
    have h3 := (hcols k' hm).2.1
    apply List.ext_getElem
    · simp [C92_column, C92_rows, h3]
    · intro j hj1 hj2
      simp only [C92_column, C92_rows, List.map_map, List.getElem_map, List.getElem_range, Function.comp_apply]
      rw [List.getD_eq_getElem?_getD, List.getElem?_map, hi]
      simp [hj2]

/-- Two keys or more: the table that was saved comes back, with the columns converted. -/
theorem C92_round_trip_table {F : Type} (fl : Str → Option F) (w : World) (p : Str) (data : PyDict Str (List Str)) (notes : List Str)
    (k k2 : Str) (ks : List Str) (hp : (k :: k2 :: ks).Perm data.keys) (hs : (k :: k2 :: ks).Pairwise (· ≤ ·)) (cols : Str → List Str)
    (n : ℕ) (hcols : ∀ k' ∈ k :: k2 :: ks, data.get? k' = some (cols k') ∧ (cols k').length = n ∧ ∀ v ∈ cols k', Word v)
    (hn : ∀ x ∈ notes, x ≠ [] ∧ '\n' ∉ x) (hd : w.dirs p = false) (hw : w.writable p = true) (hpn : '\n' ∉ p)
    (hk : ∀ k' ∈ k :: k2 :: ks, Word k') (hnd : (k :: k2 :: ks).Nodup) (hh : k.head? ≠ some '#')
    (hclean : ∀ a ∈ k :: k2 :: ks, ∀ b ∈ k :: k2 :: ks, clean a = clean b → a = b) (hc : "comments".toList ∉ k :: k2 :: ks) :
    ∃ d, getLogData fl (saveLogData w p data notes).1 p none false = .ok (.table d) ∧ (∀ k', k' ∈ d.keys ↔ k' ∈ data.keys) ∧
      ∀ k' col, data.get? k' = some col →
        (∀ xs, col.mapM fl = some xs → d.get? k' = some (.numbers xs)) ∧
        (col.mapM fl = none → d.get? k' = some (.texts col)) := by
  obtain ⟨hf, hcol⟩ := C92_round_trip w p data notes k (k2 :: ks) hp hs cols n hcols hn hd hw hpn hk hnd hh hclean
  obtain ⟨S, hS, hsorted, -, -, he⟩ := C92_default fl _ _ _ _ _ hf false
  rw [he]
  have hmem : ∀ x, x ∈ S ↔ x ∈ k :: k2 :: ks := fun x => hS.mem_iff
  have hname : ∀ k' ∈ k :: k2 :: ks, ∃ i, (k :: k2 :: ks)[i]? = some k' := fun k' h => List.mem_iff_getElem?.1 h
  obtain ⟨d, h1, h2, h3⟩ := C92_table fl _ _ _ _ _ hf S (hS.nodup_iff.2 hnd) (fun h => hc ((hmem _).1 h)) k k2 0 1
    ((hmem _).2 (by simp)) ((hmem _).2 (by simp)) (fun e => by simp [e] at hnd) ⟨k, rfl, .inl rfl⟩ ⟨k2, rfl, .inl rfl⟩
  refine ⟨d, h1, fun k' => ?_, fun k' col hcol' => ?_⟩
  · rw [h2, hmem, ← hp.mem_iff]
    refine ⟨fun h => h.1, fun h => ⟨h, ?_⟩⟩
    obtain ⟨i, hi⟩ := hname k' h
    exact ⟨i, k', hi, .inl rfl⟩
  · have hk' : k' ∈ k :: k2 :: ks := hp.mem_iff.2 (PyDict.get?_isSome.1 ⟨col, hcol'⟩)
    obtain ⟨i, hi⟩ := hname k' hk'
    have := h3 k' ((hmem _).2 hk') i ⟨k', hi, .inl rfl⟩
    rw [hcol i k' hi] at this
    rw [(hcols k' hk').1] at hcol'
    cases hcol'
    exact this

/-! ### Counting lines -/

/-- The lines up to the first which is blank. -/
def C92_upToBlank (ls : List Str) : List Str := ls.takeWhile fun l => decide (l.head? = some '#') || decide (words l ≠ [])

namespace LogData

theorem readFloats_eq {F : Type} (fl : Str → Option F) (ls : List Str) : readFloats fl ls =
    match readStrings ls with
    | (none, r) => (none, r)
    | (some d, r) =>
      if d.isEmpty then (none, r)
      else
        match d.mapM fl with
        | some x => (some x, r)
        | none => readFloats fl r := by
  rw [readFloats]
  split
  · rename_i h
    rw [h]
  · rename_i h
    rw [h]
    rfl

theorem numLoop_unfold {F : Type} (fl : Str → Option F) (ls : List Str) : numLoop fl ls =
    match readFloats fl ls with
    | (none, _) => 0
    | (some _, r) => numLoop fl r + 1 := by
  rw [numLoop]
  split
  · rename_i h
    rw [h]
  · rename_i h
    rw [h]

theorem words_newline (l : Str) : words (l ++ ['\n']) = words l := by
  induction l with
  | nil => rfl
  | cons c cs ih =>
    rw [List.cons_append, words.eq_def (c :: (cs ++ ['\n'])), words.eq_def (c :: cs)]
    dsimp only
    rw [ih]
    cases cs with
    | nil =>
      have h1 : isSpace '\n' = true := by decide
      have h2 : words ['\n'] = [] := by decide
      simp [h1, words]
    | cons d ds => rfl

theorem numLoop_eq {F : Type} (fl : Str → Option F) (ls : List Str) :
    numLoop fl ls = ((C92_upToBlank ls).filter fun l => decide (l.head? ≠ some '#') && ((words l).mapM fl).isSome).length := by
  induction ls with
  | nil =>
    rw [numLoop]
    split
    · rfl
    · rename_i h
      have := readFloats_length fl h
      simp at this
  | cons l ls ih =>
    have hstep : readFloats fl (l :: ls) =
        if l.head? = some '#' then readFloats fl ls
        else if words l = [] then (none, ls)
        else match (words l).mapM fl with
          | some x => (some x, ls)
          | none => readFloats fl ls := by
      rw [readFloats_eq, readStrings]
      by_cases h1 : l.head? = some '#'
      · rw [if_pos h1, if_pos h1, readFloats_eq]
      · rw [if_neg h1, if_neg h1]
        by_cases h2 : words l = []
        · simp [h2]
        · simp only [h2, List.isEmpty_iff, if_false]
    have hcongr : ∀ a b : List Str, readFloats fl a = readFloats fl b → numLoop fl a = numLoop fl b := by
      intro a b h
      rw [numLoop_unfold, numLoop_unfold, h]
    by_cases h1 : l.head? = some '#'
    · rw [hcongr (l :: ls) ls (by rw [hstep, if_pos h1]), ih]
      simp [C92_upToBlank, h1]
    · rw [if_neg h1] at hstep
      by_cases h2 : words l = []
      · rw [if_pos h2] at hstep
        rw [numLoop]
        split
        · simp [C92_upToBlank, h1, h2]
        · rename_i h
          rw [hstep] at h
          cases h
      · rw [if_neg h2] at hstep
        cases hm : (words l).mapM fl with
        | none =>
          rw [hm] at hstep
          rw [hcongr (l :: ls) ls hstep, ih]
          simp [C92_upToBlank, h1, h2, hm]
        | some x =>
          rw [hm] at hstep
          rw [numLoop]
          split
          · rename_i h
            rw [hstep] at h
            cases h
          · rename_i h
            rw [hstep] at h
            cases h
            rw [ih]
            simp [C92_upToBlank, h1, h2, hm]

end LogData

/-- `num_data_lines` counts the lines in which all words are numbers, without comments, up to the first blank line. -/
theorem C92_num_lines {F : Type} (fl : Str → Option F) (w : World) (p : Str) :
    (w.files p = none → numDataLines fl w p = -1) ∧
    ∀ ls, (∀ l ∈ ls, '\n' ∉ l) → w.files p = some (textOf ls) → numDataLines fl w p =
      ((C92_upToBlank ls).filter fun l => decide (l.head? ≠ some '#') && ((words l).mapM fl).isSome).length := by
  refine ⟨fun h => by rw [numDataLines, h], fun ls hls h => ?_⟩
  rw [numDataLines, h]
  simp only [readlines_textOf hls, numLoop_eq]
  have hh : ∀ l : Str, (l ++ ['\n']).head? = some '#' ↔ l.head? = some '#' := by
    intro l
    cases l <;> simp
  rw [C92_upToBlank, List.takeWhile_map, List.filter_map, List.length_map, C92_upToBlank]
  congr 2
  congr 1
  · funext l
    simp only [Function.comp_apply, ne_eq, hh l, words_newline]
  · congr 1
    funext l
    simp only [Function.comp_apply, ne_eq, hh l, words_newline]

/-! ### What fails -/

/-- No file: no data. -/
theorem C92_no_file {F : Type} (fl : Str → Option F) (w : World) (p : Str) (S : Option (List Str)) (keep : Bool) (h : w.files p = none) :
    getLogData fl w p S keep = .ok .nothing := by
  rw [getLogData, h]

/-- A file that is empty or has only blank lines: NameError. -/
theorem C92_empty_file {F : Type} (fl : Str → Option F) (w : World) (p : Str) (S : Option (List Str)) (keep : Bool) (n : ℕ)
    (h : w.files p = some (List.replicate n '\n')) : getLogData fl w p S keep = .error .nameError := by
  have h1 : readlines (List.replicate n '\n') = List.replicate n ['\n'] := by
    clear h
    induction n with
    | zero => rfl
    | succ n ih => simp [List.replicate_succ, readlines, ih]
  have h2 : ∀ n, scanNotes (List.replicate n ['\n']) none [] 0 = (none, [], 0) := by
    intro n
    induction n with
    | zero => rfl
    | succ n ih => rw [List.replicate_succ, scanNotes, if_pos rfl, ih]
  rw [getLogData, h]
  simp only [h1]
  rw [fromLines, h2]

/-- A blank line before the comments: the line with the headers is read as if it were the first row. -/
theorem C92_blank_line {F : Type} (fl : Str → Option F) (w w' : World) (p : Str) (comments headers : List Str) (rows : List (List Str))
    (h : C92_File w p comments headers (headers :: rows)) (h' : w'.files p =
      some (textOf ([] :: comments.map (fun c => '#' :: c) ++ lineOf headers :: rows.map lineOf)))
    (S : Option (List Str)) (keep : Bool) :
    getLogData fl w' p S keep = getLogData fl w p S keep := by
  obtain ⟨c, h1, h2, h3, h4, h5⟩ := h.lines
  have hr : readlines (textOf ([] :: comments.map (fun c => '#' :: c) ++ lineOf headers :: rows.map lineOf)) =
      ['\n'] :: ((comments.map (· ++ ['\n'])).map (fun c => '#' :: c) ++
        (lineOf headers ++ ['\n']) :: (rows.map lineOf).map (· ++ ['\n'])) := by
    rw [readlines_textOf]
    · simp
    · intro l hl
      rw [List.cons_append, List.mem_cons, List.mem_append] at hl
      rcases hl with rfl | hl | hl
      · simp
      · obtain ⟨c, hc, rfl⟩ := List.mem_map.1 hl
        simp [h.comment c hc]
      · rcases List.mem_cons.1 hl with rfl | hl
        · exact lineOf_newline h.header
        · obtain ⟨r, hr, rfl⟩ := List.mem_map.1 hl
          exact lineOf_newline (h.row r (List.mem_cons_of_mem _ hr)).2
  have hhl : headerListLoop (readlines c) = headers := by
    rw [h2, headerListLoop_spec _ _ _ h3 (by rw [h5]; exact h.nonempty), h5]
  have hhl' : headerListLoop (['\n'] :: ((comments.map (· ++ ['\n'])).map (fun c => '#' :: c) ++
        (lineOf headers ++ ['\n']) :: (rows.map lineOf).map (· ++ ['\n']))) = headers := by
    rw [headerListLoop, if_pos (.inr (by decide)), headerListLoop_spec _ _ _ h3 (by rw [h5]; exact h.nonempty), h5]
  rw [getLogData, getLogData, h1, h']
  simp only [hr, hhl, hhl']
  rw [fromLines, fromLines, h2, scanNotes_spec _ _ _ h3 h4, scanNotes, if_pos rfl, scanNotes_spec _ _ _ h3 h4, h5]
  have d1 : (['\n'] :: ((comments.map (· ++ ['\n'])).map (fun c => '#' :: c) ++
        (lineOf headers ++ ['\n']) :: (rows.map lineOf).map (· ++ ['\n']))).drop (0 + ((comments.map (· ++ ['\n'])).length) + 1) =
      (lineOf headers ++ ['\n']) :: (rows.map lineOf).map (· ++ ['\n']) := by
    rw [List.drop_succ_cons, List.drop_append, List.drop_of_length_le (by simp)]
    simp
  have d2 : ((comments.map (· ++ ['\n'])).map (fun c => '#' :: c) ++
        (lineOf headers ++ ['\n']) :: ((headers :: rows).map lineOf).map (· ++ ['\n'])).drop (0 + ((comments.map (· ++ ['\n'])).length) + 1) =
      (lineOf headers ++ ['\n']) :: (rows.map lineOf).map (· ++ ['\n']) := by
    rw [List.drop_append, List.drop_of_length_le (by simp)]
    simp
  dsimp only
  rw [d1, d2]

namespace LogData

theorem appendRow_keys {ind : PyDict Str ℕ} {content : List Str} {ks : List Str} {d d' : PyDict Str (List Str)}
    (h : appendRow ind content d ks = .ok d') (hd : d.keys.Nodup) : d'.keys.Nodup := by
  induction ks generalizing d with
  | nil => cases h; exact hd
  | cons k ks ih =>
    simp only [appendRow, bind_eq_ok] at h
    obtain ⟨i, -, old, -, v, -, h⟩ := h
    exact ih h (PyDict.nodup_keys_set hd)

theorem appendRows_keys {ind : PyDict Str ℕ} {ks : List Str} {ls : List Str} {d d' : PyDict Str (List Str)}
    (h : appendRows ind ks d ls = .ok d') (hd : d.keys.Nodup) : d'.keys.Nodup := by
  induction ls generalizing d with
  | nil => cases h; exact hd
  | cons l ls ih =>
    simp only [appendRows, bind_eq_ok] at h
    obtain ⟨d1, h1, h⟩ := h
    exact ih h (appendRow_keys h1 hd)

theorem init_keys (ks : List Str) (d : PyDict Str (List Str)) (hd : d.keys.Nodup) :
    (PyDict.keys (ks.foldl (fun (d : PyDict Str (List Str)) k => d.set k []) d)).Nodup := by
  induction ks generalizing d with
  | nil => exact hd
  | cons k ks ih => exact ih _ (PyDict.nodup_keys_set hd)

theorem not_mem_erase {ν : Type} (d : PyDict Str ν) (k : Str) (hd : d.keys.Nodup) : k ∉ (d.erase k).keys := by
  induction d with
  | nil => simp [PyDict.erase, PyDict.keys]
  | cons x d ih =>
    obtain ⟨a, v⟩ := x
    rw [PyDict.keys_cons, List.nodup_cons] at hd
    rw [PyDict.erase]
    by_cases e : a = k
    · rw [if_pos e]
      exact e ▸ hd.1
    · rw [if_neg e, PyDict.keys_cons, List.mem_cons, not_or]
      exact ⟨fun h => e h.symm, ih hd.2⟩

theorem no_comments {F : Type} (fl : Str → Option F) (w : World) (p : Str) (S : Option (List Str)) (d : PyDict Str (Col F))
    (h : getLogData fl w p S false = .ok (.table d)) : "comments".toList ∉ d.keys := by
  rw [getLogData] at h
  split at h
  · cases h
  · rw [fromLines] at h
    dsimp only at h
    split at h
    · cases h
    · simp only [bind_eq_ok] at h
      obtain ⟨ind, -, data, h1, h⟩ := h
      split at h
      · simp only [bind_eq_ok] at h
        obtain ⟨l, -, h⟩ := h
        split at h <;> cases h
      · rw [if_neg (by simp), pure_eq_ok] at h
        cases h
        have hk : ∀ e : PyDict Str (List Str), ∀ f : Str × List Str → Col F, PyDict.keys (e.map fun kv => (kv.1, f kv)) = e.keys := by
          intro e f
          simp [PyDict.keys, List.map_map, Function.comp_def]
        rw [hk]
        refine not_mem_erase _ _ (appendRows_keys h1 (init_keys _ _ ?_))
        simp [PyDict.keys]

end LogData

/-- `get_snippets` always raises an exception: the comments which it takes from the data have been removed. -/
theorem C92_snippets {F : Type} (fl : Str → Option F) (w : World) (infile : Str) (headers : Option (List Str)) :
    ∃ e, getSnippets fl w infile headers = .error e := by
  rw [getSnippets]
  cases h : getLogData fl w infile headers false with
  | error e => exact ⟨e, rfl⟩
  | ok r =>
    rw [ok_bind]
    cases r with
    | nothing => exact ⟨_, rfl⟩
    | array l => exact ⟨_, rfl⟩
    | table d => exact ⟨.keyError, by simp only [no_comments fl w infile headers d h, if_false]⟩

/-- Saving a table without columns: IndexError, and nothing is written. -/
theorem C92_save_nothing (w : World) (p : Str) (notes : List Str) : saveLogData w p [] notes = (w, .error .indexError) := by
  unfold saveLogData
  rw [show sortStr (PyDict.keys ([] : PyDict Str (List Str))) = [] from List.mergeSort_nil]
  rfl

/-- Saving with an empty note: IndexError, and the file that was there is lost. -/
theorem C92_save_empty_note (w : World) (p : Str) (data : PyDict Str (List Str)) (hne : data ≠ []) (a b : List Str)
    (ha : ∀ n ∈ a, n ≠ []) (hd : w.dirs p = false) (hw : w.writable p = true) :
    (saveLogData w p data (a ++ [] :: b)).2 = .error .indexError ∧
    (saveLogData w p data (a ++ [] :: b)).1.files p = some (textOf (('#' :: ' ' :: p) :: a.map C92_note)) := by
  have hperm : (sortStr data.keys).Perm data.keys := List.mergeSort_perm _ _
  obtain ⟨k, ks, hk⟩ : ∃ k ks, sortStr data.keys = k :: ks := by
    cases hs : sortStr data.keys with
    | nil =>
      rw [hs] at hperm
      cases data with
      | nil => exact absurd rfl hne
      | cons x data => simp [PyDict.keys] at hperm
    | cons k ks => exact ⟨k, ks, rfl⟩
  obtain ⟨l, hl⟩ := PyDict.get?_isSome.2 (hperm.mem_iff.1 (hk ▸ List.mem_cons_self : k ∈ sortStr data.keys))
  unfold saveLogData
  rw [hk]
  have hg : pyGet (k :: ks) 0 = .ok k := rfl
  simp only [hg, PyDict.getE, hl, hd, hw, noteLines_error ha, Bool.false_or, Bool.not_true, Bool.false_eq_true, if_false]
  refine ⟨trivial, ?_⟩
  rw [Function.update_self, textOf_cons]

/-- A world with one file. -/
def C92_world (p : Str) (text : Str) : World := ⟨fun q => if q = p then some text else none, fun _ => false, fun _ => true⟩

/-- Digits are read as numbers, for the examples. -/
def C92_digit (s : Str) : Option ℕ :=
  match s with
  | [c] => if c.isDigit then some (c.toNat - 48) else none
  | _ => none

/-- Headers which are the same once they are cleaned: the last column is given for both. -/
theorem C92_same_header : ∃ d, getLogData C92_digit (C92_world "f".toList "a0 a[0]\n1 2\n".toList) "f".toList
      (some ["a0".toList, "a[0]".toList]) false = .ok (.table d) ∧
    d.get? "a0".toList = some (.numbers [2]) ∧ d.get? "a[0]".toList = some (.numbers [2]) := ⟨_, rfl, rfl, rfl⟩

/-- A header twice in the subset: its values come twice. -/
theorem C92_twice : ∃ d, getLogData C92_digit (C92_world "f".toList "a b\n1 2\n".toList) "f".toList
      (some ["a".toList, "a".toList]) false = .ok (.table d) ∧ d.get? "a".toList = some (.numbers [1, 1]) := ⟨_, rfl, rfl⟩

/-- A column with the name `comments`: it is not in the table. -/
theorem C92_comments_column : ∃ d, getLogData C92_digit (C92_world "f".toList "a b comments\n1 2 3\n".toList) "f".toList
      (some ["a".toList, "b".toList, "comments".toList]) false = .ok (.table d) ∧ d.get? "comments".toList = none := ⟨_, rfl, rfl⟩

/-! ### A concrete case -/

/-- The hypotheses of `C92_round_trip_table`. -/
example : ∃ d, getLogData C92_digit (saveLogData (C92_world "g".toList []) "f".toList
      [("b".toList, ["1".toList, "2".toList]), ("a".toList, ["x".toList, "3".toList])] ["note".toList]).1 "f".toList none false =
      .ok (.table d) ∧ d.get? "b".toList = some (.numbers [1, 2]) ∧ d.get? "a".toList = some (.texts ["x".toList, "3".toList]) := by
  obtain ⟨d, h1, -, h3⟩ := C92_round_trip_table C92_digit (C92_world "g".toList []) "f".toList
    [("b".toList, ["1".toList, "2".toList]), ("a".toList, ["x".toList, "3".toList])] ["note".toList] "a".toList "b".toList []
    (by decide) (by decide)
    (fun k => if k = "b".toList then ["1".toList, "2".toList] else ["x".toList, "3".toList]) 2 (by unfold Word; decide) (by decide) rfl rfl
    (by decide) (by unfold Word; decide) (by decide) (by decide) (by decide) (by decide)
  exact ⟨d, h1, (h3 _ _ rfl).1 _ (by rfl), (h3 _ _ rfl).2 (by rfl)⟩

/-- The hypotheses of `C92_array`. -/
example : getLogData C92_digit (C92_world "f".toList "# c\na b\n1 2\n3 4\n".toList) "f".toList (some ["b".toList, "z".toList]) false =
    .ok (.array [2, 4]) := by
  have hf : C92_File (C92_world "f".toList "# c\na b\n1 2\n3 4\n".toList) "f".toList [" c".toList] ["a".toList, "b".toList]
      [["1".toList, "2".toList], ["3".toList, "4".toList]] :=
    ⟨by decide, by decide, by unfold Word; decide, by unfold Word; decide, by decide, by decide, by decide, by decide⟩
  refine (C92_array C92_digit _ _ _ _ _ hf ["b".toList, "z".toList] (by decide) (by decide) "b".toList 1 (by decide)
    ⟨_, rfl, .inl rfl⟩ ?_).1 _ rfl
  intro k hk i hn
  rcases List.mem_cons.1 hk with rfl | hk
  · rfl
  · rw [List.mem_singleton] at hk
    subst hk
    obtain ⟨h, hh, e⟩ := hn
    match i, hh with
    | 0, hh => cases hh; exact absurd e (by decide)
    | 1, hh => cases hh; exact absurd e (by decide)
    | n + 2, hh => cases hh

example : numDataLines C92_digit (C92_world "f".toList "# c\na b\n1 2\n3 4\n".toList) "f".toList = 2 := by
  rw [(C92_num_lines C92_digit _ _).2 ["# c".toList, "a b".toList, "1 2".toList, "3 4".toList] (by decide) (by decide)]
  decide

end Verif
