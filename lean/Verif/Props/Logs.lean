import Verif.Proofs.Logs

/-!
# C90: writing and reading log files
-/

namespace Verif

open Str Jobs Logs

/-- A file that is not there, or that may be overwritten, holds after any calls that write: the line with its name, the line with
the headers if there are any, and the written lines.  No other file is changed. -/
theorem C90_write (w : World) (baseDir : Option Str) (filepath dir name : Str) (safe : Bool) (headers : List Str)
    (hl : Located baseDir filepath dir name) (hd : Usable w dir) (h1 : w.dirs (dir ++ '/' :: name) = false)
    (h2 : w.writable (dir ++ '/' :: name) = true) (h3 : safe = true → w.files (dir ++ '/' :: name) = none) :
    ∃ w' wr, newWriter w filepath baseDir safe headers = (w', .ok wr) ∧
      ∀ os news, List.Forall₂ Writes os news → ∃ w'', steps (w', wr) os = ((w'', wr), .ok ()) ∧
        w''.files (dir ++ '/' :: name) =
          some (textOf ((['#', ' '] ++ filepath) :: (if headers = [] then [] else [lineOf headers]) ++ news.flatten)) ∧
        ∀ q, q ≠ dir ++ '/' :: name → w''.files q = w.files q := by
  have hp := hl.writer
  have hne : dir ++ '/' :: name ≠ dir := by
    intro e
    have := congrArg List.length e
    simp at this
  obtain ⟨w1, e1, f1, g1, d1⟩ := makedirs_ok hl.dirNe hd
  have hex : (safe && w1.exists' (dir ++ '/' :: name)) = false := by
    cases safe with
    | false => rfl
    | true => simp [World.exists', f1, h3 rfl, d1 _ hne, h1]
  let w2 : World := ⟨Function.update w1.files (dir ++ '/' :: name) (some []), w1.dirs, w1.writable⟩
  have e2 : openFile w1 (dir ++ '/' :: name) safe = (w2, some (.ok ())) := by
    rw [openFile, hex, if_neg (by simp), if_neg (by simp [d1 _ hne, h1, g1, h2])]
  let wr : Writer := ⟨dir ++ '/' :: name, filepath, headers, true, false⟩
  have o2 : Open w2 wr (dir ++ '/' :: name) [] := ⟨rfl, rfl, rfl, by simp [w2, textOf]⟩
  obtain ⟨w3, e3, o3, q3⟩ := o2.write ('#' :: ' ' :: filepath)
  obtain ⟨w4, e4, o4, q4⟩ := o3.writeList headers
  refine ⟨w4, wr, ?_, fun os news ho => ?_⟩
  · rw [newWriter, hp]
    simp only [pathSplit_file hl.dirNe hl.dirLast hl.nameSlash, e1, e2, Writer.comment]
    simp only [wr] at e3 e4 ⊢
    simp only [e3, e4]
  · obtain ⟨w5, e5, o5, q5⟩ := o4.steps ho
    refine ⟨w5, e5, by simpa using o5.files, fun q hq => ?_⟩
    rw [q5 q hq, q4 q hq, q3 q hq]
    simp only [w2, Function.update_of_ne hq, f1]

/-- In safe mode nothing can be done to a file that is there: no calls change any file.  Calls that write lines do nothing. -/
theorem C90_safe (w : World) (baseDir : Option Str) (filepath dir name : Str) (headers : List Str) (c : Str)
    (hl : Located baseDir filepath dir name) (hd : Usable w dir) (h : w.files (dir ++ '/' :: name) = some c) :
    ∃ w' wr, newWriter w filepath baseDir true headers = (w', .ok wr) ∧ (∀ q, w'.files q = w.files q) ∧
      ∀ os, (steps (w', wr) os).1.1 = w' ∧ ∀ news, List.Forall₂ Writes os news → (steps (w', wr) os).2 = .ok () := by
  obtain ⟨w1, e1, f1, -, -⟩ := makedirs_ok hl.dirNe hd
  have hp := hl.writer
  have e2 : openFile w1 (dir ++ '/' :: name) true = (w1, none) := by
    rw [openFile, if_pos (by simp [World.exists', f1, h])]
  refine ⟨w1, ⟨dir ++ '/' :: name, filepath, headers, false, false⟩, ?_, fun q => by rw [f1], fun os => ⟨steps_none rfl os, ?_⟩⟩
  · rw [newWriter, hp]
    simp only [pathSplit_file hl.dirNe hl.dirLast hl.nameSlash, e1, e2]
  · intro news ho
    induction ho with
    | nil => rfl
    | @cons o new os news ho _ ih =>
      have : step (w1, ⟨dir ++ '/' :: name, filepath, headers, false, false⟩) o =
          ((w1, ⟨dir ++ '/' :: name, filepath, headers, false, false⟩), .ok ()) := by
        cases ho <;> rfl
      simp only [steps, this, ih]

/-- But a data frame raises there, although the number of columns is right. -/
theorem C90_safe_frame (w : World) (wr : Writer) (h : wr.opened = false) (csv : Str) :
    wr.writeFrame w wr.headers.length csv = (w, .error .attributeError) := by
  rw [Writer.writeFrame, if_pos rfl, if_neg (by simp [h])]

/-- After `close`, nothing can be written to a log which was opened: every write raises and leaves every file as it is. -/
theorem C90_closed (w : World) (wr : Writer) (h : wr.opened = true) (value csv : Str) (values : List Str) (hv : values ≠ []) :
    wr.close.write w value = (w, .error .valueError) ∧ wr.close.comment w value = (w, .error .valueError) ∧
    wr.close.writeList w values = (w, .error .valueError) ∧ wr.close.writeFrame w wr.headers.length csv = (w, .error .valueError) := by
  have hw : ∀ v, wr.close.write w v = (w, .error .valueError) := by
    intro v
    simp [Writer.write, Writer.close, h]
  refine ⟨hw _, hw _, ?_, ?_⟩
  · have : values.isEmpty = false := by simpa using hv
    rw [Writer.writeList, this]
    exact hw _
  · simp [Writer.writeFrame, Writer.close, h]

/-- A log which is open before it is closed. -/
example (w : World) : (⟨['p'], ['p'], [], true, false⟩ : Writer).write w ['x'] ≠ (⟨['p'], ['p'], [], true, false⟩ : Writer).close.write w ['x'] := by
  simp [Writer.write, Writer.close]

/-- A file name without a directory raises, and no file is made. -/
theorem C90_no_directory (w : World) (filepath : Str) (safe : Bool) (headers : List Str) (h : '/' ∉ filepath) :
    newWriter w filepath none safe headers = (w, .error .osError) := by
  have : (pathSplit filepath).1 = [] := by
    rw [pathSplit, Structures.afterLast_of_not_mem h]
    simp
  rw [newWriter]
  simp only [writerPath, this, makedirs, if_true]

/-- Without safe mode the old contents are gone as soon as the writer is made. -/
theorem C90_write_log (w : World) (baseDir : Option Str) (logpath dir name : Str) (safe : Bool)
    (hl : Located baseDir logpath dir name) (hd : Usable w dir) (h1 : w.dirs (dir ++ '/' :: name) = false)
    (h2 : w.writable (dir ++ '/' :: name) = true) :
    ∃ w', writeLog w logpath baseDir safe = (w', .error .attributeError) ∧
      w'.files (dir ++ '/' :: name) =
        (if safe = true ∧ w.files (dir ++ '/' :: name) ≠ none then w.files (dir ++ '/' :: name)
          else some (['#', ' '] ++ logpath ++ ['\n'])) := by
  by_cases hs : safe = true ∧ w.files (dir ++ '/' :: name) ≠ none
  · rw [if_pos hs]
    obtain ⟨rfl, hs⟩ := hs
    obtain ⟨c, hc⟩ := Option.ne_none_iff_exists'.1 hs
    obtain ⟨w', wr, e, hq, -⟩ := C90_safe w baseDir logpath dir name [] c hl hd hc
    exact ⟨w', by simp only [writeLog, e], hq _⟩
  · rw [if_neg hs]
    obtain ⟨w', wr, e, h⟩ := C90_write w baseDir logpath dir name safe [] hl hd h1 h2 fun h => by
      by_contra hc
      exact hs ⟨h, hc⟩
    obtain ⟨w'', e', hf, -⟩ := h [] [] .nil
    cases e'
    exact ⟨w', by simp only [writeLog, e], by simpa [textOf] using hf⟩

/-- A file with comments, a line of headers and rows is read as what it is.  Going once through the reader gives one row; the
`k`th time it is the `k`th row. -/
theorem C90_read (num : Char → Bool) (w : World) (baseDir : Option Str) (filepath dir name : Str)
    (hl : Located baseDir filepath dir name) (comments headers : List Str) (rows : List (List Str))
    (hf : w.files (dir ++ '/' :: name) = some (textOf (comments.map (fun c => '#' :: c) ++ lineOf headers :: rows.map lineOf)))
    (hc : ∀ c ∈ comments, '\n' ∉ c) (hh : ∀ h ∈ headers, Word h) (hr : ∀ r ∈ rows, ∀ v ∈ r, Word v)
    (hne : headers ≠ []) (hfirst : ∀ h ∈ headers.head?, ∀ c ∈ h.head?, c ≠ '#' ∧ num c = false) :
    ∃ r r', newReader w filepath baseDir = .ok r ∧ r.getHeaders num = (r', some headers) ∧
      r'.comments = comments.map (· ++ ['\n']) ∧ r'.commentRows = comments.length ∧
      ∀ (k : ℕ) (row : List Str), rows[k]? = some row → (((fun r => (Reader.iter r).1)^[k] r').iter).2 = [row] := by
  obtain ⟨h, hs, rfl⟩ := List.exists_cons_of_ne_nil hne
  have hw := hh h List.mem_cons_self
  obtain ⟨c, t, rfl⟩ := List.exists_cons_of_ne_nil hw.1
  have hcn := hfirst (c :: t) rfl c rfl
  have hlines : ∀ l ∈ comments.map (fun c => '#' :: c) ++ lineOf ((c :: t) :: hs) :: rows.map lineOf, '\n' ∉ l := by
    intro l hl
    rcases List.mem_append.1 hl with hl | hl
    · obtain ⟨c, hc', rfl⟩ := List.mem_map.1 hl
      simp [hc c hc']
    · rcases List.mem_cons.1 hl with rfl | hl
      · exact lineOf_newline hh
      · obtain ⟨r, hr', rfl⟩ := List.mem_map.1 hl
        exact lineOf_newline (hr r hr')
  have hhead : (lineOf ((c :: t) :: hs) ++ ['\n']).head? = some c := by
    rw [List.head?_append, lineOf_head hs hw.1]
    rfl
  have hsk := skipLoop_comments (comments.map (· ++ ['\n'])) [] 0
    ((lineOf ((c :: t) :: hs) ++ ['\n']) :: (rows.map lineOf).map (· ++ ['\n'])) (by
      intro l hl
      cases hl
      rw [hhead]
      simpa using hcn.1)
  have hmap : (comments.map (fun c => '#' :: c) ++ lineOf ((c :: t) :: hs) :: rows.map lineOf).map (· ++ ['\n']) =
      (comments.map (· ++ ['\n'])).map (fun c => '#' :: c) ++
        ((lineOf ((c :: t) :: hs) ++ ['\n']) :: (rows.map lineOf).map (· ++ ['\n'])) := by
    simp
  let r' : Reader := ⟨(rows.map lineOf).map (· ++ ['\n']), comments.map (· ++ ['\n']), comments.length, some ((c :: t) :: hs)⟩
  refine ⟨_, r', by rw [newReader, hl.reader, hf], ?_, rfl, rfl, ?_⟩
  · rw [Reader.getHeaders, Reader.skipComments, readlines_textOf hlines, hmap, hsk]
    dsimp only
    rw [hhead, if_neg (by simp [hcn.2]), words_line hh]
    simp [r']
  · have hit : ∀ k, k ≤ rows.length → ((fun r => (Reader.iter r).1)^[k] r').lines = ((rows.map lineOf).map (· ++ ['\n'])).drop k := by
      intro k
      induction k with
      | zero => exact fun _ => rfl
      | succ k ih =>
        intro hk
        rw [Function.iterate_succ_apply']
        have := ih (by omega)
        have hlt : k < ((rows.map lineOf).map (· ++ ['\n'])).length := by simpa using hk
        rw [List.drop_eq_getElem_cons hlt] at this
        exact (iter_cons this).1
    intro k row hk
    obtain ⟨hk1, hk2⟩ := List.getElem?_eq_some_iff.1 hk
    have := hit k hk1.le
    have hlt : k < ((rows.map lineOf).map (· ++ ['\n'])).length := by simpa using hk1
    rw [List.drop_eq_getElem_cons hlt] at this
    rw [(iter_cons this).2, List.getElem_map, List.getElem_map, hk2, words_line (hr row (List.mem_of_getElem? hk))]

/-- A log that was written can be read: headers, and row by row what was written. -/
theorem C90_round_trip (num : Char → Bool) (w : World) (baseDir : Option Str) (filepath dir name : Str) (safe : Bool)
    (headers : List Str) (rows : List (List Str))
    (hl : Located baseDir filepath dir name) (hd : Usable w dir) (h1 : w.dirs (dir ++ '/' :: name) = false)
    (h2 : w.writable (dir ++ '/' :: name) = true) (h3 : safe = true → w.files (dir ++ '/' :: name) = none)
    (hpath : '\n' ∉ filepath) (hh : ∀ h ∈ headers, Word h) (hr : ∀ r ∈ rows, r ≠ [] ∧ ∀ v ∈ r, Word v)
    (hne : headers ≠ []) (hfirst : ∀ h ∈ headers.head?, ∀ c ∈ h.head?, c ≠ '#' ∧ num c = false) :
    ∃ w' wr w'', newWriter w filepath baseDir safe headers = (w', .ok wr) ∧
      steps (w', wr) (rows.map Op.list) = ((w'', wr), .ok ()) ∧
      ∃ r r', newReader w'' filepath baseDir = .ok r ∧ r.getHeaders num = (r', some headers) ∧
        ∀ (k : ℕ) (row : List Str), rows[k]? = some row → (((fun r => (Reader.iter r).1)^[k] r').iter).2 = [row] := by
  obtain ⟨w', wr, e, h⟩ := C90_write w baseDir filepath dir name safe headers hl hd h1 h2 h3
  have ho : List.Forall₂ Writes (rows.map Op.list) (rows.map fun r => [lineOf r]) := by
    rw [List.forall₂_map_left_iff, List.forall₂_map_right_iff, List.forall₂_same]
    intro r hr'
    obtain ⟨v, vs, rfl⟩ := List.exists_cons_of_ne_nil (hr r hr').1
    exact .list v vs
  obtain ⟨w'', e', hf, -⟩ := h _ _ ho
  have hflat : (rows.map fun r => [lineOf r]).flatten = rows.map lineOf := by
    clear ho e' hf h e hr
    induction rows with
    | nil => rfl
    | cons r rows ih => simp [ih]
  rw [hflat, if_neg hne] at hf
  obtain ⟨r, r', h4, h5, -, -, h6⟩ := C90_read num w'' baseDir filepath dir name hl [' ' :: filepath] headers rows
    (by rw [hf]; simp) (by simpa using hpath) hh (fun r hr' => (hr r hr').2) hne hfirst
  exact ⟨w', wr, w'', e, e', r, r', h4, h5, h6⟩

/-- Without a line of headers the first row is taken for one, unless its first character is a digit: a row that begins with
a negative number is lost. -/
theorem C90_lost_row (num : Char → Bool) (w : World) (p : Str) (row : List Str) (rows : List (List Str)) (comments : List Str)
    (hf : w.files p = some (textOf (comments.map (fun c => '#' :: c) ++ lineOf row :: rows.map lineOf)))
    (hc : ∀ c ∈ comments, '\n' ∉ c) (hr : ∀ r ∈ row :: rows, ∀ v ∈ r, Word v) (c : Char)
    (hrow : (lineOf row).head? = some c) (hcc : c ≠ '#') :
    ∃ r r', newReader w p none = .ok r ∧
      (num c = true → r.getHeaders num = (r', none) ∧ (Reader.iter r').2 = [row]) ∧
      (num c = false → r.getHeaders num = (r', some row) ∧ (Reader.iter r').2 = [rows.headD []]) := by
  have hlines : ∀ l ∈ comments.map (fun c => '#' :: c) ++ lineOf row :: rows.map lineOf, '\n' ∉ l := by
    intro l hl
    rcases List.mem_append.1 hl with hl | hl
    · obtain ⟨c, hc', rfl⟩ := List.mem_map.1 hl
      simp [hc c hc']
    · rcases List.mem_cons.1 hl with rfl | hl
      · exact lineOf_newline (hr row List.mem_cons_self)
      · obtain ⟨r, hr', rfl⟩ := List.mem_map.1 hl
        exact lineOf_newline (hr r (List.mem_cons_of_mem _ hr'))
  have hhead : (lineOf row ++ ['\n']).head? = some c := by
    rw [List.head?_append, hrow]
    rfl
  have hsk := skipLoop_comments (comments.map (· ++ ['\n'])) [] 0
    ((lineOf row ++ ['\n']) :: (rows.map lineOf).map (· ++ ['\n'])) (by
      intro l hl
      cases hl
      rw [hhead]
      simpa using hcc)
  have hmap : (comments.map (fun c => '#' :: c) ++ lineOf row :: rows.map lineOf).map (· ++ ['\n']) =
      (comments.map (· ++ ['\n'])).map (fun c => '#' :: c) ++
        ((lineOf row ++ ['\n']) :: (rows.map lineOf).map (· ++ ['\n'])) := by
    simp
  have hnew : newReader w p none = .ok ⟨readlines (textOf (comments.map (fun c => '#' :: c) ++ lineOf row :: rows.map lineOf)), [], 0, none⟩ := by
    rw [newReader, pathify, hf]
  cases hn : num c with
  | true =>
    refine ⟨_, ⟨(lineOf row ++ ['\n']) :: (rows.map lineOf).map (· ++ ['\n']), comments.map (· ++ ['\n']), comments.length, none⟩,
      hnew, fun _ => ⟨?_, ?_⟩, by simp⟩
    · rw [Reader.getHeaders, Reader.skipComments, readlines_textOf hlines, hmap, hsk]
      dsimp only
      rw [hhead, if_pos (by simp [hn])]
      simp
    · simp only [Reader.iter, words_line (hr row List.mem_cons_self)]
  | false =>
    refine ⟨_, ⟨(rows.map lineOf).map (· ++ ['\n']), comments.map (· ++ ['\n']), comments.length, some row⟩,
      hnew, by simp, fun _ => ⟨?_, ?_⟩⟩
    · rw [Reader.getHeaders, Reader.skipComments, readlines_textOf hlines, hmap, hsk]
      dsimp only
      rw [hhead, if_neg (by simp [hn]), words_line (hr row List.mem_cons_self)]
      simp
    · cases rows with
      | nil => rfl
      | cons r rows => simp [Reader.iter, words_line (hr r (by simp))]

/-- `check_headers`: the headers of a file, those that are asked for by name or by the part before the first hyphen. -/
theorem C90_check_headers (w : World) (p : Str) (comments headers rest subset : List Str)
    (hf : w.files p = some (textOf (comments.map (fun c => '#' :: c) ++ lineOf headers :: rest)))
    (hc : ∀ c ∈ comments, '\n' ∉ c) (hh : ∀ h ∈ headers, Word h) (hr : ∀ l ∈ rest, '\n' ∉ l)
    (hfirst : (lineOf headers).head? ≠ some '#') :
    (checkHeaders w p [] = .ok headers) ∧
    (subset ≠ [] → ∃ hs, checkHeaders w p subset = .ok hs ∧ hs.Sublist headers ∧
      ∀ h, h ∈ hs ↔ h ∈ headers ∧ (h ∈ subset ∨ h.takeWhile (· ≠ '-') ∈ subset)) := by
  have hlines : ∀ l ∈ comments.map (fun c => '#' :: c) ++ lineOf headers :: rest, '\n' ∉ l := by
    intro l hl
    rcases List.mem_append.1 hl with hl | hl
    · obtain ⟨c, hc', rfl⟩ := List.mem_map.1 hl
      simp [hc c hc']
    · rcases List.mem_cons.1 hl with rfl | hl
      · exact lineOf_newline hh
      · exact hr l hl
  have hhead : (lineOf headers ++ ['\n']).head? ≠ some '#' := by
    rw [List.head?_append]
    cases e : (lineOf headers).head? with
    | none => decide
    | some c =>
      rw [e] at hfirst
      simpa using hfirst
  have hmap : (comments.map (fun c => '#' :: c) ++ lineOf headers :: rest).map (· ++ ['\n']) =
      (comments.map (· ++ ['\n'])).map (fun c => '#' :: c) ++
        ((lineOf headers ++ ['\n']) :: rest.map (· ++ ['\n'])) := by
    simp
  have hline := headerLine_comments (comments.map (· ++ ['\n'])) _ (rest.map (· ++ ['\n'])) hhead
  have hcheck : ∀ subset : List Str, checkHeaders w p subset = (if subset.isEmpty then pure headers
      else pure (headers.filter fun h => decide ((split '-' h).headD [] ∈ subset ∨ h ∈ subset))) := by
    intro subset
    rw [checkHeaders, hf]
    dsimp only
    rw [readlines_textOf hlines, hmap]
    split
    · rename_i h
      exact absurd h (by simp)
    · rw [hline, ok_bind, words_line hh]
  have hsp : ∀ h : Str, (split '-' h).headD [] = h.takeWhile (· ≠ '-') := by
    intro h
    induction h with
    | nil => rfl
    | cons c h ih =>
      by_cases e : c = '-'
      · subst e
        rw [split_cons_self]
        simp
      · obtain ⟨p, ps, h1, h2⟩ := split_cons_ne e h
        rw [h1] at ih
        rw [h2, List.takeWhile_cons_of_pos (by simpa using e), ← ih]
        rfl
  refine ⟨hcheck [], fun hs => ⟨_, by rw [hcheck, if_neg (by simpa using hs)]; rfl, List.filter_sublist, fun h => ?_⟩⟩
  rw [List.mem_filter, hsp, decide_eq_true_iff]
  tauto

/-- A file of comments only: `check_headers` raises, the reader finds no headers. -/
theorem C90_only_comments (num : Char → Bool) (w : World) (p : Str) (c : Str) (cs : List Str)
    (hf : w.files p = some (textOf ((c :: cs).map (fun c => '#' :: c)))) (hc : ∀ l ∈ c :: cs, '\n' ∉ l) (subset : List Str) :
    checkHeaders w p subset = .error .indexError ∧ ∃ r, newReader w p none = .ok r ∧ (r.getHeaders num).2 = none := by
  have hlines : ∀ l ∈ (c :: cs).map (fun c => '#' :: c), '\n' ∉ l := by
    intro l hl
    obtain ⟨c, hc', rfl⟩ := List.mem_map.1 hl
    simp [hc c hc']
  have hmap : ((c :: cs).map (fun c => '#' :: c)).map (· ++ ['\n']) = ((c :: cs).map (· ++ ['\n'])).map (fun c => '#' :: c) := by
    simp
  constructor
  · have herr : ∀ cs : List Str, headerLine (cs.map fun c => '#' :: c) = .error .indexError := by
      intro cs
      induction cs with
      | nil => rfl
      | cons c cs ih => rw [List.map_cons, headerLine, if_pos List.head?_cons, ih]
    rw [checkHeaders, hf]
    dsimp only
    rw [readlines_textOf hlines, hmap]
    split
    · rename_i h
      exact absurd h (by simp)
    · rw [herr]
      rfl
  · refine ⟨_, by rw [newReader, pathify, hf], ?_⟩
    have := skipLoop_comments ((c :: cs).map (· ++ ['\n'])) [] 0 [] (by simp)
    rw [List.append_nil] at this
    rw [Reader.getHeaders, Reader.skipComments, readlines_textOf hlines, hmap, this]

/-- A log with headers and two rows. -/
example : ∃ w' wr w'', newWriter ⟨fun _ => none, fun _ => false, fun _ => true⟩ "emg.txt".toList (some "d".toList) true
      ["emg-0".toList, "emg-1".toList] = (w', .ok wr) ∧
    steps (w', wr) ([["1".toList, "2".toList], ["3".toList, "4".toList]].map Op.list) = ((w'', wr), .ok ()) ∧
    ∃ r r', newReader w'' "emg.txt".toList (some "d".toList) = .ok r ∧
      r.getHeaders Char.isDigit = (r', some ["emg-0".toList, "emg-1".toList]) ∧
      ∀ (k : ℕ) (row : List Str), [["1".toList, "2".toList], ["3".toList, "4".toList]][k]? = some row →
        (((fun r => (Reader.iter r).1)^[k] r').iter).2 = [row] :=
  C90_round_trip Char.isDigit _ _ _ "d".toList "emg.txt".toList true _ _
    ⟨by decide, by decide, by decide, by decide, .inr ⟨by decide, by decide, by decide, rfl⟩⟩ (.inr ⟨rfl, rfl⟩) rfl rfl (fun _ => rfl)
    (by decide) (by simp [Word]; decide) (by simp [Word]; decide) (by decide) (by simp)

/-- A row that begins with a negative number. -/
example (w : World) (h : w.files ['p'] = some "# p\n-1 2\n3 4\n".toList) :
    ∃ r r', newReader w ['p'] none = .ok r ∧ r.getHeaders Char.isDigit = (r', some ["-1".toList, "2".toList]) ∧
      (Reader.iter r').2 = [["3".toList, "4".toList]] := by
  refine ⟨_, _, by rw [newReader, pathify, h], rfl, by decide⟩

end Verif
