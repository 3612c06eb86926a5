import Verif.Proofs.Reformat

/-!
# C123: conversion of a raw log
-/

namespace Verif

open Logs Jobs

/-- The names of the files that are made. -/
def reformatted : List Str := ["emg.txt".toList, "glove.txt".toList, "labels.txt".toList]

/-- **C123.** At every moment, whether the run ends normally, raises or is stopped: no file that was there is changed, and the only new files are
those with the three names, each of which begins like its complete text. -/
theorem C123_keeps (readLog : Str → Py Frame) (w : World) (dir : Str) (hd : dir ≠ []) (w' : World)
    (h : w' = (reformatData readLog w dir).1.1 ∨ w' ∈ (reformatData readLog w dir).2) (p : Str) :
    w'.files p = w.files p ∨ (w.files p = none ∧ ∃ raw fr, w.files (Str.pathJoin2 dir "raw-data.txt".toList) = some raw ∧ readLog raw = .ok fr ∧
      ∃ x ∈ [("emg.txt".toList, fr.emg), ("glove.txt".toList, fr.glove), ("labels.txt".toList, fr.labels)],
        p = Str.pathJoin2 dir x.1 ∧ ∃ t, w'.files p = some t ∧
          t <+: "# ".toList ++ x.1 ++ ['\n'] ++ match x.2 with | .ok s => s | .error _ => []) := by
  unfold reformatData at h
  cases hr : w.files (Str.pathJoin2 dir "raw-data.txt".toList) with
  | none =>
    simp only [hr, List.mem_singleton, or_self] at h
    rw [h]
    exact .inl rfl
  | some raw =>
    cases hf : readLog raw with
    | error e =>
      simp only [hr, hf, List.mem_singleton, or_self] at h
      rw [h]
      exact .inl rfl
    | ok fr =>
      simp only [hr, hf] at h
      rcases saveAll_during h p with e | ⟨a, x, hx, b, t, c, d⟩
      · exact .inl e
      · refine .inr ⟨a, raw, fr, rfl, hf, x, hx, ?_, t, d, ?_⟩
        · rw [b, writerPath_dir hd]
        · have e : "# ".toList ++ x.1 ++ ['\n'] = headLine x.1 := rfl
          rw [e]
          exact c

theorem reformatted_plain : ∀ n ∈ reformatted, '/' ∉ n := by decide

theorem emg_mem : "emg.txt".toList ∈ reformatted := by decide

theorem glove_mem : "glove.txt".toList ∈ reformatted := by decide

theorem labels_mem : "labels.txt".toList ∈ reformatted := by decide

theorem reformat_raw {w : World} {dir raw : Str} (h1 : dir ≠ []) (h2 : dir.getLast? ≠ some '/')
    (hraw : w.files (dir ++ "/raw-data.txt".toList) = some raw) :
    w.files (Str.pathJoin2 dir "raw-data.txt".toList) = some raw ∧ Str.pathJoin2 dir "raw-data.txt".toList = dir ++ "/raw-data.txt".toList := by
  have : Str.pathJoin2 dir "raw-data.txt".toList = dir ++ "/raw-data.txt".toList := by
    rw [pathJoin2_of h1 h2 (by decide)]
    rfl
  exact ⟨by rw [this, hraw], this⟩

/-- **C123, a new directory.** If none of the three files is there, they can be written and every part can be converted, then the files hold
the line with their name and the converted part, and nothing else is changed.  (Missing: the same for every normal end, which is
false, see `C123_stopped` and `C123_conversion_fails`.) -/
theorem C123_reformat_partial (readLog : Str → Py Frame) (w : World) (dir raw a b c : Str) (h1 : dir ≠ []) (h2 : dir.getLast? ≠ some '/')
    (hd : w.dirs dir = true) (hraw : w.files (dir ++ "/raw-data.txt".toList) = some raw) (hr : readLog raw = .ok ⟨.ok a, .ok b, .ok c⟩)
    (hn : ∀ n ∈ reformatted, w.exists' (dir ++ '/' :: n) = false ∧ w.writable (dir ++ '/' :: n) = true) :
    (reformatData readLog w dir).1 = (World.mk (fun p =>
      if p = dir ++ "/emg.txt".toList then some ("# emg.txt\n".toList ++ a)
      else if p = dir ++ "/glove.txt".toList then some ("# glove.txt\n".toList ++ b)
      else if p = dir ++ "/labels.txt".toList then some ("# labels.txt\n".toList ++ c)
      else w.files p) w.dirs w.writable, .ok ()) := by
  obtain ⟨hsp, hfile⟩ := reformat_raw h1 h2 hraw
  simp only [reformatData, hsp, hr]
  have := saveAll_new (l := [("emg.txt".toList, a), ("glove.txt".toList, b), ("labels.txt".toList, c)]) h1 h2 hd
    (show reformatted.Nodup by decide +kernel) (by
    intro x hx
    simp only [List.mem_cons, List.not_mem_nil, or_false] at hx
    rcases hx with rfl | rfl | rfl
    · exact ⟨reformatted_plain _ emg_mem, hn _ emg_mem⟩
    · exact ⟨reformatted_plain _ glove_mem, hn _ glove_mem⟩
    · exact ⟨reformatted_plain _ labels_mem, hn _ labels_mem⟩)
  simp only [List.map_cons, List.map_nil] at this
  rw [this]
  refine Prod.ext ?_ rfl
  simp only [List.foldl_cons, List.foldl_nil, World.with', World.mk.injEq, and_true]
  funext p
  have e1 : dir ++ "/emg.txt".toList = dir ++ '/' :: "emg.txt".toList := rfl
  have e2 : dir ++ "/glove.txt".toList = dir ++ '/' :: "glove.txt".toList := rfl
  have e3 : dir ++ "/labels.txt".toList = dir ++ '/' :: "labels.txt".toList := rfl
  have n12 : dir ++ '/' :: "emg.txt".toList ≠ dir ++ '/' :: "glove.txt".toList := by simp
  have n13 : dir ++ '/' :: "emg.txt".toList ≠ dir ++ '/' :: "labels.txt".toList := by simp
  have n23 : dir ++ '/' :: "glove.txt".toList ≠ dir ++ '/' :: "labels.txt".toList := by simp
  rw [e1, e2, e3]
  by_cases p1 : p = dir ++ '/' :: "emg.txt".toList
  · subst p1
    rw [if_pos rfl, Function.update_of_ne n13, Function.update_of_ne n12, Function.update_self]
    rfl
  by_cases p2 : p = dir ++ '/' :: "glove.txt".toList
  · subst p2
    rw [if_neg p1, if_pos rfl, Function.update_of_ne n23, Function.update_self]
    rfl
  by_cases p3 : p = dir ++ '/' :: "labels.txt".toList
  · subst p3
    rw [if_neg p1, if_neg p2, if_pos rfl, Function.update_self]
    rfl
  rw [if_neg p1, if_neg p2, if_neg p3, Function.update_of_ne p3, Function.update_of_ne p2, Function.update_of_ne p1]

/-- **C123, twice.** If a run ends normally, another one ends normally and changes nothing. -/
theorem C123_twice (readLog : Str → Py Frame) (w w' : World) (dir : Str) (h : (reformatData readLog w dir).1 = (w', .ok ())) :
    (reformatData readLog w' dir).1 = (w', .ok ()) := by
  unfold reformatData at h
  cases hr : w.files (Str.pathJoin2 dir "raw-data.txt".toList) with
  | none =>
    rw [hr] at h
    simp at h
  | some raw =>
    cases hf : readLog raw with
    | error e =>
      rw [hr] at h
      simp [hf] at h
    | ok fr =>
      simp only [hr, hf] at h
      obtain ⟨g, hd⟩ := saveAll_ok_done (ws := (saveAll dir w _).2) (Prod.ext h rfl)
      have hr' : w'.files (Str.pathJoin2 dir "raw-data.txt".toList) = some raw := by
        rw [g.2 _ (by rw [hr]; simp), hr]
      simp only [reformatData, hr', hf]
      exact saveAll_done hd

/-- **C123, the code: a file that is not complete stays so.** A run can be stopped when the first file holds any prefix of its text, and then
another run ends normally and leaves the file as it is. -/
theorem C123_stopped (readLog : Str → Py Frame) (w : World) (dir raw a b c : Str) (h1 : dir ≠ []) (h2 : dir.getLast? ≠ some '/')
    (hd : w.dirs dir = true) (hraw : w.files (dir ++ "/raw-data.txt".toList) = some raw) (hr : readLog raw = .ok ⟨.ok a, .ok b, .ok c⟩)
    (hn : ∀ n ∈ reformatted, w.exists' (dir ++ '/' :: n) = false ∧ w.writable (dir ++ '/' :: n) = true)
    (t : Str) (ht : t <+: "# emg.txt\n".toList ++ a) :
    ∃ w' ∈ (reformatData readLog w dir).2, w'.files (dir ++ "/emg.txt".toList) = some t ∧
      ∃ w'', (reformatData readLog w' dir).1 = (w'', .ok ()) ∧ w''.files (dir ++ "/emg.txt".toList) = some t := by
  obtain ⟨hsp, -⟩ := reformat_raw h1 h2 hraw
  obtain ⟨x1, y1⟩ := hn "emg.txt".toList (by decide)
  obtain ⟨l, hl, hm⟩ := (saveOne_new (name := "emg.txt".toList) h1 h2 (by decide) hd x1 y1).1 a
  have hmem := hm t ht
  refine ⟨w.with' (dir ++ '/' :: "emg.txt".toList) t, ?_, ?_, ?_⟩
  · simp only [reformatData, hsp, hr, saveAll, hl]
    exact List.mem_append_left _ hmem
  · exact Function.update_self ..
  · have hsp' : (w.with' (dir ++ '/' :: "emg.txt".toList) t).files (Str.pathJoin2 dir "raw-data.txt".toList) = some raw := by
      rw [(reformat_raw h1 h2 hraw).2, World.with', ← hraw]
      apply Function.update_of_ne
      simp
    simp only [reformatData, hsp', hr]
    have hx : (w.with' (dir ++ '/' :: "emg.txt".toList) t).exists' (dir ++ '/' :: "emg.txt".toList) = true := by
      simp only [World.exists', World.with', Function.update_self, Option.isSome_some, Bool.true_or]
    obtain ⟨w'', hw⟩ := saveAll_total (w := w.with' (dir ++ '/' :: "emg.txt".toList) t)
      (l := [("emg.txt".toList, .ok a), ("glove.txt".toList, .ok b), ("labels.txt".toList, .ok c)]) h1 h2 hd (by
        intro x hx'
        simp only [List.mem_cons, List.not_mem_nil, or_false] at hx'
        rcases hx' with rfl | rfl | rfl
        · exact ⟨reformatted_plain _ emg_mem, ⟨_, rfl⟩, .inl hx⟩
        · exact ⟨reformatted_plain _ glove_mem, ⟨_, rfl⟩, .inr (hn _ glove_mem).2⟩
        · exact ⟨reformatted_plain _ labels_mem, ⟨_, rfl⟩, .inr (hn _ labels_mem).2⟩)
    refine ⟨w'', hw, ?_⟩
    obtain ⟨g, -⟩ := saveAll_ok_done (ws := (saveAll dir _ _).2) (Prod.ext hw rfl)
    have e : (w.with' (dir ++ '/' :: "emg.txt".toList) t).files (dir ++ '/' :: "emg.txt".toList) = some t := Function.update_self ..
    exact (g.2 (dir ++ '/' :: "emg.txt".toList) (by rw [e]; simp)).trans e

/-- **C123, the code: a part that cannot be converted.** If the first part cannot be converted, the run raises and leaves a file with only its
name.  After the data are replaced by good ones, a run ends normally and the file is as it was. -/
theorem C123_conversion_fails (readLog : Str → Py Frame) (w : World) (dir raw : Str) (e : PyErr) (g l : Py Str) (h1 : dir ≠ [])
    (h2 : dir.getLast? ≠ some '/') (hd : w.dirs dir = true) (hraw : w.files (dir ++ "/raw-data.txt".toList) = some raw)
    (hr : readLog raw = .ok ⟨.error e, g, l⟩)
    (hn : ∀ n ∈ reformatted, w.exists' (dir ++ '/' :: n) = false ∧ w.writable (dir ++ '/' :: n) = true) :
    ∃ w', (reformatData readLog w dir).1 = (w', .error e) ∧ w'.files (dir ++ "/emg.txt".toList) = some "# emg.txt\n".toList ∧
      ∀ raw' a b c, readLog raw' = .ok ⟨.ok a, .ok b, .ok c⟩ →
        ∃ w'', (reformatData readLog { w' with files := Function.update w'.files (dir ++ "/raw-data.txt".toList) (some raw') } dir).1 = (w'', .ok ()) ∧
          w''.files (dir ++ "/emg.txt".toList) = some "# emg.txt\n".toList := by
  obtain ⟨hsp, hj⟩ := reformat_raw h1 h2 hraw
  obtain ⟨x1, y1⟩ := hn "emg.txt".toList (by decide)
  obtain ⟨l', hl⟩ := (saveOne_new (name := "emg.txt".toList) h1 h2 (by decide) hd x1 y1).2 e
  refine ⟨w.with' (dir ++ '/' :: "emg.txt".toList) (headLine "emg.txt".toList), ?_, Function.update_self .., ?_⟩
  · simp only [reformatData, hsp, hr, saveAll, hl]
  · intro raw' a b c hr'
    set w1 := w.with' (dir ++ '/' :: "emg.txt".toList) (headLine "emg.txt".toList) with hw1
    set w2 : World := { w1 with files := Function.update w1.files (dir ++ "/raw-data.txt".toList) (some raw') } with hw2
    have hsp' : w2.files (Str.pathJoin2 dir "raw-data.txt".toList) = some raw' := by
      rw [hj]
      exact Function.update_self ..
    have e2 : w2.files (dir ++ '/' :: "emg.txt".toList) = some (headLine "emg.txt".toList) := by
      rw [hw2]
      simp only
      rw [Function.update_of_ne (by simp)]
      exact Function.update_self ..
    have hx : w2.exists' (dir ++ '/' :: "emg.txt".toList) = true := by
      rw [World.exists', e2]
      rfl
    simp only [reformatData, hsp', hr']
    obtain ⟨w'', hw⟩ := saveAll_total (w := w2)
      (l := [("emg.txt".toList, .ok a), ("glove.txt".toList, .ok b), ("labels.txt".toList, .ok c)]) h1 h2 hd (by
        intro x hx'
        simp only [List.mem_cons, List.not_mem_nil, or_false] at hx'
        rcases hx' with rfl | rfl | rfl
        · exact ⟨reformatted_plain _ emg_mem, ⟨_, rfl⟩, .inl hx⟩
        · exact ⟨reformatted_plain _ glove_mem, ⟨_, rfl⟩, .inr (hn _ glove_mem).2⟩
        · exact ⟨reformatted_plain _ labels_mem, ⟨_, rfl⟩, .inr (hn _ labels_mem).2⟩)
    refine ⟨w'', hw, ?_⟩
    obtain ⟨g, -⟩ := saveAll_ok_done (ws := (saveAll dir _ _).2) (Prod.ext hw rfl)
    exact (g.2 (dir ++ '/' :: "emg.txt".toList) (by rw [e2]; simp)).trans e2

/-- A directory with a raw log, whose text is copied into the first part; a text that starts with `?` cannot be converted. -/
def reformatWorld (raw : Str) : World where
  files p := if p = "run/raw-data.txt".toList then some raw else none
  dirs p := decide (p = "run".toList)
  writable _ := true

/-- What is found in a text. -/
def reformatReader (raw : Str) : Py Frame :=
  .ok ⟨if raw.head? = some '?' then .error .valueError else .ok raw, .ok "2\n".toList, .ok "3\n".toList⟩

/-- The hypotheses of the theorems on a new directory are met. -/
theorem reformatWorld_meets (raw : Str) :
    "run".toList ≠ [] ∧ "run".toList.getLast? ≠ some '/' ∧ (reformatWorld raw).dirs "run".toList = true ∧
    (reformatWorld raw).files ("run".toList ++ "/raw-data.txt".toList) = some raw ∧
    ∀ n ∈ reformatted, (reformatWorld raw).exists' ("run".toList ++ '/' :: n) = false ∧
      (reformatWorld raw).writable ("run".toList ++ '/' :: n) = true := by
  refine ⟨by decide, by decide, by simp only [reformatWorld, decide_true], ?_, ?_⟩
  · have e : "run".toList ++ "/raw-data.txt".toList = "run/raw-data.txt".toList := by decide +kernel
    simp only [reformatWorld, e, if_true]
  intro n hn
  refine ⟨?_, rfl⟩
  have h1 : "run".toList ++ '/' :: n ≠ "run/raw-data.txt".toList := by
    revert n
    decide +kernel
  have h2 : "run".toList ++ '/' :: n ≠ "run".toList := by
    revert n
    decide +kernel
  simp only [World.exists', reformatWorld, if_neg h1, decide_eq_false h2, Option.isSome_none, Bool.or_self]

example : ((reformatData reformatReader (reformatWorld "1\n".toList) "run".toList).1.1.files "run/emg.txt".toList,
    (reformatData reformatReader (reformatWorld "1\n".toList) "run".toList).1.1.files "run/labels.txt".toList) =
    (some "# emg.txt\n1\n".toList, some "# labels.txt\n3\n".toList) := by
  decide +kernel

example : ∃ w', (reformatData reformatReader (reformatWorld "?".toList) "run".toList).1 = (w', .error .valueError) ∧
    w'.files "run/emg.txt".toList = some "# emg.txt\n".toList := by
  obtain ⟨h1, h2, h3, h4, h5⟩ := reformatWorld_meets "?".toList
  obtain ⟨w', a, b, -⟩ := C123_conversion_fails reformatReader (reformatWorld "?".toList) "run".toList _ _ _ _ h1 h2 h3 h4 rfl h5
  exact ⟨w', a, b⟩

end Verif
