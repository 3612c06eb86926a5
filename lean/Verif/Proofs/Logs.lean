import Verif.Spec.Logs
import Verif.Proofs.Jobs
import Verif.Proofs.Text
import Verif.Proofs.Structures

/-!
# Lemmas on log files
-/

namespace Verif

namespace Logs

open Str Jobs

theorem lineOf_eq (ws : List Str) : join ' ' ws = lineOf ws := by
  induction ws with
  | nil => rfl
  | cons w ws ih =>
    cases ws with
    | nil => simp [join, lineOf]
    | cons v vs =>
      rw [join_cons (by simp), ih]
      simp [lineOf]

theorem words_line {ws : List Str} (h : ∀ w ∈ ws, Word w) : words (lineOf ws ++ ['\n']) = ws := by
  have key : ∀ s : Str, words (s ++ ['\n']) = words s := by
    intro s
    induction s with
    | nil => rfl
    | cons c s ih =>
      by_cases hc : isSpace c = true
      · rw [List.cons_append, words_cons_space hc, words_cons_space hc, ih]
      · cases s with
        | nil => simp [words, hc, show isSpace '\n' = true from by decide]
        | cons d s =>
          rw [List.cons_append, List.cons_append, words, words, if_neg hc, if_neg hc]
          rw [List.cons_append] at ih
          simp only [ih]
  rw [key, ← lineOf_eq]
  exact words_join h

theorem textOf_append (a b : List Str) : textOf (a ++ b) = textOf a ++ textOf b := by
  simp [textOf]

theorem textOf_cons (l : Str) (ls : List Str) : textOf (l :: ls) = l ++ ['\n'] ++ textOf ls := by
  simp [textOf]

theorem pathSplit_file {dir name : Str} (h1 : dir ≠ []) (h2 : dir.getLast? ≠ some '/') (h3 : '/' ∉ name) :
    pathSplit (dir ++ '/' :: name) = (dir, name) := by
  rw [pathSplit, Structures.afterLast_append dir h3]
  have e : (dir ++ '/' :: name).take ((dir ++ '/' :: name).length - name.length) = dir ++ ['/'] := by
    have : (dir ++ '/' :: name).length - name.length = (dir ++ ['/']).length := by
      simp only [List.length_append, List.length_cons, List.length_nil]
      omega
    rw [this, show dir ++ '/' :: name = (dir ++ ['/']) ++ name by simp, List.take_left']
    rfl
  simp only [e]
  rcases List.eq_nil_or_concat dir with rfl | ⟨d, c, rfl⟩
  · exact absurd rfl h1
  · rw [List.concat_eq_append] at h2 ⊢
    have hc : c ≠ '/' := by
      intro e
      subst e
      simp at h2
    rw [if_neg (by simp [hc])]
    simp [rstrip, hc]

theorem Located.writer {b : Option Str} {f dir name : Str} (h : Located b f dir name) :
    writerPath f b = dir ++ '/' :: name := by
  have hp := h.path
  cases b with
  | none => exact hp
  | some b =>
    rcases hp with ⟨rfl, hp⟩ | ⟨h1, h2, h3, h4⟩
    · exact hp
    · have : b.isEmpty = false := by simpa using h1
      simp only [writerPath, this, Bool.false_eq_true, if_false]
      rw [pathJoin2_of h1 h2 h3, h4]

theorem Located.reader {b : Option Str} {f dir name : Str} (h : Located b f dir name) : pathify f b = dir ++ '/' :: name := by
  have hp := h.path
  cases b with
  | none => exact hp
  | some b =>
    rcases hp with ⟨rfl, hp⟩ | ⟨h1, h2, h3, h4⟩
    · rw [pathify, pathJoin2]
      split_ifs <;> simp_all
    · rw [pathify, pathJoin2_of h1 h2 h3, h4]

/-- A writer with an open file. -/
structure Open (w : World) (wr : Writer) (p : Str) (ls : List Str) : Prop where
  path : wr.fullpath = p
  opened : wr.opened = true
  closed : wr.closed = false
  files : w.files p = some (textOf ls)

theorem Open.write {w : World} {wr : Writer} {p : Str} {ls : List Str} (h : Open w wr p ls) (v : Str) :
    ∃ w', wr.write w v = (w', .ok ()) ∧ Open w' wr p (ls ++ [v]) ∧ ∀ q, q ≠ p → w'.files q = w.files q := by
  refine ⟨_, by rw [Writer.write, if_pos h.opened, if_neg (by simp [h.closed])], ?_, ?_⟩
  · refine ⟨h.path, h.opened, h.closed, ?_⟩
    simp only [h.path, Function.update_self, h.files, textOf_append]
    simp [textOf]
  · intro q hq
    rw [h.path]
    exact Function.update_of_ne hq _ _

theorem Open.writeList {w : World} {wr : Writer} {p : Str} {ls : List Str} (h : Open w wr p ls) (v : List Str) :
    ∃ w', wr.writeList w v = (w', .ok ()) ∧ Open w' wr p (ls ++ if v = [] then [] else [lineOf v]) ∧
      ∀ q, q ≠ p → w'.files q = w.files q := by
  by_cases hv : v = []
  · subst hv
    exact ⟨w, rfl, by simpa using h, fun _ _ => rfl⟩
  · have : v.isEmpty = false := by simpa using hv
    rw [Writer.writeList, this, if_neg hv, lineOf_eq]
    exact h.write _

theorem Open.step {w : World} {wr : Writer} {p : Str} {ls : List Str} (h : Open w wr p ls) {o : Op} {new : List Str}
    (ho : Writes o new) : ∃ w', step (w, wr) o = ((w', wr), .ok ()) ∧ Open w' wr p (ls ++ new) ∧
      ∀ q, q ≠ p → w'.files q = w.files q := by
  cases ho with
  | line v =>
    obtain ⟨w', h1, h2, h3⟩ := h.write v
    exact ⟨w', by simp only [Logs.step, h1], h2, h3⟩
  | none =>
    obtain ⟨w', h1, h2, h3⟩ := h.writeList []
    exact ⟨w', by simp only [Logs.step, h1], by simpa using h2, h3⟩
  | list v vs =>
    obtain ⟨w', h1, h2, h3⟩ := h.writeList (v :: vs)
    exact ⟨w', by simp only [Logs.step, h1], by simpa using h2, h3⟩
  | comment v =>
    obtain ⟨w', h1, h2, h3⟩ := h.write ('#' :: ' ' :: v)
    exact ⟨w', by simp only [Logs.step, Writer.comment, h1], h2, h3⟩

theorem Open.steps {w : World} {wr : Writer} {p : Str} {ls : List Str} (h : Open w wr p ls) {os : List Op} {news : List (List Str)}
    (ho : List.Forall₂ Writes os news) : ∃ w', steps (w, wr) os = ((w', wr), .ok ()) ∧ Open w' wr p (ls ++ news.flatten) ∧
      ∀ q, q ≠ p → w'.files q = w.files q := by
  induction ho generalizing w ls with
  | nil => exact ⟨w, rfl, by simpa using h, fun _ _ => rfl⟩
  | @cons o new os news ho hos ih =>
    obtain ⟨w1, h1, h2, h3⟩ := h.step ho
    obtain ⟨w2, h4, h5, h6⟩ := ih h2
    refine ⟨w2, by simp only [Logs.steps, h1, h4], by simpa using h5, fun q hq => ?_⟩
    rw [h6 q hq, h3 q hq]

theorem makedirs_ok {w : World} {d : Str} (hd : d ≠ []) (h : Usable w d) :
    ∃ w', makedirs w d = (w', .ok ()) ∧ w'.files = w.files ∧ w'.writable = w.writable ∧ ∀ q, q ≠ d → w'.dirs q = w.dirs q := by
  rw [makedirs, if_neg hd]
  by_cases h1 : w.dirs d = true
  · exact ⟨w, by rw [if_pos h1], rfl, rfl, fun _ _ => rfl⟩
  · rw [if_neg h1]
    obtain ⟨h2, h3⟩ := h.resolve_left h1
    rw [if_neg (by simp [h2, h3])]
    exact ⟨_, rfl, rfl, rfl, fun q hq => Function.update_of_ne hq _ _⟩

theorem makedirs_files (w : World) (d : Str) : (makedirs w d).1.files = w.files := by
  unfold makedirs
  split_ifs <;> rfl

/-- A writer whose file could not be made. -/
theorem steps_none {w : World} {wr : Writer} (h : wr.opened = false) (os : List Op) : (steps (w, wr) os).1.1 = w := by
  have key : ∀ (os : List Op) (wr : Writer), wr.opened = false → (steps (w, wr) os).1.1 = w := by
    intro os
    induction os with
    | nil => exact fun _ _ => rfl
    | cons o os ih =>
      intro wr h
      have hw : ∀ v, wr.write w v = (w, .ok ()) := by
        intro v
        rw [Writer.write, if_neg (by simp [h])]
      cases o with
      | line v =>
        simp only [steps, step, hw]
        exact ih wr h
      | list v =>
        have : wr.writeList w v = (w, .ok ()) := by
          rw [Writer.writeList, hw]
          split_ifs <;> rfl
        simp only [steps, step, this]
        exact ih wr h
      | comment v =>
        simp only [steps, step, Writer.comment, hw]
        exact ih wr h
      | frame n csv =>
        have : ∃ e, wr.writeFrame w n csv = (w, .error e) := by
          rw [Writer.writeFrame, if_neg (c := wr.opened = true) (by simp [h])]
          split_ifs
          · exact ⟨_, rfl⟩
          · exact ⟨_, rfl⟩
        obtain ⟨e, he⟩ := this
        simp only [steps, step, he]
      | close =>
        simp only [steps, step]
        exact ih _ h
  exact key os wr h

theorem skipLoop_comments (cs : List Str) (acc : List Str) (n : ℕ) (ls : List Str) (h : ∀ l ∈ ls.head?, l.head? ≠ some '#') :
    skipLoop acc n (cs.map (fun c => '#' :: c) ++ ls) = (ls, acc ++ cs, n + cs.length) := by
  induction cs generalizing acc n with
  | nil =>
    cases ls with
    | nil => simp [skipLoop]
    | cons l ls =>
      have := h l rfl
      simp [skipLoop, this]
  | cons c cs ih =>
    rw [List.map_cons, List.cons_append, skipLoop, if_pos List.head?_cons, ih]
    simp only [List.tail_cons, List.append_assoc, List.singleton_append, List.length_cons]
    congr 2
    omega

theorem iter_cons {r : Reader} {l : Str} {ls : List Str} (h : r.lines = l :: ls) : r.iter.1.lines = ls ∧ r.iter.2 = [words l] := by
  rw [Reader.iter, h]
  exact ⟨rfl, rfl⟩

theorem headerLine_comments (cs : List Str) (l : Str) (ls : List Str) (h : l.head? ≠ some '#') :
    headerLine (cs.map (fun c => '#' :: c) ++ l :: ls) = .ok l := by
  induction cs with
  | nil => rw [List.map_nil, List.nil_append, headerLine, if_neg h]
  | cons c cs ih => rw [List.map_cons, List.cons_append, headerLine, if_pos List.head?_cons, ih]

theorem readlines_textOf {ls : List Str} (h : ∀ l ∈ ls, '\n' ∉ l) : readlines (textOf ls) = ls.map (· ++ ['\n']) := by
  have := readlines_lines ls h []
  rw [List.append_nil] at this
  rw [textOf, this, readlines, List.append_nil]

theorem lineOf_newline {ws : List Str} (h : ∀ w ∈ ws, Word w) : '\n' ∉ lineOf ws := by
  intro hm
  obtain ⟨s, hs, hc⟩ := List.mem_flatten.1 hm
  have : s = [' '] ∨ s ∈ ws := by
    clear hm
    induction ws with
    | nil => simp at hs
    | cons w ws ih =>
      cases ws with
      | nil => exact .inr (by simpa using hs)
      | cons v vs =>
        rw [List.intersperse_cons₂] at hs
        rcases List.mem_cons.1 hs with rfl | hs
        · exact .inr List.mem_cons_self
        · rcases List.mem_cons.1 hs with rfl | hs
          · exact .inl rfl
          · rcases ih (fun w hw => h w (List.mem_cons_of_mem _ hw)) hs with h1 | h1
            · exact .inl h1
            · exact .inr (List.mem_cons_of_mem _ h1)
  rcases this with rfl | hs
  · exact absurd hc (by decide)
  · exact absurd ((h s hs).2 _ hc) (by decide)

theorem lineOf_head {w : Str} (ws : List Str) (h : w ≠ []) : (lineOf (w :: ws)).head? = w.head? := by
  cases w with
  | nil => exact absurd rfl h
  | cons c w =>
    cases ws with
    | nil => simp [lineOf]
    | cons v vs => simp [lineOf]

end Logs

end Verif
