import Verif.Model.Reformat
import Verif.Proofs.Logs
import Mathlib.Data.List.Infix

/-!
# Lemmas on the conversion of a raw log
-/

namespace Verif

namespace Logs

open Str Jobs

/-- The first line of a log file. -/
def headLine (name : Str) : Str := '#' :: ' ' :: name ++ ['\n']

/-- What making a writer in safe mode without headers does. -/
theorem newWriter_cases (w : World) (name : Str) (dir : Option Str) :
    (∃ w1 e, newWriter w name dir true [] = (w1, .error e) ∧ w1.files = w.files) ∨
    (∃ w1 wr, newWriter w name dir true [] = (w1, .ok wr) ∧ w1.files = w.files ∧ wr.opened = false) ∨
    (∃ w1 wr, newWriter w name dir true [] = (w1, .ok wr) ∧ w.files (writerPath name dir) = none ∧ wr.opened = true ∧
      w1.files = Function.update w.files (writerPath name dir) (some (headLine name))) := by
  have hm := makedirs_files w (pathSplit (writerPath name dir)).1
  unfold newWriter
  rcases h : makedirs w (pathSplit (writerPath name dir)).1 with ⟨w1, e | u⟩
  · rw [h] at hm
    left
    exact ⟨w1, e, by simp only [h], hm⟩
  · rw [h] at hm
    simp only at hm
    simp only [h, openFile, Bool.true_and]
    by_cases h1 : w1.exists' (writerPath name dir) = true
    · right; left
      simp only [h1, if_true]
      exact ⟨w1, _, rfl, hm, rfl⟩
    · have hn : w.files (writerPath name dir) = none := by
        rw [World.exists', hm] at h1
        cases hq : w.files (writerPath name dir) with
        | none => rfl
        | some _ => simp [hq] at h1
      by_cases h2 : (w1.dirs (writerPath name dir) || !w1.writable (writerPath name dir)) = true
      · left
        simp only [h1, h2, if_true]
        exact ⟨w1, _, rfl, hm⟩
      · right; right
        simp only [h1, h2, Bool.false_eq_true, if_false, Writer.comment, Writer.write, if_true, Writer.writeList, List.isEmpty_nil]
        refine ⟨_, _, rfl, hn, rfl, ?_⟩
        simp [hm, headLine]

theorem mem_stages {w w' : World} {p text : Str} :
    w' ∈ stages w p text ↔ ∃ t, t <+: text ∧ w' = { w with files := Function.update w.files p (some t) } := by
  simp [stages, List.mem_inits, eq_comm]

/-- The states that a run ends in or may be stopped in. -/
def During (r : (World × Py Unit) × List World) (w' : World) : Prop := w' = r.1.1 ∨ w' ∈ r.2

/-- The text of a file when it is complete. -/
def whole (name : Str) (csv : Py Str) : Str := headLine name ++ match csv with | .ok s => s | .error _ => []

/-- One file: what there is, and a new file with a prefix of the text. -/
theorem saveOne_during {w w' : World} {dir name : Str} {csv : Py Str} (h : During (saveOne w dir name csv) w') :
    w'.files = w.files ∨ (w.files (writerPath name (some dir)) = none ∧
      ∃ t, t <+: whole name csv ∧ w'.files = Function.update w.files (writerPath name (some dir)) (some t)) := by
  have hmf := makedirs_files w (pathSplit (writerPath name (some dir))).1
  have key : ∀ w1 : World, w1.files = Function.update w.files (writerPath name (some dir)) (some (headLine name)) →
      ∀ t, Function.update w1.files (writerPath name (some dir)) (some t) =
        Function.update w.files (writerPath name (some dir)) (some t) := by
    intro w1 hw t
    simp [hw]
  rcases newWriter_cases w name (some dir) with ⟨w1, e, h1, h2⟩ | ⟨w1, wr, h1, h2, h3⟩ | ⟨w1, wr, h1, hn, h3, h2⟩
  · left
    simp only [saveOne, h1, During, List.mem_cons, List.not_mem_nil, or_false] at h
    rcases h with rfl | rfl | rfl <;> first | exact h2 | rfl
  · left
    cases csv <;> simp only [saveOne, h1, h3, During, List.mem_cons, List.not_mem_nil, or_false] at h <;>
      rcases h with rfl | rfl | rfl <;> first | exact h2 | rfl
  · cases csv with
    | error e =>
      simp only [saveOne, h1, h3, During, List.mem_cons, mem_stages] at h
      rcases h with rfl | rfl | rfl | ⟨t, ht, rfl⟩
      · exact .inr ⟨hn, headLine name, by simp [whole], h2⟩
      · exact .inl rfl
      · exact .inl hmf
      · exact .inr ⟨hn, t, by simpa [whole, headLine] using ht, key w1 h2 t⟩
    | ok s =>
      simp only [saveOne, h1, h3, During, List.mem_cons, mem_stages] at h
      rcases h with rfl | rfl | rfl | ⟨t, ht, rfl⟩
      · refine .inr ⟨hn, headLine name ++ s, by simp [whole], ?_⟩
        simp [h2]
      · exact .inl rfl
      · exact .inl hmf
      · exact .inr ⟨hn, t, by simpa [whole, headLine] using ht, key w1 h2 t⟩

/-- A normal end: the file was there, or is complete now. -/
theorem saveOne_ok {w w' : World} {dir name : Str} {csv : Py Str} {l : List World} (h : saveOne w dir name csv = ((w', .ok ()), l)) :
    ∃ s, csv = .ok s ∧ (w'.files = w.files ∨ (w.files (writerPath name (some dir)) = none ∧
      w'.files = Function.update w.files (writerPath name (some dir)) (some (headLine name ++ s)))) := by
  rcases newWriter_cases w name (some dir) with ⟨w1, e, h1, h2⟩ | ⟨w1, wr, h1, h2, h3⟩ | ⟨w1, wr, h1, hn, h3, h2⟩
  · simp [saveOne, h1] at h
  · cases csv with
    | error e => simp [saveOne, h1, h3] at h
    | ok s =>
      simp only [saveOne, h1, h3, Prod.mk.injEq] at h
      exact ⟨s, rfl, .inl (by rw [← h.1.1]; exact h2)⟩
  · cases csv with
    | error e => simp [saveOne, h1, h3] at h
    | ok s =>
      simp only [saveOne, h1, h3, Prod.mk.injEq] at h
      refine ⟨s, rfl, .inr ⟨hn, ?_⟩⟩
      rw [← h.1.1]
      simp [h2]

/-- No run changes a file that is there, or one that is not among the names. -/
theorem saveAll_during {dir : Str} : ∀ {l : List (Str × Py Str)} {w w' : World}, During (saveAll dir w l) w' →
    ∀ p, w'.files p = w.files p ∨ (w.files p = none ∧
      ∃ x ∈ l, p = writerPath x.1 (some dir) ∧ ∃ t, t <+: whole x.1 x.2 ∧ w'.files p = some t)
  | [], w, w', h, p => by
    simp only [saveAll, During, List.mem_singleton, or_self] at h
    rw [h]
    exact .inl rfl
  | (name, csv) :: rest, w, w', h, p => by
    have one : ∀ v, During (saveOne w dir name csv) v → v.files p = w.files p ∨ (w.files p = none ∧
        p = writerPath name (some dir) ∧ ∃ t, t <+: whole name csv ∧ v.files p = some t) := by
      intro v hv
      rcases saveOne_during hv with e | ⟨hn, t, ht, e⟩
      · exact .inl (by rw [e])
      · rw [e]
        by_cases hp : p = writerPath name (some dir)
        · subst hp
          exact .inr ⟨hn, rfl, t, ht, by simp⟩
        · exact .inl (by simp [hp])
    rcases hs : saveOne w dir name csv with ⟨⟨w1, e | u⟩, l⟩
    · simp only [saveAll, hs, During] at h
      rcases one w' (by rw [hs]; exact h) with e | ⟨a, b, t, c, d⟩
      · exact .inl e
      · exact .inr ⟨a, (name, csv), by simp, b, t, c, d⟩
    · simp only [saveAll, hs, During, List.mem_append] at h
      rw [hs] at one
      rcases h with h | h | h
      · rcases saveAll_during (.inl h) p with e | ⟨a, x, hx, b, t, c, d⟩
        · rcases one w1 (.inl rfl) with e' | ⟨a, b, t, c, d⟩
          · exact .inl (by rw [e, e'])
          · exact .inr ⟨a, (name, csv), by simp, b, t, c, by rw [e, d]⟩
        · rcases one w1 (.inl rfl) with e' | ⟨_, _, t', _, d'⟩
          · exact .inr ⟨by rw [← e', a], x, by simp [hx], b, t, c, d⟩
          · rw [a] at d'
            cases d'
      · rcases one w' (.inr h) with e' | ⟨a, b, t, c, d⟩
        · exact .inl e'
        · exact .inr ⟨a, (name, csv), by simp, b, t, c, d⟩
      · rcases saveAll_during (.inr h) p with e | ⟨a, x, hx, b, t, c, d⟩
        · rcases one w1 (.inl rfl) with e' | ⟨a, b, t, c, d⟩
          · exact .inl (by rw [e, e'])
          · exact .inr ⟨a, (name, csv), by simp, b, t, c, by rw [e, d]⟩
        · rcases one w1 (.inl rfl) with e' | ⟨_, _, t', _, d'⟩
          · exact .inr ⟨by rw [← e', a], x, by simp [hx], b, t, c, d⟩
          · rw [a] at d'
            cases d'

/-! ### Files that are there and files that are not -/

theorem writerPath_dir {dir : Str} (h : dir ≠ []) (name : Str) : writerPath name (some dir) = pathJoin2 dir name := by
  cases dir with
  | nil => exact absurd rfl h
  | cons c cs => rfl

/-- The directory and the file are there. -/
def Done (w : World) (dir name : Str) : Prop :=
  (pathSplit (writerPath name (some dir))).1 ≠ [] ∧ w.dirs (pathSplit (writerPath name (some dir))).1 = true ∧
    w.exists' (writerPath name (some dir)) = true

theorem saveOne_done {w : World} {dir name : Str} (h : Done w dir name) (s : Str) :
    saveOne w dir name (.ok s) = ((w, .ok ()), [w, w]) := by
  obtain ⟨h1, h2, h3⟩ := h
  have hm : makedirs w (pathSplit (writerPath name (some dir))).1 = (w, .ok ()) := by
    unfold makedirs
    rw [if_neg h1, if_pos h2]
  have hn : newWriter w name (some dir) true [] = (w, .ok ⟨writerPath name (some dir), name, [], false, false⟩) := by
    unfold newWriter
    simp only [hm, openFile, h3, Bool.true_and, if_true]
  simp only [saveOne, hn]

/-- Nothing goes away. -/
def Grows (w w' : World) : Prop := (∀ p, w.dirs p = true → w'.dirs p = true) ∧ ∀ p, w.files p ≠ none → w'.files p = w.files p

theorem Grows.done {w w' : World} (h : Grows w w') {dir name : Str} (hd : Done w dir name) : Done w' dir name := by
  refine ⟨hd.1, h.1 _ hd.2.1, ?_⟩
  have := hd.2.2
  simp only [World.exists', Bool.or_eq_true] at this ⊢
  rcases this with hf | hf
  · left
    rw [h.2 _ (by intro e; simp [e] at hf)]
    exact hf
  · exact .inr (h.1 _ hf)

theorem Grows.trans {a b c : World} (h : Grows a b) (g : Grows b c) : Grows a c :=
  ⟨fun p hp => g.1 p (h.1 p hp), fun p hp => by rw [g.2 p (by rw [h.2 p hp]; exact hp), h.2 p hp]⟩

theorem makedirs_ok_iff {w w1 : World} {d : Str} (h : makedirs w d = (w1, .ok ())) :
    d ≠ [] ∧ w1.dirs d = true ∧ ∀ p, w.dirs p = true → w1.dirs p = true := by
  unfold makedirs at h
  by_cases h1 : d = []
  · simp [h1] at h
  by_cases h2 : w.dirs d = true
  · simp only [h1, h2, if_true, if_false, Prod.mk.injEq, and_true] at h
    subst h
    exact ⟨h1, h2, fun _ hp => hp⟩
  by_cases h3 : ((w.files d).isSome || !w.writable d) = true
  · simp [h1, h2, h3] at h
  · simp only [h1, h2, h3, if_false, Bool.false_eq_true, Prod.mk.injEq, and_true] at h
    subst h
    refine ⟨h1, by simp, fun p hp => ?_⟩
    by_cases e : p = d
    · simp [e]
    · simpa [e] using hp

theorem saveOne_ok_done {w w' : World} {dir name : Str} {csv : Py Str} {l : List World} (h : saveOne w dir name csv = ((w', .ok ()), l)) :
    Grows w w' ∧ Done w' dir name := by
  have hf : ∀ p, w.files p ≠ none → w'.files p = w.files p := by
    intro p hp
    rcases saveOne_during (w' := w') (by rw [h]; exact .inl rfl) with e | ⟨hn, t, _, e⟩
    · rw [e]
    · rw [e, Function.update_of_ne]
      rintro rfl
      exact hp hn
  have hd : (∀ p, w.dirs p = true → w'.dirs p = true) ∧ Done w' dir name := by
    unfold saveOne newWriter at h
    rcases hm : makedirs w (pathSplit (writerPath name (some dir))).1 with ⟨w1, e | u⟩
    · simp [hm] at h
    · obtain ⟨a, b, c⟩ := makedirs_ok_iff hm
      simp only [hm, openFile, Bool.true_and] at h
      by_cases h1 : w1.exists' (writerPath name (some dir)) = true
      · cases csv with
        | error e => simp [h1] at h
        | ok s =>
          simp only [h1, if_true, Prod.mk.injEq, and_true] at h
          rw [← h.1]
          exact ⟨c, a, b, h1⟩
      · by_cases h2 : (w1.dirs (writerPath name (some dir)) || !w1.writable (writerPath name (some dir))) = true
        · simp [h1, h2] at h
        · cases csv with
          | error e =>
            simp only [h1, h2, Bool.false_eq_true, if_false, Writer.comment, Writer.write, if_true, Writer.writeList, List.isEmpty_nil,
              Prod.mk.injEq, reduceCtorEq, and_false, false_and] at h
          | ok s =>
            simp only [h1, h2, Bool.false_eq_true, if_false, Writer.comment, Writer.write, if_true, Writer.writeList, List.isEmpty_nil,
              Prod.mk.injEq, and_true] at h
            rw [← h.1]
            refine ⟨c, a, b, ?_⟩
            simp [World.exists']
  exact ⟨⟨hd.1, hf⟩, hd.2⟩

theorem saveAll_ok_done {dir : Str} : ∀ {l : List (Str × Py Str)} {w w' : World} {ws : List World},
    saveAll dir w l = ((w', .ok ()), ws) → Grows w w' ∧ ∀ x ∈ l, Done w' dir x.1 ∧ ∃ s, x.2 = .ok s
  | [], w, w', ws, h => by
    simp only [saveAll, Prod.mk.injEq, and_true] at h
    rw [h.1]
    exact ⟨⟨fun _ hp => hp, fun _ _ => rfl⟩, by simp⟩
  | (name, csv) :: rest, w, w', ws, h => by
    rcases hs : saveOne w dir name csv with ⟨⟨w1, e | u⟩, l⟩
    · simp [saveAll, hs] at h
    · obtain ⟨g, d⟩ := saveOne_ok_done hs
      simp only [saveAll, hs, Prod.mk.injEq] at h
      obtain ⟨g', ih⟩ := saveAll_ok_done (ws := (saveAll dir w1 rest).2) (Prod.ext h.1 rfl)
      refine ⟨g.trans g', ?_⟩
      intro x hx
      rcases List.mem_cons.mp hx with rfl | hx
      · obtain ⟨s, e, _⟩ := saveOne_ok hs
        exact ⟨g'.done d, s, e⟩
      · exact ih x hx

theorem saveAll_done {dir : Str} {w : World} : ∀ {l : List (Str × Py Str)}, (∀ x ∈ l, Done w dir x.1 ∧ ∃ s, x.2 = .ok s) →
    (saveAll dir w l).1 = (w, .ok ())
  | [], _ => rfl
  | (name, csv) :: rest, h => by
    obtain ⟨d, s, e⟩ := h (name, csv) (by simp)
    simp only at e
    subst e
    simp only [saveAll, saveOne_done d]
    exact saveAll_done fun x hx => h x (by simp [hx])

/-- The files with one more. -/
def _root_.Verif.Jobs.World.with' (w : World) (p t : Str) : World := { w with files := Function.update w.files p (some t) }

theorem newWriter_new {w : World} {dir name : Str} (h1 : dir ≠ []) (h2 : dir.getLast? ≠ some '/') (h3 : '/' ∉ name) (hd : w.dirs dir = true)
    (hx : w.exists' (dir ++ '/' :: name) = false) (hw : w.writable (dir ++ '/' :: name) = true) :
    writerPath name (some dir) = dir ++ '/' :: name ∧ (makedirs w (pathSplit (dir ++ '/' :: name)).1) = (w, .ok ()) ∧
    ∃ wr : Writer, newWriter w name (some dir) true [] = (w.with' (dir ++ '/' :: name) (headLine name), .ok wr) ∧ wr.opened = true := by
  have hp : writerPath name (some dir) = dir ++ '/' :: name := by
    rw [writerPath_dir h1, pathJoin2_of h1 h2]
    intro e
    exact h3 (List.mem_of_mem_head? (by rw [e]; rfl))
  have hm : makedirs w (pathSplit (dir ++ '/' :: name)).1 = (w, .ok ()) := by
    rw [pathSplit_file h1 h2 h3]
    unfold makedirs
    rw [if_neg h1, if_pos hd]
  refine ⟨hp, hm, ?_⟩
  have hdn : w.dirs (dir ++ '/' :: name) = false := by
    simp only [World.exists', Bool.or_eq_false_iff] at hx
    exact hx.2
  unfold newWriter
  simp only [hp, hm, openFile, hx, hdn, hw, Bool.true_and, Bool.false_eq_true, if_false, Bool.not_true, Bool.or_self, Writer.comment, Writer.write,
    if_true, Writer.writeList, List.isEmpty_nil]
  refine ⟨_, Prod.ext ?_ rfl, rfl⟩
  simp [World.with', headLine]

theorem saveOne_new {w : World} {dir name : Str} (h1 : dir ≠ []) (h2 : dir.getLast? ≠ some '/') (h3 : '/' ∉ name) (hd : w.dirs dir = true)
    (hx : w.exists' (dir ++ '/' :: name) = false) (hw : w.writable (dir ++ '/' :: name) = true) :
    (∀ s, ∃ l, saveOne w dir name (.ok s) = ((w.with' (dir ++ '/' :: name) (headLine name ++ s), .ok ()), l) ∧
      ∀ t, t <+: headLine name ++ s → w.with' (dir ++ '/' :: name) t ∈ l) ∧
    ∀ e, ∃ l, saveOne w dir name (.error e) = ((w.with' (dir ++ '/' :: name) (headLine name), .error e), l) := by
  obtain ⟨hp, hm, wr, hn, ho⟩ := newWriter_new h1 h2 h3 hd hx hw
  constructor
  · intro s
    refine ⟨w :: w :: stages (w.with' (dir ++ '/' :: name) (headLine name)) (dir ++ '/' :: name) (headLine name ++ s), ?_, ?_⟩
    · simp only [saveOne, hn, ho, hp, hm]
      refine Prod.ext (Prod.ext ?_ rfl) rfl
      simp [World.with']
    · intro t ht
      simp only [List.mem_cons, mem_stages]
      right; right
      exact ⟨t, ht, by simp [World.with']⟩
  · intro e
    exact ⟨w :: w :: stages (w.with' (dir ++ '/' :: name) (headLine name)) (dir ++ '/' :: name) (headLine name), by
      simp only [saveOne, hn, ho, hp, hm]
      rfl⟩

theorem writerPath_file {dir name : Str} (h1 : dir ≠ []) (h2 : dir.getLast? ≠ some '/') (h3 : '/' ∉ name) :
    writerPath name (some dir) = dir ++ '/' :: name := by
  rw [writerPath_dir h1, pathJoin2_of h1 h2]
  intro e
  exact h3 (List.mem_of_mem_head? (by rw [e]; rfl))

theorem exists_with' {w : World} {p q t : Str} (h : w.exists' q = true) : (w.with' p t).exists' q = true := by
  simp only [World.exists', World.with', Bool.or_eq_true] at h ⊢
  rcases h with h | h
  · left
    by_cases e : q = p
    · simp [e]
    · simpa [e] using h
  · exact .inr h

/-- A run over files each of which is there or can be written ends normally. -/
theorem saveAll_total {dir : Str} (h1 : dir ≠ []) (h2 : dir.getLast? ≠ some '/') : ∀ {l : List (Str × Py Str)} {w : World}, w.dirs dir = true →
    (∀ x ∈ l, '/' ∉ x.1 ∧ (∃ s, x.2 = .ok s) ∧ (w.exists' (dir ++ '/' :: x.1) = true ∨ w.writable (dir ++ '/' :: x.1) = true)) →
    ∃ w', (saveAll dir w l).1 = (w', .ok ())
  | [], w, _, _ => ⟨w, rfl⟩
  | (name, csv) :: rest, w, hd, h => by
    obtain ⟨a, ⟨s, e⟩, c⟩ := h (name, csv) (by simp)
    simp only at a e c
    subst e
    by_cases hx : w.exists' (dir ++ '/' :: name) = true
    · have hdone : Done w dir name := by
        rw [Done, writerPath_file h1 h2 a, pathSplit_file h1 h2 a]
        exact ⟨h1, hd, hx⟩
      simp only [saveAll, saveOne_done hdone]
      exact saveAll_total h1 h2 hd fun x hx => h x (by simp [hx])
    · have hw := c.resolve_left hx
      obtain ⟨l, hl, _⟩ := (saveOne_new h1 h2 a hd (by simpa using hx) hw).1 s
      simp only [saveAll, hl]
      refine saveAll_total (w := w.with' _ _) h1 h2 hd fun x hx => ?_
      obtain ⟨a', b', c'⟩ := h x (by simp [hx])
      exact ⟨a', b', c'.imp (fun h => exists_with' h) id⟩

/-- A run over new files. -/
theorem saveAll_new {dir : Str} (h1 : dir ≠ []) (h2 : dir.getLast? ≠ some '/') : ∀ {l : List (Str × Str)} {w : World}, w.dirs dir = true →
    (l.map Prod.fst).Nodup →
    (∀ x ∈ l, '/' ∉ x.1 ∧ w.exists' (dir ++ '/' :: x.1) = false ∧ w.writable (dir ++ '/' :: x.1) = true) →
    (saveAll dir w (l.map fun x => (x.1, .ok x.2))).1 =
      (l.foldl (fun w x => w.with' (dir ++ '/' :: x.1) (headLine x.1 ++ x.2)) w, .ok ())
  | [], w, _, _, _ => rfl
  | (name, s) :: rest, w, hd, hnd, h => by
    obtain ⟨a, b, c⟩ := h (name, s) (by simp)
    obtain ⟨l, hl, _⟩ := (saveOne_new h1 h2 a hd b c).1 s
    simp only [List.map_cons, List.nodup_cons] at hnd
    simp only [List.map_cons, saveAll, hl, List.foldl_cons]
    refine saveAll_new (w := w.with' _ _) h1 h2 hd hnd.2 fun x hx => ?_
    obtain ⟨a', b', c'⟩ := h x (by simp [hx])
    refine ⟨a', ?_, c'⟩
    have hne : dir ++ '/' :: x.1 ≠ dir ++ '/' :: name := by
      intro e
      simp only [List.append_cancel_left_eq, List.cons.injEq, true_and] at e
      exact hnd.1 (List.mem_map.mpr ⟨x, hx, e⟩)
    simpa [World.exists', World.with', hne] using b'

end Logs

end Verif
