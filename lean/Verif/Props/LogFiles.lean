import Verif.Proofs.Logs
import Verif.Props.Strings

/-!
# C91: finding and checking log files
-/

namespace Verif

open Str Jobs Logs

namespace Logs

theorem headerLoop_spec (fmt : Str → Str) (columns : List Str) : ∀ (subset acc hs : List Str),
    headerLoop fmt columns acc subset = .ok hs → ∃ new, hs = acc ++ new ∧ (∀ h ∈ new, h ∈ columns) ∧
      (subset.filter (fun s => decide (s ∈ columns))).Sublist new ∧ new.length ≤ subset.length := by
  intro subset
  induction subset with
  | nil =>
    intro acc hs h
    cases h
    exact ⟨[], by simp, by simp, by simp, by simp⟩
  | cons s ss ih =>
    intro acc hs h
    have step : ∀ x, x ∈ columns → (s ∈ columns → x = s) → headerLoop fmt columns (acc ++ [x]) ss = .ok hs →
        ∃ new, hs = acc ++ new ∧ (∀ h ∈ new, h ∈ columns) ∧
          ((s :: ss).filter (fun s => decide (s ∈ columns))).Sublist new ∧ new.length ≤ (s :: ss).length := by
      intro x hx hxs h
      obtain ⟨new, h1, h2, h3, h4⟩ := ih _ _ h
      refine ⟨x :: new, by simp [h1], ?_, ?_, by simpa using h4⟩
      · intro y hy
        rcases List.mem_cons.1 hy with rfl | hy
        · exact hx
        · exact h2 y hy
      · by_cases hs' : s ∈ columns
        · rw [List.filter_cons_of_pos (by simpa using hs'), hxs hs']
          exact h3.cons_cons _
        · rw [List.filter_cons_of_neg (by simpa using hs')]
          exact h3.cons _
    rw [headerLoop] at h
    by_cases hs' : s ∈ columns
    · rw [if_pos hs'] at h
      exact step s hs' (fun _ => rfl) h
    · rw [if_neg hs', bind_eq_ok] at h
      obtain ⟨⟨pre, suf⟩, -, h⟩ := h
      dsimp only at h
      split_ifs at h with h1 h2
      · exact step pre h1.1 (fun h => absurd h hs') h
      · exact step _ h2 (fun h => absurd h hs') h
      · obtain ⟨new, h1, h2, h3, h4⟩ := ih _ _ h
        refine ⟨new, h1, h2, ?_, by simp; omega⟩
        rw [List.filter_cons_of_neg (by simpa using hs')]
        exact h3

end Logs

/-- What is found of a subset: only columns of the file, at most one for each name, and every name that is a column, in the order
of the subset. -/
theorem C91_headers (fmt : Str → Str) (cols : Str → Py (List Str)) (w : World) (p c : Str) (columns subset hs : List Str)
    (hf : w.files p = some c) (hc : cols c = .ok columns) (hne : subset ≠ []) (h : getHeaders fmt cols w p subset = .ok hs) :
    (∀ x ∈ hs, x ∈ columns) ∧ (subset.filter (fun s => decide (s ∈ columns))).Sublist hs ∧ hs.length ≤ subset.length := by
  rw [getHeaders, hf] at h
  dsimp only at h
  rw [hc] at h
  have : subset.isEmpty = false := by simpa using hne
  simp only [this, Bool.false_eq_true, if_false] at h
  obtain ⟨new, h1, h2, h3, h4⟩ := headerLoop_spec fmt columns subset [] hs h
  rw [List.nil_append] at h1
  subst h1
  exact ⟨h2, h3, h4⟩

/-- Without a subset, all columns of the file are returned. -/
theorem C91_no_subset (fmt : Str → Str) (cols : Str → Py (List Str)) (w : World) (p c : Str) (columns : List Str)
    (hf : w.files p = some c) (hc : cols c = .ok columns) : getHeaders fmt cols w p [] = .ok columns := by
  rw [getHeaders, hf]
  dsimp only
  rw [hc]
  rfl

/-- A name with a number, like `emg1` or `emg-1`, which is no column, stands for the column of the prefix, or for the column
`emg[1]`. -/
theorem C91_array (fmt : Str → Str) (cols : Str → Py (List Str)) (w : World) (p c : Str) (columns : List Str) (q ds : Str) (l d : Char)
    (hf : w.files p = some c) (hc : cols c = .ok columns) (hl : l.isDigit = false ∧ l ≠ '.' ∧ l ≠ '-')
    (hd : d.isDigit = true) (hds : ∀ c ∈ ds, c.isDigit = true) (hy : Bool)
    (hn : q ++ [l] ++ (if hy then ['-'] else []) ++ ds ++ [d] ∉ columns) :
    getHeaders fmt cols w p [q ++ [l] ++ (if hy then ['-'] else []) ++ ds ++ [d]] = .ok
      (if q ++ [l] ∈ columns then [q ++ [l]]
        else if q ++ [l] ++ '[' :: fmt (ds ++ [d]) ++ [']'] ∈ columns then [q ++ [l] ++ '[' :: fmt (ds ++ [d]) ++ [']']] else []) := by
  have h : deNumber (q ++ [l] ++ (if hy then ['-'] else []) ++ ds ++ [d]) = .ok (q ++ [l], some (ds ++ [d])) := by
    obtain ⟨h1, h2⟩ := C73_de_number q l hl.1 hl.2.1 hl.2.2 ds d hd fun c hc => .inl (hds c hc)
    cases hy with
    | false => simpa using h1
    | true => simpa using h2
  rw [getHeaders, hf]
  dsimp only
  rw [hc]
  simp only [List.isEmpty_cons, Bool.false_eq_true, if_false]
  rw [headerLoop, if_neg hn, h, ok_bind]
  simp only [List.not_mem_nil, not_false_eq_true, and_true, Option.map_some, Option.getD_some, headerLoop, List.nil_append]
  split_ifs <;> rfl

/-- A name that is a number and no column raises. -/
theorem C91_number_raises (fmt : Str → Str) (cols : Str → Py (List Str)) (w : World) (p c : Str) (columns rest : List Str) (s : Str)
    (d : Char) (hf : w.files p = some c) (hc : cols c = .ok columns) (hd : d.isDigit = true) (hs : ∀ c ∈ s, c.isDigit = true)
    (hn : s ++ [d] ∉ columns) : getHeaders fmt cols w p ((s ++ [d]) :: rest) = .error .indexError := by
  rw [getHeaders, hf]
  dsimp only
  rw [hc]
  simp only [List.isEmpty_cons, Bool.false_eq_true, if_false]
  rw [headerLoop, if_neg hn, C73_de_number_all_digits s d hd fun c hc => .inl (hs c hc)]
  rfl

/-- Without required lines and headers a file is complete exactly if it is there. -/
theorem C91_complete_exists (fmt : Str → Str) (cols : Str → Py (List Str)) (w : World) (p : Str) :
    fileComplete fmt cols w p 0 [] false = .ok (decide (p ≠ [] ∧ w.exists' p = true)) := by
  rw [fileComplete]
  cases p with
  | nil => rfl
  | cons c p =>
    cases h : w.exists' (c :: p) <;> simp

/-- With required headers and no required lines: one of the headers is enough. -/
theorem C91_complete_headers (fmt : Str → Str) (cols : Str → Py (List Str)) (w : World) (p c : Str) (columns req : List Str)
    (hp : p ≠ []) (hf : w.files p = some c) (hc : cols c = .ok columns) (h : ∃ s ∈ req, s ∈ columns)
    (hreq : ∀ s ∈ req, s ∉ columns → ∃ x, deNumber s = .ok x) (exc : Bool) :
    fileComplete fmt cols w p 0 req exc = .ok true := by
  have hne : req ≠ [] := by
    obtain ⟨s, hs, -⟩ := h
    exact List.ne_nil_of_mem hs
  have hex : w.exists' p = true := by simp [World.exists', hf]
  have hok : ∃ hs, getHeaders fmt cols w p req = .ok hs := by
    rw [getHeaders, hf]
    dsimp only
    rw [hc]
    have : req.isEmpty = false := by simpa using hne
    simp only [this, Bool.false_eq_true, if_false]
    clear h hne this
    generalize [] = acc
    induction req generalizing acc with
    | nil => exact ⟨acc, rfl⟩
    | cons s ss ih =>
      have ih := ih fun s hs => hreq s (List.mem_cons_of_mem _ hs)
      rw [headerLoop]
      by_cases hs : s ∈ columns
      · rw [if_pos hs]
        exact ih _
      · obtain ⟨x, hx⟩ := hreq s List.mem_cons_self hs
        rw [if_neg hs, hx, ok_bind]
        dsimp only
        split_ifs
        · exact ih _
        · exact ih _
        · exact ih _
  obtain ⟨hs, he⟩ := hok
  obtain ⟨-, h2, -⟩ := C91_headers fmt cols w p c columns req hs hf hc hne he
  have hhs : hs ≠ [] := by
    obtain ⟨s, hs', hs''⟩ := h
    rintro rfl
    have : s ∈ req.filter (fun s => decide (s ∈ columns)) := List.mem_filter.2 ⟨hs', by simpa using hs''⟩
    have := h2.subset this
    simp at this
  have e1 : p.isEmpty = false := by simpa using hp
  have e2 : req.isEmpty = false := by simpa using hne
  have e3 : hs.isEmpty = false := by simpa using hhs
  simp [fileComplete, e1, hex, e2, he, hhs]

/-- A file with none of the required headers, also not as `emg` or `emg[1]` for `emg1`, and a file without any columns are not complete, whatever the
number of lines required; with `exception` this raises NameError instead of the warning. -/
theorem C91_complete_none (fmt : Str → Str) (cols : Str → Py (List Str)) (w : World) (p c : Str) (req : List Str) (hp : p ≠ [])
    (hf : w.files p = some c) (hne : req ≠ []) (n : ℤ)
    (h : cols c = .error .indexError ∨ ∃ columns, cols c = .ok columns ∧ ∀ s ∈ req, s ∉ columns ∧ ∃ pre suf, deNumber s = .ok (pre, suf) ∧
      pre ∉ columns ∧ pre ++ '[' :: ((suf.map fmt).getD "None".toList) ++ [']'] ∉ columns) :
    fileComplete fmt cols w p n req false = .ok false ∧ fileComplete fmt cols w p n req true = .error .nameError := by
  have hex : w.exists' p = true := by simp [World.exists', hf]
  have e1 : p.isEmpty = false := by simpa using hp
  have e2 : req.isEmpty = false := by simpa using hne
  have hh : getHeaders fmt cols w p req = .ok [] := by
    rw [getHeaders, hf]
    dsimp only
    rcases h with h | ⟨columns, h, hr⟩
    · rw [h]
    · rw [h]
      simp only [e2, Bool.false_eq_true, if_false]
      clear e2 hne
      induction req with
      | nil => rfl
      | cons s ss ih =>
        obtain ⟨g1, pre, suf, g2, g3, g4⟩ := hr s List.mem_cons_self
        rw [headerLoop, if_neg g1, g2, ok_bind]
        dsimp only
        rw [if_neg (fun h => g3 h.1), if_neg g4]
        exact ih fun s hs => hr s (List.mem_cons_of_mem _ hs)
  constructor <;> simp [fileComplete, e1, hex, e2, hh]

/-- Required lines raise for every file that is there and passes the other checks. -/
theorem C91_complete_lines (fmt : Str → Str) (cols : Str → Py (List Str)) (w : World) (p : Str) (n : ℤ) (hn : n ≠ 0) (exc : Bool)
    (hp : p ≠ []) (he : w.exists' p = true) : fileComplete fmt cols w p n [] exc = .error .nameError := by
  have e1 : p.isEmpty = false := by simpa using hp
  simp [fileComplete, e1, he, hn, fileLength]

namespace Logs

theorem file_inj {d d' f f' : Str} (h : '/' ∉ f) (h' : '/' ∉ f') (e : d ++ '/' :: f = d' ++ '/' :: f') : d = d' ∧ f = f' := by
  have h1 := Structures.afterLast_append d h
  rw [e, Structures.afterLast_append d' h'] at h1
  subst h1
  exact ⟨List.append_cancel_right e, rfl⟩

theorem foldl_erase {l : List Str} (h : l.Nodup) (ignore : List Str) (p : Str) :
    p ∈ ignore.foldl List.erase l ↔ p ∈ l ∧ p ∉ ignore := by
  induction ignore generalizing l with
  | nil => simp
  | cons a as ih =>
    rw [List.foldl_cons, ih (h.erase a), h.mem_erase_iff, List.mem_cons]
    tauto

end Logs

/-- The paths found: in every directory of the tree the file of the given name, or, if there is none and parts of names count, the
files whose names contain it; each once, and not those which are to be ignored. -/
theorem C91_filepaths (walk : List (Str × List Str)) (filename : Str) (part : Bool) (ignore : List Str)
    (hd : (walk.map Prod.fst).Nodup) (hw : ∀ x ∈ walk, x.1 ≠ [] ∧ x.1.getLast? ≠ some '/' ∧ x.2.Nodup ∧ ∀ f ∈ x.2, '/' ∉ f) :
    (getFilepaths walk filename part ignore).Nodup ∧
    ∀ p, p ∈ getFilepaths walk filename part ignore ↔ p ∉ ignore ∧ ∃ d fs f, (d, fs) ∈ walk ∧ f ∈ fs ∧ p = d ++ '/' :: f ∧
      (f = filename ∨ (part = true ∧ filename ∉ fs ∧ filename <:+: f)) := by
  have hjoin : ∀ x ∈ walk, ∀ f ∈ x.2, pathJoin2 x.1 f = x.1 ++ '/' :: f := by
    intro x hx f hf
    obtain ⟨h1, h2, -, h4⟩ := hw x hx
    refine pathJoin2_of h1 h2 fun e => h4 f hf ?_
    cases f with
    | nil => cases e
    | cons c f =>
      rw [List.head?_cons, Option.some.injEq] at e
      simp [e]
  have hmem : ∀ p, p ∈ walkLoop filename part walk ↔ ∃ d fs f, (d, fs) ∈ walk ∧ f ∈ fs ∧ p = d ++ '/' :: f ∧
      (f = filename ∨ (part = true ∧ filename ∉ fs ∧ filename <:+: f)) := by
    intro p
    clear hd hw
    induction walk with
    | nil => simp [walkLoop]
    | cons x walk ih =>
      obtain ⟨d, fs⟩ := x
      have ih := ih fun x hx => hjoin x (List.mem_cons_of_mem _ hx)
      have hj := hjoin (d, fs) List.mem_cons_self
      have hsplit : (∃ d' fs' f, (d', fs') ∈ (d, fs) :: walk ∧ f ∈ fs' ∧ p = d' ++ '/' :: f ∧
            (f = filename ∨ (part = true ∧ filename ∉ fs' ∧ filename <:+: f))) ↔
          (∃ f, f ∈ fs ∧ p = d ++ '/' :: f ∧ (f = filename ∨ (part = true ∧ filename ∉ fs ∧ filename <:+: f))) ∨
          p ∈ walkLoop filename part walk := by
        rw [ih]
        constructor
        · rintro ⟨d', fs', f, hm, h1, h2, h3⟩
          rcases List.mem_cons.1 hm with e | hm
          · cases e
            exact .inl ⟨f, h1, h2, h3⟩
          · exact .inr ⟨d', fs', f, hm, h1, h2, h3⟩
        · rintro (⟨f, h1, h2, h3⟩ | ⟨d', fs', f, hm, h1, h2, h3⟩)
          · exact ⟨d, fs, f, List.mem_cons_self, h1, h2, h3⟩
          · exact ⟨d', fs', f, List.mem_cons_of_mem _ hm, h1, h2, h3⟩
      rw [hsplit, walkLoop]
      split_ifs with h1 h2
      · rw [List.mem_cons, hj _ h1]
        refine or_congr_left ⟨fun e => ⟨filename, h1, e, .inl rfl⟩, ?_⟩
        rintro ⟨f, hf, e, rfl | ⟨-, h, -⟩⟩
        · exact e
        · exact absurd h1 h
      · rw [List.mem_append]
        refine or_congr_left ⟨?_, ?_⟩
        · intro hp
          obtain ⟨f, hf, rfl⟩ := List.mem_map.1 hp
          rw [List.mem_filter, decide_eq_true_iff] at hf
          exact ⟨f, hf.1, hj f hf.1, .inr ⟨h2, h1, hf.2⟩⟩
        · rintro ⟨f, hf, e, rfl | ⟨-, -, h⟩⟩
          · exact absurd hf h1
          · exact List.mem_map.2 ⟨f, List.mem_filter.2 ⟨hf, by simpa using h⟩, by rw [e]; exact hj f hf⟩
      · refine ⟨.inr, ?_⟩
        rintro (⟨f, hf, e, rfl | ⟨h, -, -⟩⟩ | h)
        · exact absurd hf h1
        · exact absurd h h2
        · exact h
  have hnd : (walkLoop filename part walk).Nodup := by
    clear hmem
    induction walk with
    | nil => simp [walkLoop]
    | cons x walk ih =>
      obtain ⟨d, fs⟩ := x
      have hd' := List.nodup_cons.1 hd
      have hx := hw (d, fs) List.mem_cons_self
      have hj := hjoin (d, fs) List.mem_cons_self
      have ih := ih hd'.2 (fun x hx => hw x (List.mem_cons_of_mem _ hx)) fun x hx => hjoin x (List.mem_cons_of_mem _ hx)
      have hout : ∀ (walk' : List (Str × List Str)), (∀ y ∈ walk', y ∈ walk) → ∀ p ∈ walkLoop filename part walk',
          ∃ y ∈ walk, ∃ f ∈ y.2, p = y.1 ++ '/' :: f := by
        intro walk'
        induction walk' with
        | nil => simp [walkLoop]
        | cons y walk' ih' =>
          intro hy p hp
          have hy0 := hy y List.mem_cons_self
          have hjy := hjoin y (List.mem_cons_of_mem _ hy0)
          obtain ⟨d', fs'⟩ := y
          have ih' := ih' fun y hy' => hy y (List.mem_cons_of_mem _ hy')
          rw [walkLoop] at hp
          split_ifs at hp with h1 h2
          · rcases List.mem_cons.1 hp with rfl | hp
            · exact ⟨_, hy0, _, h1, hjy _ h1⟩
            · exact ih' p hp
          · rcases List.mem_append.1 hp with hp | hp
            · obtain ⟨f, hf, rfl⟩ := List.mem_map.1 hp
              exact ⟨_, hy0, f, (List.mem_filter.1 hf).1, hjy _ (List.mem_filter.1 hf).1⟩
            · exact ih' p hp
          · exact ih' p hp
      have hdisj : ∀ f ∈ fs, d ++ '/' :: f ∉ walkLoop filename part walk := by
        intro f hf hm
        obtain ⟨y, hy, f', hf', e⟩ := hout walk (fun _ h => h) _ hm
        have := (file_inj (hx.2.2.2 f hf) ((hw y (List.mem_cons_of_mem _ hy)).2.2.2 f' hf') e).1
        exact hd'.1 (List.mem_map.2 ⟨y, hy, this.symm⟩)
      rw [walkLoop]
      split_ifs with h1 h2
      · rw [List.nodup_cons, hj _ h1]
        exact ⟨hdisj _ h1, ih⟩
      · rw [List.nodup_append]
        refine ⟨?_, ih, ?_⟩
        · refine List.Nodup.map_on ?_ (hx.2.2.1.filter _)
          intro a ha b hb e
          have ha := (List.mem_filter.1 ha).1
          have hb := (List.mem_filter.1 hb).1
          rw [hj a ha, hj b hb] at e
          exact (file_inj (hx.2.2.2 a ha) (hx.2.2.2 b hb) e).2
        · intro a ha b hb e
          obtain ⟨f, hf, rfl⟩ := List.mem_map.1 ha
          have hf := (List.mem_filter.1 hf).1
          rw [hj f hf] at e
          exact hdisj f hf (e ▸ hb)
      · exact ih
  refine ⟨?_, fun p => ?_⟩
  · rw [getFilepaths]
    generalize walkLoop filename part walk = l at hnd
    clear hd hw hjoin hmem
    induction ignore generalizing l with
    | nil => exact hnd
    | cons a as ih => exact ih _ (hnd.erase a)
  · rw [getFilepaths, foldl_erase hnd, hmem, and_comm]

/-- Two directories, one of them with a file of the exact name. -/
example : getFilepaths [("a".toList, ["err.txt".toList, "err2.txt".toList]), ("a/b".toList, ["xerr.txt".toList, "y".toList])] "err.txt".toList true
    [] = ["a/err.txt".toList, "a/b/xerr.txt".toList] := by
  decide

/-- The headers of arrays. -/
example (w : World) (h : w.files ['p'] = some []) :
    getHeaders id (fun _ => .ok ["t".toList, "emg[1]".toList, "pos".toList]) w ['p'] ["emg-1".toList, "pos3".toList, "t".toList, "no".toList] =
      .ok ["emg[1]".toList, "pos".toList, "t".toList] := by
  rw [getHeaders, h]
  decide

end Verif
