import Verif.Props.Directories

/-!
# C96: zipping, unzipping and finding files
-/

namespace Verif

open Str Structures Files

namespace Files

/-- The name of the file, after the last slash, has a character other than a dot. -/
def Named (p : Str) : Prop := ∃ c ∈ afterLast '/' p, c ≠ '.'

instance (p : Str) : Decidable (Named p) := by unfold Named; infer_instance

theorem splitext_gz {p : Str} (h : Named p) : splitext (p ++ ".gz".toList) = (p, ".gz".toList) := by
  have e1 : afterLast '/' (p ++ ".gz".toList) = afterLast '/' p ++ ".gz".toList := by
    rw [afterLast, afterLast, List.reverse_append, List.takeWhile_append_of_pos]
    · simp
    · decide
  have e2 : afterLast '.' (afterLast '/' p ++ ".gz".toList) = "gz".toList :=
    afterLast_append (c := '.') _ (b := "gz".toList) (by decide)
  have e3 : extension (p ++ ".gz".toList) = ".gz".toList := by
    rw [extension, e1, e2]
    rw [if_pos]
    · rfl
    · constructor
      · simp
      · have : (afterLast '/' p ++ ".gz".toList).length - "gz".toList.length - 1 = (afterLast '/' p).length := by
          rw [List.length_append]
          have : ".gz".toList.length = 3 := by decide
          have h2 : "gz".toList.length = 2 := by decide
          omega
        rw [this, List.take_left, List.any_eq_true]
        obtain ⟨c, hc, hd⟩ := h
        exact ⟨c, hc, by simpa using hd⟩
  rw [splitext, e3]
  simp

theorem gz_ne (p : Str) : p ++ ".gz".toList ≠ p := by
  intro e
  have := congrArg List.length e
  rw [List.length_append] at this
  have h3 : ".gz".toList.length = 3 := by decide
  omega

theorem unzip_gz {w : Disk} {p s : Str} (h : Named p) (hx : w.node p = none)
    (hz : w.node (p ++ ".gz".toList) = some (.file (.gz (.text s)))) (hw : w.canWrite p = true) (cleanup : Bool) :
    unzip w (p ++ ".gz".toList) cleanup = (some p, (s.inits.map fun t => w.put p (some (.file (.text t)))) ++
      if cleanup then [(w.put p (some (.file (.text s)))).put (p ++ ".gz".toList) none] else []) := by
  rw [unzip, splitext_gz h]
  have : ¬ w.exists' p = true := by rw [exists_iff]; simp [hx]
  dsimp only
  rw [if_neg (not_not.mpr rfl), if_neg this, hz]
  dsimp only
  rw [hw]
  rfl

theorem inits_getLast (s : Str) : s.inits.getLast? = some s := by
  induction s with
  | nil => rfl
  | cons c s ih =>
    rw [List.inits_cons, List.getLast?_cons, List.getLast?_map, ih]
    rfl

end Files

/-- **C96 (round trip).** Zipping a file with `cleanup` replaces it by a zipped file with its content, and changes nothing else; unzipping
that with `cleanup` gives the original disk. -/
theorem C96_zip_unzip (w : Disk) (p s : Str) (h : Named p) (hp : w.node p = some (.file (.text s)))
    (hz : w.node (p ++ ".gz".toList) = none) (hw : w.canWrite p = true) (hwz : w.canWrite (p ++ ".gz".toList) = true) :
    ∃ l l', zipfile w p true = (some (p ++ ".gz".toList), l) ∧
      (finally' w l).node (p ++ ".gz".toList) = some (.file (.gz (.text s))) ∧ (finally' w l).node p = none ∧
      (∀ q, q ≠ p → q ≠ p ++ ".gz".toList → (finally' w l).node q = w.node q) ∧
      unzip (finally' w l) (p ++ ".gz".toList) true = (some p, l') ∧ finally' (finally' w l) l' = w := by
  have hne := gz_ne p
  have e : zipfile w p true = (some (p ++ ".gz".toList), [w.put (p ++ ".gz".toList) (some (.file .damaged)),
      w.put (p ++ ".gz".toList) (some (.file (.gz (.text s)))),
      (w.put (p ++ ".gz".toList) (some (.file (.gz (.text s))))).put p none]) := by
    rw [zipfile, hp]
    dsimp only
    rw [if_pos ⟨hwz, by rw [hz]; simp⟩]
    rfl
  have n1 : ((w.put (p ++ ".gz".toList) (some (.file (.gz (.text s))))).put p none).node (p ++ ".gz".toList) =
      some (.file (.gz (.text s))) := by rw [put_other _ _ hne, put_self]
  have n2 : ((w.put (p ++ ".gz".toList) (some (.file (.gz (.text s))))).put p none).node p = none := put_self _ _ _
  refine ⟨_, _, e, n1, n2, ?_, unzip_gz h n2 n1 hw true, ?_⟩
  · intro q h1 h2
    show ((w.put (p ++ ".gz".toList) (some (.file (.gz (.text s))))).put p none).node q = _
    rw [put_other _ _ h1, put_other _ _ h2]
  · rw [finally', if_pos rfl, List.getLast?_append]
    show (((w.put (p ++ ".gz".toList) _).put p none).put p _).put (p ++ ".gz".toList) none = w
    cases w with
    | mk node can =>
      simp only [Disk.put]
      congr 1
      funext q
      by_cases h1 : q = p ++ ".gz".toList
      · subst h1
        simpa using hz.symm
      · by_cases h2 : q = p
        · subst h2
          rw [Function.update_of_ne h1, Function.update_self]
          exact hp.symm
        · rw [Function.update_of_ne h1, Function.update_of_ne h2, Function.update_of_ne h2, Function.update_of_ne h1]

/-- `/log/raw.txt` has such a name. -/
example : Named "/log/raw.txt".toList := by decide

/-- **C96 (crash while zipping).** If zipping stops at any moment, with or without `cleanup`, then the file is there or the complete zipped
file is, and nothing else is changed. -/
theorem C96_zip_crash (w : Disk) (p : Str) (c : Content) (hp : w.node p = some (.file c)) (cleanup : Bool) :
    ∀ w' ∈ (zipfile w p cleanup).2,
      (w'.node p = some (.file c) ∨ w'.node (p ++ ".gz".toList) = some (.file (.gz c))) ∧
      ∀ q, q ≠ p → q ≠ p ++ ".gz".toList → w'.node q = w.node q := by
  have hne := gz_ne p
  intro w' hw'
  rw [zipfile, hp] at hw'
  dsimp only at hw'
  split_ifs at hw' with h1 h2
  · simp only [List.cons_append, List.nil_append, List.mem_cons, List.not_mem_nil, or_false] at hw'
    rcases hw' with rfl | rfl | rfl
    · exact ⟨.inl (by rw [put_other _ _ hne.symm, hp]), fun q _ h => put_other _ _ h⟩
    · exact ⟨.inr (put_self _ _ _), fun q _ h => put_other _ _ h⟩
    · refine ⟨.inr (by rw [put_other _ _ hne, put_self]), fun q h3 h => ?_⟩
      rw [put_other _ _ h3, put_other _ _ h]
  · simp only [List.append_nil, List.mem_cons, List.not_mem_nil, or_false] at hw'
    rcases hw' with rfl | rfl
    · exact ⟨.inl (by rw [put_other _ _ hne.symm, hp]), fun q _ h => put_other _ _ h⟩
    · exact ⟨.inr (put_self _ _ _), fun q _ h => put_other _ _ h⟩
  · simp at hw'

/-- **C96 (crash while unzipping).** If unzipping stops at any moment, then the zipped file or the complete text is there, and nothing else
is changed.  Missing for the full claim: that the file found afterwards is complete, which is false, see below. -/
theorem C96_unzip_crash_partial (w : Disk) (p s : Str) (h : Named p) (hx : w.node p = none)
    (hz : w.node (p ++ ".gz".toList) = some (.file (.gz (.text s)))) (hw : w.canWrite p = true) (cleanup : Bool) :
    ∀ w' ∈ (unzip w (p ++ ".gz".toList) cleanup).2,
      (w'.node (p ++ ".gz".toList) = some (.file (.gz (.text s))) ∨ w'.node p = some (.file (.text s))) ∧
      ∀ q, q ≠ p → q ≠ p ++ ".gz".toList → w'.node q = w.node q := by
  have hne := gz_ne p
  rw [unzip_gz h hx hz hw]
  intro w' hw'
  rcases List.mem_append.mp hw' with hw' | hw'
  · obtain ⟨t, _, rfl⟩ := List.mem_map.mp hw'
    exact ⟨.inl (by rw [put_other _ _ hne, hz]), fun q h1 _ => put_other _ _ h1⟩
  · split_ifs at hw'
    · rw [List.mem_singleton] at hw'
      subst hw'
      refine ⟨.inr (by rw [put_other _ _ hne.symm, put_self]), fun q h1 h2 => ?_⟩
      rw [put_other _ _ h2, put_other _ _ h1]
    · simp at hw'

/-- **C96 (after a crash).** But every part of the text may be what a crash leaves, and then `file_exists` and `unzip` give the path of
the incomplete file as if it were complete. -/
theorem C96_unzip_crash_taken (w : Disk) (p s t : Str) (h : Named p) (hx : w.node p = none)
    (hz : w.node (p ++ ".gz".toList) = some (.file (.gz (.text s)))) (hw : w.canWrite p = true) (ht : t <+: s) (cleanup : Bool) :
    ∃ w' ∈ (unzip w (p ++ ".gz".toList) cleanup).2, w'.node p = some (.file (.text t)) ∧
      (∀ n makeDir unzipFile, p ≠ [] → fileExists n w' p makeDir true unzipFile = some (.path p, w')) ∧
      unzip w' (p ++ ".gz".toList) cleanup = (some p, []) := by
  have hn : (w.put p (some (.file (.text t)))).node p = some (.file (.text t)) := put_self _ _ _
  have hex : (w.put p (some (.file (.text t)))).exists' p = true := by rw [exists_iff, hn]; simp
  refine ⟨w.put p (some (.file (.text t))), ?_, hn, ?_, ?_⟩
  · rw [unzip_gz h hx hz hw]
    exact List.mem_append_left _ (List.mem_map.mpr ⟨t, (List.mem_inits t s).mpr ht, rfl⟩)
  · intro n m u hpn
    rw [fileExists, if_neg hpn, if_pos hex]
  · rw [unzip, splitext_gz h]
    simp [hex]

/-- A disk with a zipped file only. -/
example : let w : Disk := ⟨fun p => if p = "r.txt.gz".toList then some (.file (.gz (.text "a b\n1 2\n".toList))) else none, fun _ => true⟩
    Named "r.txt".toList ∧ w.node "r.txt".toList = none ∧ "a b\n".toList <+: "a b\n1 2\n".toList := by decide +kernel

/-- **C96 (not a zipped file).** Unzipping a file that is not zipped raises and leaves an empty file, which `file_exists` then finds. -/
theorem C96_unzip_not_zipped (w : Disk) (p : Str) (c : Char) (s : Str) (h : Named p) (hx : w.node p = none)
    (hz : w.node (p ++ ".gz".toList) = some (.file (.text (c :: s)))) (hw : w.canWrite p = true) (cleanup : Bool) :
    ∃ l, unzip w (p ++ ".gz".toList) cleanup = (none, l) ∧ (finally' w l).node p = some (.file (.text [])) ∧
      ∀ q, q ≠ p → (finally' w l).node q = w.node q := by
  refine ⟨[w.put p (some (.file (.text [])))], ?_, put_self _ _ _, fun q hq => put_other _ _ hq⟩
  rw [unzip, splitext_gz h]
  have : ¬ w.exists' p = true := by rw [exists_iff]; simp [hx]
  dsimp only
  rw [if_neg (not_not.mpr rfl), if_neg this, hz]
  dsimp only
  rw [hw]
  rfl

/-- **C96 (found).** Without `make_dir` and `check_zip` the answer is the path if it is there, for a zipped file otherwise the path
without `.gz` if that is there, and otherwise false; nothing is changed. -/
theorem C96_file_exists (n : ℕ) (w : Disk) (p : Str) (hp : p ≠ []) (unzipFile : Bool) :
    (w.node p ≠ none → fileExists n w p false false unzipFile = some (.path p, w)) ∧
    (∀ q, w.node p = none → Named q → p = q ++ ".gz".toList → w.node q ≠ none →
      fileExists n w p false false unzipFile = some (.path q, w)) ∧
    (w.node p = none → (∀ q, Named q → p = q ++ ".gz".toList → w.node q = none) →
      fileExists n w p false false unzipFile = some (.no, w)) := by
  have hzip : ∀ q, isZip p = true ∧ (splitext p).1 = q ↔ Named q ∧ p = q ++ ".gz".toList := by
    intro q
    constructor
    · rintro ⟨h1, rfl⟩
      have he : extension p = ".gz".toList := of_decide_eq_true h1
      have hsuf : ".gz".toList <:+ afterLast '/' p := by
        rw [extension] at he
        split_ifs at he with hc
        · obtain ⟨a, b, hab, hb⟩ := exists_last_part hc.1
          rw [hab, afterLast_append a hb] at he
          exact ⟨a, by rw [hab, ← he]⟩
        · exact absurd he (by decide)
      have haf : afterLast '/' p <:+ p := by
        rw [afterLast]
        have := List.takeWhile_prefix (fun x => decide (x ≠ '/')) (l := p.reverse)
        rw [← List.reverse_suffix, List.reverse_reverse] at this
        exact this
      obtain ⟨q, rfl⟩ := hsuf.trans haf
      have hq : (splitext (q ++ ".gz".toList)).1 = q := by
        rw [splitext, he]
        simp
      rw [hq]
      refine ⟨?_, rfl⟩
      have e1 : afterLast '/' (q ++ ".gz".toList) = afterLast '/' q ++ ".gz".toList := by
        rw [afterLast, afterLast, List.reverse_append, List.takeWhile_append_of_pos]
        · simp
        · decide
      have e2 : afterLast '.' (afterLast '/' q ++ ".gz".toList) = "gz".toList :=
        afterLast_append (c := '.') _ (b := "gz".toList) (by decide)
      rw [extension, e1, e2] at he
      split_ifs at he with hc
      · have : (afterLast '/' q ++ ".gz".toList).length - "gz".toList.length - 1 = (afterLast '/' q).length := by
          rw [List.length_append]
          have : ".gz".toList.length = 3 := by decide
          have h2 : "gz".toList.length = 2 := by decide
          omega
        rw [this, List.take_left, List.any_eq_true] at hc
        obtain ⟨c, hc, hd⟩ := hc.2
        exact ⟨c, hc, by simpa using hd⟩
      · exact absurd he (by decide)
    · rintro ⟨h1, rfl⟩
      rw [isZip, splitext_gz h1]
      simp
  have hnx : w.node p = none → ¬ w.exists' p = true := fun h => by rw [exists_iff]; simp [h]
  refine ⟨?_, ?_, ?_⟩
  · intro hx
    rw [fileExists, if_neg hp, if_pos ((exists_iff w p).mpr hx)]
  · intro q hx h1 h2 h3
    obtain ⟨h4, h5⟩ := (hzip q).mpr ⟨h1, h2⟩
    rw [fileExists, if_neg hp, if_neg (hnx hx), if_pos, h5]
    rw [h4, h5, Bool.true_and, exists_iff]
    exact h3
  · intro hx hq
    rw [fileExists, if_neg hp, if_neg (hnx hx), if_neg, if_neg (by simp), if_neg (by simp)]
    rw [Bool.and_eq_true]
    rintro ⟨h1, h2⟩
    rw [exists_iff] at h2
    obtain ⟨h3, h4⟩ := (hzip _).mp ⟨h1, rfl⟩
    exact h2 (hq _ h3 h4)

/-- **C96 (found zipped).** With `check_zip` a file that is there only zipped is unzipped beside, and its path is given; with
`unzip_file=False` the path of the zipped file is given and nothing is changed. -/
theorem C96_file_exists_zip (n : ℕ) (w : Disk) (p s : Str) (makeDir : Bool) (hp : p ≠ []) (h : Named p) (hx : w.node p = none)
    (hnz : ∀ q, p ≠ q ++ ".gz".toList)
    (hz : w.node (p ++ ".gz".toList) = some (.file (.gz (.text s)))) (hw : w.canWrite p = true) :
    fileExists n w p makeDir true true = some (.path p, w.put p (some (.file (.text s)))) ∧
    fileExists n w p makeDir true false = some (.path (p ++ ".gz".toList), w) := by
  have hnx : ¬ w.exists' p = true := by rw [exists_iff]; simp [hx]
  have hzx : w.exists' (p ++ ".gz".toList) = true := by rw [exists_iff, hz]; simp
  have hzip : isZip p = false := by
    rw [Bool.eq_false_iff]
    intro hc
    have he : extension p = ".gz".toList := of_decide_eq_true hc
    have hsuf : ".gz".toList <:+ afterLast '/' p := by
      rw [extension] at he
      split_ifs at he with hc
      · obtain ⟨a, b, hab, hb⟩ := exists_last_part hc.1
        rw [hab, afterLast_append a hb] at he
        exact ⟨a, by rw [hab, ← he]⟩
      · exact absurd he (by decide)
    have haf : afterLast '/' p <:+ p := by
      rw [afterLast]
      have := List.takeWhile_prefix (fun x => decide (x ≠ '/')) (l := p.reverse)
      rw [← List.reverse_suffix, List.reverse_reverse] at this
      exact this
    obtain ⟨q, hq⟩ := hsuf.trans haf
    exact hnz q hq.symm
  constructor
  · rw [fileExists, if_neg hp, if_neg hnx, hzip, if_neg (by simp), if_pos rfl]
    dsimp only
    rw [if_pos hzx, if_pos rfl, unzip_gz h hx hz hw]
    simp [finally', inits_getLast]
  · rw [fileExists, if_neg hp, if_neg hnx, hzip, if_neg (by simp), if_pos rfl]
    dsimp only
    rw [if_pos hzx, if_neg (by simp)]

/-- **C96 (not found).** With `check_zip` the answer is `None`, also with `make_dir`. -/
theorem C96_file_exists_missing (n : ℕ) (w : Disk) (p : Str) (makeDir unzipFile : Bool) (hp : p ≠ []) (hx : w.node p = none)
    (hz : w.node (p ++ ".gz".toList) = none) (hb : ∀ q, p = q ++ ".gz".toList → w.node q = none) :
    fileExists n w p makeDir true unzipFile = some (.nothing, w) := by
  have h0 := (C96_file_exists n w p hp unzipFile).2.2 hx fun q _ => hb q
  have hnx : ¬ w.exists' p = true := by rw [exists_iff]; simp [hx]
  rw [fileExists, if_neg hp, if_neg hnx] at h0 ⊢
  by_cases h1 : (isZip p && w.exists' (splitext p).1) = true
  · rw [if_pos h1] at h0
    simp at h0
  · rw [if_neg h1, if_pos rfl]
    dsimp only
    rw [if_neg (by rw [exists_iff]; simp only [hz]; simp)]

/-- **C96 (`make_dir`).** With `make_dir` and without `check_zip` a missing path gives a true value although no file is there: for a name
with `.txt` the directory of the file is made and given, for another name a directory is made at the path itself. -/
theorem C96_file_exists_make_dir (w : Disk) (cs : List Str) (c : Str) (hg : ∀ x ∈ cs ++ [c], GoodComp x)
    (hroot : w.node (pathStr 1 []) = some .dir) (hr : Rooted w 1 (cs ++ [c]))
    (hfile : ∀ ds, ds <+: cs → w.node (pathStr 1 ds) = none ∨ w.node (pathStr 1 ds) = some .dir)
    (hw : ∀ ds, ds <+: cs ++ [c] → w.node (pathStr 1 ds) = none → w.canWrite (pathStr 1 ds) = true)
    (hx : w.node (pathStr 1 (cs ++ [c])) = none) (hnz : ∀ q, pathStr 1 (cs ++ [c]) ≠ q ++ ".gz".toList)
    (unzipFile : Bool) (n : ℕ) (hn : cs.length + 1 < n) :
    (".txt".toList <:+: c → ∃ w', fileExists n w (pathStr 1 (cs ++ [c])) true false unzipFile = some (.path (pathStr 1 cs), w') ∧
      (∀ q ∈ above 1 cs, w'.node q = some .dir) ∧ ∀ q, q ∉ above 1 cs → w'.node q = w.node q) ∧
    (¬ ".txt".toList <:+: c → ∃ w', fileExists n w (pathStr 1 (cs ++ [c])) true false unzipFile =
        some (.path (pathStr 1 (cs ++ [c])), w') ∧
      (∀ q ∈ above 1 (cs ++ [c]), w'.node q = some .dir) ∧ ∀ q, q ∉ above 1 (cs ++ [c]) → w'.node q = w.node q) := by
  have hp : pathStr 1 (cs ++ [c]) ≠ [] := pathStr_ne_nil hg (.inl one_ne_zero)
  have hgc : ∀ x ∈ cs, GoodComp x := fun x h => hg x (by simp [h])
  have hsp : pathSplit (pathStr 1 (cs ++ [c])) = (pathStr 1 cs, c) := pathSplit_pathStr 1 cs hgc (hg c (by simp))
  have h0 := (C96_file_exists n w _ hp unzipFile).2.2 hx fun q _ h => absurd h (hnz q)
  have hnx : ¬ w.exists' (pathStr 1 (cs ++ [c])) = true := by rw [exists_iff]; simp [hx]
  have key : fileExists n w (pathStr 1 (cs ++ [c])) true false unzipFile =
      if ".txt".toList <:+: c then makeDirs n w (pathStr 1 cs) else makeDirs n w (pathStr 1 (cs ++ [c])) := by
    rw [fileExists, if_neg hp, if_neg hnx] at h0 ⊢
    by_cases h1 : (isZip (pathStr 1 (cs ++ [c])) && w.exists' (splitext (pathStr 1 (cs ++ [c]))).1) = true
    · rw [if_pos h1] at h0
      simp at h0
    · rw [if_neg h1, if_neg (by simp), if_pos rfl, hsp]
  rw [key]
  have hpre : ∀ ds, ds <+: cs ++ [c] → ds <+: cs ∨ ds = cs ++ [c] := by
    intro ds h
    rcases List.prefix_concat_iff.mp h with h | h
    · exact .inr h
    · exact .inl h
  constructor
  · intro ht
    rw [if_pos ht]
    obtain ⟨w', h1, _, h2⟩ := C95_make_dirs_partial w cs hgc hroot (fun ds x h => hr ds x (h.trans (List.prefix_append _ _))) hfile
      (fun ds h => hw ds (h.trans (List.prefix_append _ _))) n (by omega)
    exact ⟨w', h1, h2⟩
  · intro ht
    rw [if_neg ht]
    obtain ⟨w', h1, _, h2⟩ := C95_make_dirs_partial w (cs ++ [c]) hg hroot hr (fun ds h => by
      rcases hpre ds h with h | rfl
      · exact hfile ds h
      · exact .inl hx) hw n (by simp; omega)
    exact ⟨w', h1, h2⟩

/-- A concrete case: an empty disk that can be written to, and the path `/a/b.txt`. -/
example : let w : Disk := ⟨fun p => if p = "/".toList then some .dir else none, fun _ => true⟩
    ∃ w', fileExists 5 w "/a/b.txt".toList true false true = some (.path "/a".toList, w') ∧ w'.node "/a/b.txt".toList = none := by
  refine ⟨_, rfl, ?_⟩
  decide +kernel

end Verif
