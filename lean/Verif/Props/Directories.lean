import Verif.Model.Files
import Verif.Proofs.Structures

/-!
# C95: making and listing directories
-/

namespace Verif

open Str Structures Files

namespace Files

theorem pathStr_inj {k : ℕ} {cs ds : List Str} (hc : ∀ c ∈ cs, GoodComp c) (hd : ∀ c ∈ ds, GoodComp c)
    (h : pathStr k cs = pathStr k ds) : cs = ds := by
  have hj : join '/' cs = join '/' ds := List.append_cancel_left h
  by_cases h1 : cs = []
  · subst h1
    by_contra h2
    exact (join_getLast (Ne.symm h2) hd).2 hj.symm
  · by_cases h2 : ds = []
    · subst h2
      exact absurd hj (join_getLast h1 hc).2
    · rw [← split_good h1 hc, ← split_good h2 hd, hj]

theorem put_self (w : Disk) (p : Str) (n : Option Node) : (w.put p n).node p = n := by simp [Disk.put]

theorem put_other (w : Disk) {p q : Str} (n : Option Node) (h : q ≠ p) : (w.put p n).node q = w.node q := by
  simp [Disk.put, h]

theorem exists_iff (w : Disk) (p : Str) : w.exists' p = true ↔ w.node p ≠ none := by
  rw [Disk.exists', Option.isSome_iff_ne_none]

theorem pathStr_ne_nil {k : ℕ} {cs : List Str} (hc : ∀ c ∈ cs, GoodComp c) (h : k ≠ 0 ∨ cs ≠ []) : pathStr k cs ≠ [] := by
  rw [pathStr]
  intro e
  rw [List.append_eq_nil_iff, List.replicate_eq_nil_iff] at e
  rcases h with h | h
  · exact h e.1
  · exact (join_getLast h hc).2 e.2

theorem slash_mem_abs (cs : List Str) : '/' ∈ pathStr 1 cs := by simp [pathStr]

theorem makeDirs_exists {n : ℕ} (hn : 0 < n) {w : Disk} {p : Str} (h : w.node p ≠ none) :
    makeDirs n w p = some (.path p, w) := by
  obtain ⟨n, rfl⟩ := Nat.exists_eq_succ_of_ne_zero hn.ne'
  rw [makeDirs, if_pos ((exists_iff w p).mpr h)]

theorem makeDirs_mkdir {n : ℕ} (hn : 0 < n) {w w' : Disk} {p : Str} (h : w.node p = none) (hm : w.mkdir p = some w') :
    makeDirs n w p = some (.path p, w') := by
  obtain ⟨n, rfl⟩ := Nat.exists_eq_succ_of_ne_zero hn.ne'
  rw [makeDirs, if_neg (by rw [exists_iff]; simp [h]), hm]

theorem makeDirs_no {n : ℕ} (hn : 0 < n) {w : Disk} {p : Str} (h : w.node p = none) (hm : w.mkdir p = none)
    (hh : '/' ∉ (pathSplit p).1 ∨ w.node (pathSplit p).1 ≠ none) : makeDirs n w p = some (.no, w) := by
  obtain ⟨n, rfl⟩ := Nat.exists_eq_succ_of_ne_zero hn.ne'
  rw [makeDirs, if_neg (by rw [exists_iff]; simp [h]), hm]
  dsimp only
  rw [if_pos (by rwa [exists_iff])]

theorem makeDirs_rec {n : ℕ} {w : Disk} {p : Str} (h : w.node p = none) (hm : w.mkdir p = none)
    (hh : '/' ∈ (pathSplit p).1) (hx : w.node (pathSplit p).1 = none) :
    makeDirs (n + 1) w p = match makeDirs n w (pathSplit p).1 with
      | none => none
      | some (r, w1) => if r.truthy then makeDirs n w1 p else some (.path p, w1) := by
  rw [makeDirs, if_neg (by rw [exists_iff]; simp [h]), hm]
  dsimp only
  rw [if_neg (by rw [exists_iff]; simp [hh, hx])]
  rfl

theorem mkdir_none_of_parent {w : Disk} {p : Str} (h : w.node (pathSplit p).1 = none) : w.mkdir p = none := by
  simp [Disk.mkdir, h]

/-! ### The spec -/

/-- The directories above and at a path, as paths. -/
def above (k : ℕ) (cs : List Str) : Set Str := {q | ∃ ds, ds <+: cs ∧ q = pathStr k ds}

/-- What is at a path lies in a directory, as on every disk. -/
def Rooted (w : Disk) (k : ℕ) (cs : List Str) : Prop :=
  ∀ ds c, ds ++ [c] <+: cs → w.node (pathStr k (ds ++ [c])) ≠ none → w.node (pathStr k ds) = some .dir

end Files

/-- **C95 (made).** For an absolute path of which every missing directory can be made, and which no file obstructs, `make_dirs` gives
the path, all its directories are there, and nothing else is changed.  Missing for the full claim: obstructed and relative paths, for which
it is false, see below. -/
theorem C95_make_dirs_partial (w : Disk) (cs : List Str) (hg : ∀ c ∈ cs, GoodComp c) (hroot : w.node (pathStr 1 []) = some .dir)
    (hr : Rooted w 1 cs) (hfile : ∀ ds, ds <+: cs → w.node (pathStr 1 ds) = none ∨ w.node (pathStr 1 ds) = some .dir)
    (hw : ∀ ds, ds <+: cs → w.node (pathStr 1 ds) = none → w.canWrite (pathStr 1 ds) = true)
    (n : ℕ) (hn : cs.length < n) :
    ∃ w', makeDirs n w (pathStr 1 cs) = some (.path (pathStr 1 cs), w') ∧ w'.canWrite = w.canWrite ∧
      (∀ q ∈ above 1 cs, w'.node q = some .dir) ∧ ∀ q, q ∉ above 1 cs → w'.node q = w.node q := by
  induction cs using List.reverseRecOn generalizing n with
  | nil =>
    refine ⟨w, makeDirs_exists hn (by rw [hroot]; simp), rfl, ?_, fun _ _ => rfl⟩
    rintro q ⟨ds, hds, rfl⟩
    rw [List.prefix_nil.mp hds, hroot]
  | append_singleton ds c ih =>
    have hgd : ∀ c ∈ ds, GoodComp c := fun x hx => hg x (by simp [hx])
    have hgc : GoodComp c := hg c (by simp)
    have hsp : pathSplit (pathStr 1 (ds ++ [c])) = (pathStr 1 ds, c) := pathSplit_pathStr 1 ds hgd hgc
    have hpre : ds <+: ds ++ [c] := List.prefix_append _ _
    have hsub : ∀ q, q ∈ above 1 (ds ++ [c]) ↔ q ∈ above 1 ds ∨ q = pathStr 1 (ds ++ [c]) := by
      intro q
      constructor
      · rintro ⟨es, hes, rfl⟩
        rcases List.prefix_concat_iff.mp hes with rfl | h
        · exact .inr rfl
        · exact .inl ⟨es, h, rfl⟩
      · rintro (⟨es, hes, rfl⟩ | rfl)
        · exact ⟨es, hes.trans hpre, rfl⟩
        · exact ⟨_, List.prefix_rfl, rfl⟩
    have hnot : pathStr 1 (ds ++ [c]) ∉ above 1 ds := by
      rintro ⟨es, hes, e⟩
      have := pathStr_inj hg (fun x hx => hgd x (hes.subset hx)) e
      have hl := hes.length_le
      rw [← this] at hl
      simp at hl
    rw [List.length_append, List.length_singleton] at hn
    have hih := fun m hm => ih hgd (fun es x h => hr es x (h.trans hpre)) (fun es h => hfile es (h.trans hpre))
      (fun es h => hw es (h.trans hpre)) m hm
    by_cases hx : w.node (pathStr 1 (ds ++ [c])) = none
    · by_cases hd : w.node (pathStr 1 ds) = none
      · obtain ⟨m, rfl⟩ : ∃ m, n = m + 1 := ⟨n - 1, by omega⟩
        obtain ⟨w1, h1, h1c, h2, h3⟩ := hih m (by omega)
        have hrec := makeDirs_rec (n := m) hx (mkdir_none_of_parent (by rw [hsp]; exact hd)) (by rw [hsp]; exact slash_mem_abs ds)
          (by rw [hsp]; exact hd)
        rw [hsp, h1] at hrec
        have htr : (Found.path (pathStr 1 ds)).truthy = true := by
          simpa [Found.truthy] using pathStr_ne_nil hgd (.inl one_ne_zero)
        simp only [htr, if_true] at hrec
        have hx1 : w1.node (pathStr 1 (ds ++ [c])) = none := by rw [h3 _ hnot, hx]
        have hm : w1.mkdir (pathStr 1 (ds ++ [c])) = some (w1.put (pathStr 1 (ds ++ [c])) (some .dir)) := by
          rw [Disk.mkdir, if_pos]
          rw [hsp]
          refine ⟨hx1, h2 _ ⟨ds, List.prefix_rfl, rfl⟩, ?_⟩
          rw [h1c]
          exact hw _ List.prefix_rfl hx
        refine ⟨w1.put (pathStr 1 (ds ++ [c])) (some .dir), by rw [hrec]; exact makeDirs_mkdir (by omega) hx1 hm, h1c, ?_, ?_⟩
        · intro q hq
          rcases (hsub q).mp hq with hq | rfl
          · rw [put_other _ _ (by rintro rfl; exact hnot hq)]
            exact h2 q hq
          · exact put_self _ _ _
        · intro q hq
          rw [hsub, not_or] at hq
          rw [put_other _ _ hq.2]
          exact h3 q hq.1
      · have hdd := (hfile ds hpre).resolve_left hd
        have hm : w.mkdir (pathStr 1 (ds ++ [c])) = some (w.put (pathStr 1 (ds ++ [c])) (some .dir)) := by
          rw [Disk.mkdir, if_pos]
          rw [hsp]
          exact ⟨hx, hdd, hw _ List.prefix_rfl hx⟩
        have hab : ∀ es : List Str, es <+: ds → w.node (pathStr 1 es) = some .dir := by
          obtain ⟨w1, h1, _, h2, _⟩ := hih (ds.length + 1) (by omega)
          rw [makeDirs_exists (by omega) hd] at h1
          cases h1
          exact fun es hes => h2 _ ⟨es, hes, rfl⟩
        refine ⟨_, makeDirs_mkdir (by omega) hx hm, rfl, ?_, ?_⟩
        · intro q hq
          rcases (hsub q).mp hq with hq | rfl
          · rw [put_other _ _ (by rintro rfl; exact hnot hq)]
            obtain ⟨es, hes, rfl⟩ := hq
            exact hab es hes
          · exact put_self _ _ _
        · intro q hq
          rw [hsub, not_or] at hq
          exact put_other _ _ hq.2
    · refine ⟨w, makeDirs_exists (by omega) hx, rfl, ?_, fun _ _ => rfl⟩
      intro q hq
      rcases (hsub q).mp hq with hq | rfl
      · have hd := hr ds c List.prefix_rfl hx
        obtain ⟨w1, h1, _, h2, _⟩ := hih (ds.length + 1) (by omega)
        rw [makeDirs_exists (by omega) (by rw [hd]; simp)] at h1
        cases h1
        exact h2 q hq
      · exact (hfile _ List.prefix_rfl).resolve_left hx

/-- The disk with only the root, and everything writable, meets the hypotheses for `/a/b`. -/
example : let w : Disk := ⟨fun p => if p = "/".toList then some .dir else none, fun _ => true⟩
    Rooted w 1 ["a".toList, "b".toList] ∧ w.node (pathStr 1 []) = some .dir := by
  refine ⟨?_, by decide⟩
  intro ds c h hx
  exfalso
  apply hx
  show (if pathStr 1 (ds ++ [c]) = "/".toList then _ else _) = _
  rw [if_neg]
  intro e
  have hgood : ∀ c ∈ ["a".toList, "b".toList], GoodComp c := by decide
  have := pathStr_inj (k := 1) (fun x hx => hgood x (h.subset hx)) (ds := []) (by simp) e
  simp at this

namespace Files

/-- If `make_dirs` says no to a missing path with a slash, then it claims the path below it, and does not return for those further
below. -/
theorem stuck {w : Disk} {k : ℕ} {cs : List Str} (hs : '/' ∈ pathStr k cs) (hno : ∀ n, 0 < n → makeDirs n w (pathStr k cs) = some (.no, w))
    (hx : w.node (pathStr k cs) = none) {rest : List Str} (hg : ∀ c ∈ cs ++ rest, GoodComp c)
    (hmiss : ∀ ds, ds <+: rest → w.node (pathStr k (cs ++ ds)) = none) :
    (rest.length = 1 → ∀ n, 1 < n → makeDirs n w (pathStr k (cs ++ rest)) = some (.path (pathStr k (cs ++ rest)), w)) ∧
    (1 < rest.length → ∀ n, makeDirs n w (pathStr k (cs ++ rest)) = none) := by
  have hslash : ∀ ds : List Str, ds <+: rest → '/' ∈ pathStr k (cs ++ ds) := by
    intro ds _
    by_cases hd : ds = []
    · simpa [hd] using hs
    · by_cases hc : cs = []
      · subst hc
        rw [pathStr, List.mem_append] at hs
        rcases hs with hs | hs
        · rw [pathStr, List.mem_append]; exact .inl hs
        · simp [join] at hs
      · rw [pathStr, join_append hc hd]
        simp
  have hone : ∀ c n, [c] <+: rest → 1 < n →
      makeDirs n w (pathStr k (cs ++ [c])) = some (.path (pathStr k (cs ++ [c])), w) := by
    intro c n hc hn
    obtain ⟨m, rfl⟩ : ∃ m, n = m + 1 := ⟨n - 1, by omega⟩
    have hsp : pathSplit (pathStr k (cs ++ [c])) = (pathStr k cs, c) :=
      pathSplit_pathStr k cs (fun x hx => hg x (by simp [hx])) (hg c (by simp [hc.subset (List.mem_singleton_self c)]))
    rw [makeDirs_rec (hmiss [c] hc) (mkdir_none_of_parent (by rw [hsp]; exact hx)) (by rw [hsp]; exact hs)
      (by rw [hsp]; exact hx), hsp, hno m (by omega)]
    rfl
  refine ⟨?_, ?_⟩
  · intro hl n hn
    obtain ⟨c, rfl⟩ := List.length_eq_one_iff.mp hl
    exact hone c n List.prefix_rfl hn
  · intro hl n
    have key : ∀ n (ds : List Str) (c : Str), ds ++ [c] <+: rest → ds ≠ [] →
        makeDirs n w (pathStr k (cs ++ (ds ++ [c]))) = none := by
      intro n
      induction n with
      | zero => intro ds c _ _; rfl
      | succ n ih =>
        intro ds c hp hne
        have hpd : ds <+: rest := (List.prefix_append ds [c]).trans hp
        have hsp : pathSplit (pathStr k (cs ++ (ds ++ [c]))) = (pathStr k (cs ++ ds), c) := by
          rw [← List.append_assoc]
          refine pathSplit_pathStr k (cs ++ ds) (fun x hx => hg x ?_) (hg c ?_)
          · rcases List.mem_append.mp hx with h | h
            · simp [h]
            · simp [hpd.subset h]
          · have : c ∈ rest := hp.subset (by simp)
            simp [this]
        rw [makeDirs_rec (hmiss _ hp) (mkdir_none_of_parent (by rw [hsp]; exact hmiss _ hpd)) (by rw [hsp]; exact hslash _ hpd)
          (by rw [hsp]; exact hmiss _ hpd), hsp]
        rcases List.eq_nil_or_concat ds with rfl | ⟨es, d, rfl⟩
        · exact absurd rfl hne
        · rw [List.concat_eq_append] at *
          by_cases he : es = []
          · subst he
            by_cases hn : 1 < n
            · have h1 := hone d n hpd hn
              rw [List.nil_append, h1]
              have : (Found.path (pathStr k (cs ++ [d]))).truthy = true := by
                have : pathStr k (cs ++ [d]) ≠ [] := pathStr_ne_nil (fun x hx => hg x (by
                  rcases List.mem_append.mp hx with h | h
                  · simp [h]
                  · have := hpd.subset h
                    simp [this])) (.inr (by simp))
                simpa [Found.truthy] using this
              dsimp only
              rw [if_pos this]
              exact ih [d] c hp (by simp)
            · have hn' : n = 0 ∨ n = 1 := by omega
              rcases hn' with rfl | rfl
              · rfl
              · have hsp2 : pathSplit (pathStr k (cs ++ ([] ++ [d]))) = (pathStr k cs, d) :=
                  pathSplit_pathStr k cs (fun x hx => hg x (by simp [hx])) (hg d (by
                    have := hpd.subset (show d ∈ [] ++ [d] by simp)
                    simp [this]))
                have h0 : makeDirs 1 w (pathStr k (cs ++ ([] ++ [d]))) = none := by
                  rw [makeDirs_rec (n := 0) (hmiss _ hpd) (mkdir_none_of_parent (by rw [hsp2]; exact hx)) (by rw [hsp2]; exact hs)
                    (by rw [hsp2]; exact hx)]
                  rfl
                rw [h0]
          · rw [ih es d hpd he]
    rcases List.eq_nil_or_concat rest with rfl | ⟨ds, c, rfl⟩
    · simp at hl
    · rw [List.concat_eq_append] at *
      refine key n ds c List.prefix_rfl ?_
      rintro rfl
      simp at hl

end Files

/-- **C95 (obstructed).** If the lowest directory that is there is a file, or does not allow a directory in it, then `make_dirs` changes
nothing.  It says no if one directory is missing.  But it claims a path of which two directories are missing, and recurs
without end if there are more. -/
theorem C95_make_dirs_obstructed (w : Disk) (cs : List Str) (c : Str) (rest : List Str) (hg : ∀ x ∈ cs ++ c :: rest, GoodComp x)
    (hx : w.node (pathStr 1 cs) ≠ none) (hmiss : ∀ ds, ds <+: rest → w.node (pathStr 1 (cs ++ c :: ds)) = none)
    (hob : w.node (pathStr 1 cs) ≠ some .dir ∨ w.canWrite (pathStr 1 (cs ++ [c])) = false) :
    (rest = [] → ∀ n, 0 < n → makeDirs n w (pathStr 1 (cs ++ c :: rest)) = some (.no, w)) ∧
    (rest.length = 1 → ∀ n, 1 < n →
      makeDirs n w (pathStr 1 (cs ++ c :: rest)) = some (.path (pathStr 1 (cs ++ c :: rest)), w)) ∧
    (1 < rest.length → ∀ n, makeDirs n w (pathStr 1 (cs ++ c :: rest)) = none) := by
  have hsp : pathSplit (pathStr 1 (cs ++ [c])) = (pathStr 1 cs, c) :=
    pathSplit_pathStr 1 cs (fun x hx => hg x (by simp [hx])) (hg c (by simp))
  have hc : w.node (pathStr 1 (cs ++ [c])) = none := hmiss [] List.nil_prefix
  have hm : w.mkdir (pathStr 1 (cs ++ [c])) = none := by
    rw [Disk.mkdir, if_neg]
    rw [hsp]
    rintro ⟨_, h1, h2⟩
    rcases hob with h | h
    · exact h h1
    · rw [h] at h2; cases h2
  have hno : ∀ n, 0 < n → makeDirs n w (pathStr 1 (cs ++ [c])) = some (.no, w) := fun n hn =>
    makeDirs_no hn hc hm (.inr (by rw [hsp]; exact hx))
  have e : cs ++ c :: rest = (cs ++ [c]) ++ rest := by simp
  have := stuck (slash_mem_abs _) hno hc (rest := rest) (by rw [← e]; exact hg) (by
    intro ds hds
    have := hmiss ds hds
    rwa [show cs ++ c :: ds = (cs ++ [c]) ++ ds by simp] at this)
  rw [← e] at this
  refine ⟨?_, this⟩
  rintro rfl
  exact hno

/-- **C95 (the claim is false).** `make_dirs` may give a path that is not there: `/Users/fred` if nothing can be made at the root. -/
theorem C95_make_dirs_claims_missing :
    ∃ (w : Disk) (p : Str), (∀ n, 1 < n → makeDirs n w p = some (.path p, w)) ∧ w.node p = none := by
  let w : Disk := ⟨fun p => if p = "/".toList then some .dir else none, fun _ => false⟩
  refine ⟨w, pathStr 1 (["Users".toList] ++ ["fred".toList]), ?_, by decide⟩
  refine ((C95_make_dirs_obstructed w [] "Users".toList ["fred".toList] (by decide) (by decide) ?_ (.inr rfl)).2).1 rfl
  intro ds hds
  have hgood : ∀ c ∈ ["fred".toList], GoodComp c := by decide
  show (if pathStr 1 ([] ++ "Users".toList :: ds) = "/".toList then _ else _) = _
  rw [if_neg]
  intro e
  have := pathStr_inj (k := 1) (ds := []) (by
    intro x hx
    simp only [List.nil_append, List.mem_cons] at hx
    rcases hx with rfl | hx
    · decide
    · exact hgood x (hds.subset hx)) (by simp) e
  simp at this

/-- **C95 (relative paths).** For a relative path of which no directory is there `make_dirs` makes a single directory, but changes nothing
for longer ones, even if all can be made: it says no to two, claims three, and recurs without end for more. -/
theorem C95_make_dirs_relative (w : Disk) (c : Str) (rest : List Str) (hg : ∀ x ∈ c :: rest, GoodComp x)
    (hcwd : w.node [] = some .dir) (hmiss : ∀ ds, ds <+: rest → w.node (pathStr 0 (c :: ds)) = none)
    (hw : w.canWrite c = true) :
    (rest = [] → ∀ n, 0 < n → makeDirs n w c = some (.path c, w.put c (some .dir))) ∧
    (rest.length = 1 → ∀ n, 0 < n → makeDirs n w (pathStr 0 (c :: rest)) = some (.no, w)) ∧
    (rest.length = 2 → ∀ n, 1 < n → makeDirs n w (pathStr 0 (c :: rest)) = some (.path (pathStr 0 (c :: rest)), w)) ∧
    (2 < rest.length → ∀ n, makeDirs n w (pathStr 0 (c :: rest)) = none) := by
  have hgc := hg c (by simp)
  have hc : w.node c = none := hmiss [] List.nil_prefix
  have hspc : pathSplit c = ([], c) := pathSplit_pathStr 0 [] (by simp) hgc
  refine ⟨?_, ?_⟩
  · rintro rfl n hn
    refine makeDirs_mkdir hn hc ?_
    rw [Disk.mkdir, hspc, if_pos ⟨hc, hcwd, hw⟩]
  cases rest with
  | nil => exact ⟨by simp, by simp, by simp⟩
  | cons d rest =>
    have hgd := hg d (by simp)
    have hsp : pathSplit (pathStr 0 ([c] ++ [d])) = (c, d) := pathSplit_pathStr 0 [c] (by simpa using hgc) hgd
    have hx : w.node (pathStr 0 ([c] ++ [d])) = none := hmiss [d] (by simp)
    have hno : ∀ n, 0 < n → makeDirs n w (pathStr 0 ([c] ++ [d])) = some (.no, w) := fun n hn =>
      makeDirs_no hn hx (mkdir_none_of_parent (by rw [hsp]; exact hc)) (.inl (by rw [hsp]; exact hgc.2.1))
    have e : c :: d :: rest = ([c] ++ [d]) ++ rest := by simp
    have hs : '/' ∈ pathStr 0 ([c] ++ [d]) := by simp [pathStr, join]
    obtain ⟨h1, h2⟩ := stuck hs hno hx (rest := rest) (by rw [← e]; exact hg) (by
      intro ds hds
      exact hmiss (d :: ds) (by simpa using hds))
    rw [← e] at h1 h2
    refine ⟨?_, fun hl => h1 (by simpa using hl), fun hl => h2 (by simp only [List.length_cons] at hl; omega)⟩
    intro hl
    have : rest = [] := by simpa using hl
    subst this
    exact hno

/-- The hypotheses are met by `a/b/c/d` in an empty working directory. -/
example : let w : Disk := ⟨fun p => if p = [] then some .dir else none, fun _ => true⟩
    ∀ ds, ds <+: ["b".toList, "c".toList, "d".toList] → w.node (pathStr 0 ("a".toList :: ds)) = none := by
  intro w ds hds
  have hgood : ∀ c ∈ ["b".toList, "c".toList, "d".toList], GoodComp c := by decide
  show (if pathStr 0 ("a".toList :: ds) = [] then _ else _) = _
  rw [if_neg]
  refine pathStr_ne_nil ?_ (.inr (by simp))
  intro x hx
  rcases List.mem_cons.mp hx with rfl | hx
  · decide
  · exact hgood x (hds.subset hx)

/-! ### Listing the directories of a path -/

namespace Files

theorem dirsLoop_pathStr (k : ℕ) {cs : List Str} (hg : ∀ c ∈ cs, GoodComp c) (acc : List Str) {n : ℕ} (hn : cs.length < n) :
    dirsLoop n (pathStr k cs) acc = cs ++ acc := by
  induction cs using List.reverseRecOn generalizing n acc with
  | nil =>
    obtain ⟨m, rfl⟩ : ∃ m, n = m + 1 := ⟨n - 1, by have := hn; omega⟩
    have : pathSplit (pathStr k []) = (pathStr k [], []) := by
      have ha : afterLast '/' (pathStr k []) = [] := by
        cases k with
        | zero => rfl
        | succ k =>
          have : pathStr (k + 1) [] = List.replicate k '/' ++ '/' :: [] := by
            simp [pathStr, join, List.replicate_succ']
          rw [this]
          exact afterLast_append _ (by simp)
      rw [pathSplit, ha]
      simp [pathStr, join]
    rw [dirsLoop, this]
    simp
  | append_singleton ds c ih =>
    obtain ⟨m, rfl⟩ : ∃ m, n = m + 1 := ⟨n - 1, by omega⟩
    have hc := hg c (by simp)
    rw [dirsLoop, pathSplit_pathStr k ds (fun x hx => hg x (by simp [hx])) hc]
    dsimp only
    rw [if_neg hc.1, ih (fun x hx => hg x (by simp [hx])) _ (by simp at hn; omega)]
    simp

theorem length_le_pathStr (k : ℕ) {cs : List Str} (hg : ∀ c ∈ cs, GoodComp c) : cs.length ≤ (pathStr k cs).length := by
  rw [pathStr, List.length_append]
  suffices cs.length ≤ (join '/' cs).length by omega
  induction cs with
  | nil => simp
  | cons c cs ih =>
    have := hg c (by simp)
    have h1 : 0 < c.length := List.length_pos_of_ne_nil this.1
    cases cs with
    | nil => exact h1
    | cons d cs =>
      rw [join_cons (by simp), List.length_append, List.length_cons]
      have := ih fun x hx => hg x (by simp [hx])
      simp only [List.length_cons] at this ⊢
      omega

theorem splitSub_none {sep : Str} (s acc : Str) (h : ¬ sep <:+: s) : splitSub sep acc s = [acc.reverse ++ s] := by
  induction s generalizing acc with
  | nil => simp [splitSub]
  | cons c cs ih =>
    rw [splitSub, if_neg, ih]
    · simp
    · exact fun h' => h (h'.trans (List.suffix_cons c cs).isInfix)
    · rw [List.isPrefixOf_iff_prefix]
      exact fun h' => h h'.isInfix

theorem splitSub_length {sep : Str} (hne : sep ≠ []) (s acc : Str) (h : sep <:+: s) : 2 ≤ (splitSub sep acc s).length := by
  induction s generalizing acc with
  | nil =>
    have := List.infix_nil.mp h
    exact absurd this hne
  | cons c cs ih =>
    rw [splitSub]
    split_ifs with hp
    · rw [List.length_cons]
      have : splitSub sep [] (cs.drop (sep.length - 1)) ≠ [] := by
        generalize cs.drop (sep.length - 1) = t
        cases t with
        | nil => simp [splitSub]
        | cons d t =>
          have : ∀ (t acc : Str), splitSub sep acc t ≠ [] := by
            intro t
            induction t with
            | nil => intro acc; simp [splitSub]
            | cons d t iht =>
              intro acc
              rw [splitSub]
              split_ifs
              · simp
              · exact iht _
          exact this _ _
      have := List.length_pos_of_ne_nil this
      omega
    · apply ih
      rw [List.infix_cons_iff] at h
      rcases h with h | h
      · exact absurd (List.isPrefixOf_iff_prefix.mpr h) hp
      · exact h

theorem splitSub_self {sep : Str} (hne : sep ≠ []) (s : Str) : splitSub sep [] (sep ++ s) = [] :: splitSub sep [] s := by
  cases sep with
  | nil => exact absurd rfl hne
  | cons c cs =>
    rw [List.cons_append, splitSub, if_pos]
    · simp
    · rw [List.isPrefixOf_iff_prefix]
      simp

end Files

/-- **C95 (listed).** `get_all_dirs` gives the components of a path, whether or not it is absolute. -/
theorem C95_get_all_dirs (k : ℕ) (hk : k ≤ 2) (cs : List Str) (hg : ∀ c ∈ cs, GoodComp c) (hne : k ≠ 0 ∨ cs ≠ []) :
    getAllDirs (pathStr k cs) none = .ok (some cs) := by
  rw [getAllDirs, normpath_pathStr hk hg hne, dirsLoop_pathStr k hg]
  · simp
  · have := length_le_pathStr k hg
    omega

example : getAllDirs "/tmp/asdf/fred".toList none = .ok (some ["tmp".toList, "asdf".toList, "fred".toList]) :=
  C95_get_all_dirs 1 (by decide) ["tmp".toList, "asdf".toList, "fred".toList] (by decide) (by decide)

/-- **C95 (below a base).** Below a base directory `get_all_dirs` gives the components after it, but raises ValueError exactly if the text
of the base occurs once more, even as a part of a name. -/
theorem C95_get_all_dirs_base (base post : List Str) (hb : ∀ c ∈ base, GoodComp c) (hp : ∀ c ∈ post, GoodComp c)
    (hbn : base ≠ []) (hpn : post ≠ []) :
    getAllDirs (pathStr 1 (base ++ post)) (some (pathStr 1 base)) =
      if pathStr 1 base <:+: pathStr 1 post then .error .valueError else .ok (some post) := by
  have e : pathStr 1 (base ++ post) = pathStr 1 base ++ pathStr 1 post := by
    rw [pathStr, join_append hbn hpn]
    simp [pathStr]
  have hn : pathStr 1 base ≠ [] := pathStr_ne_nil hb (.inl one_ne_zero)
  rw [getAllDirs, if_neg hn, if_pos (by rw [e]; exact (List.prefix_append _ _).isInfix),
    normpath_pathStr (by decide) hb (.inl one_ne_zero), e, splitSub_self hn]
  split_ifs with h
  · have := splitSub_length hn _ [] h
    match hs : splitSub (pathStr 1 base) [] (pathStr 1 post), this with
    | _ :: _ :: _, _ => rfl
  · rw [splitSub_none _ _ h]
    simp only [List.reverse_nil, List.nil_append]
    rw [normpath_pathStr (by decide) hp (.inl one_ne_zero), dirsLoop_pathStr 1 hp]
    · simp
    · have := length_le_pathStr 1 hp
      omega

example : getAllDirs "/tmp/asdf/fred".toList (some "/tmp".toList) = .ok (some ["asdf".toList, "fred".toList]) ∧
    getAllDirs "/tmp/a/tmpfile".toList (some "/tmp".toList) = .error .valueError :=
  ⟨(C95_get_all_dirs_base ["tmp".toList] ["asdf".toList, "fred".toList] (by decide) (by decide) (by decide) (by decide)).trans
      (if_neg (by decide)),
    (C95_get_all_dirs_base ["tmp".toList] ["a".toList, "tmpfile".toList] (by decide) (by decide) (by decide) (by decide)).trans
      (if_pos (by decide))⟩

/-- **C95 (the base itself).** For the base directory itself the answer is not the empty list but `['.']`; a name that only contains the
base counts as the base. -/
theorem C95_get_all_dirs_self (base : List Str) (hb : ∀ c ∈ base, GoodComp c) (hbn : base ≠ []) :
    getAllDirs (pathStr 1 base) (some (pathStr 1 base)) = .ok (some [['.']]) ∧
    getAllDirs "/mytmp/b".toList (some "tmp".toList) = .ok (some ["b".toList]) := by
  have hn : pathStr 1 base ≠ [] := pathStr_ne_nil hb (.inl one_ne_zero)
  constructor
  · rw [getAllDirs, if_neg hn, if_pos List.infix_rfl, normpath_pathStr (by decide) hb (.inl one_ne_zero)]
    have := splitSub_self hn []
    rw [List.append_nil] at this
    rw [this]
    simp only [splitSub, List.reverse_nil]
    decide
  · decide +kernel

/-- **C95 (subdirectories).** `get_all_subdirs` gives the names listed that are directories, in the order listed. -/
theorem C95_get_all_subdirs (w : Disk) (k : ℕ) (cs : List Str) (hg : ∀ c ∈ cs, GoodComp c) (ls : List Str) (hl : ∀ f ∈ ls, GoodComp f) :
    (getAllSubdirs w (pathStr k cs) ls).Sublist ls ∧
    ∀ f, f ∈ getAllSubdirs w (pathStr k cs) ls ↔ f ∈ ls ∧ w.node (pathStr k (cs ++ [f])) = some .dir := by
  refine ⟨List.filter_sublist, ?_⟩
  intro f
  rw [getAllSubdirs, List.mem_filter]
  constructor
  · rintro ⟨h1, h2⟩
    refine ⟨h1, ?_⟩
    have e := pathJoin2_pathStr k (ds := [f]) hg (by simpa using hl f h1) (by simp)
    rw [← e]
    exact of_decide_eq_true h2
  · rintro ⟨h1, h2⟩
    refine ⟨h1, ?_⟩
    have e := pathJoin2_pathStr k (ds := [f]) hg (by simpa using hl f h1) (by simp)
    rw [← e] at h2
    exact decide_eq_true h2

end Verif
