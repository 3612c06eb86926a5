import Verif.Model.Matching
import Verif.Props.ZipFiles
import Verif.Props.Items

/-!
# C97: matching files and parameters
-/

namespace Verif

open Str Params Items Files Matching

section Sets

variable {C : Type} [DecidableEq C]

/-- **C97 (sets).** `match_sets` gives −1 if an element is missing, and otherwise the number of elements that are not required. -/
theorem C97_match_sets (required potential : List C) :
    matchSets required potential =
      if required.toFinset ⊆ potential.toFinset then ((potential.toFinset \ required.toFinset).card : ℤ) else -1 := by
  have e : (required.all (· ∈ potential)) = true ↔ required.toFinset ⊆ potential.toFinset := by
    simp [Finset.subset_iff]
  rw [matchSets]
  by_cases h : required.toFinset ⊆ potential.toFinset
  · rw [if_pos (e.mpr h), if_pos h, Finset.card_sdiff_of_subset h, ← List.card_toFinset, ← List.card_toFinset,
      Nat.cast_sub (Finset.card_le_card h)]
  · rw [if_neg (fun h' => h (e.mp h')), if_neg h]

example : matchSets [1, 2] [2, 1, 3, 4, 3] = 2 ∧ matchSets [1, 2] [1, 3] = -1 := by decide

end Sets

section Best

variable {F C : Type} [DecidableEq C] (pyFloat : Str → Option F) (canon : Item F → C)

/-- **C97 (items).** `match_items` of two strings of items joined by hyphens gives −1 if a required item is missing, and otherwise the number of the
others. -/
theorem C97_match_items (required potential : List Str) (hr : required ≠ []) (hp : potential ≠ []) (hr' : ∀ p ∈ required, '-' ∉ p)
    (hp' : ∀ p ∈ potential, '-' ∉ p) (R P : Finset C) (hR : R = (required.map fun p => canon (toItem pyFloat p)).toFinset)
    (hP : P = (potential.map fun p => canon (toItem pyFloat p)).toFinset) :
    matchItems pyFloat canon (join '-' required) (join '-' potential) = if R ⊆ P then ((P \ R).card : ℤ) else -1 := by
  have e : ∀ l : List Str, l ≠ [] → (∀ p ∈ l, '-' ∉ p) → itemSet pyFloat canon (join '-' l) = l.map fun p => canon (toItem pyFloat p) := by
    intro l h h'
    rw [itemSet, splitItems, split_join h h', List.map_map]
    rfl
  rw [matchItems, C97_match_sets, e _ hr hr', e _ hp hp', hR, hP]

/-- Required are `a` and `b`; there are also `c` and `d`. -/
example : matchItems (fun _ => (none : Option ℕ)) (fun i : Item ℕ => i) "b-a".toList "a-c-b-d-a".toList = 2 ∧
    matchItems (fun _ => (none : Option ℕ)) (fun i : Item ℕ => i) "a-c-b-d-a".toList "b-a".toList = -1 := by
  decide +kernel

/-- The features in the name of a file. -/
def Matching.features (o : Str) : Finset C := ((splitItems pyFloat (splitExt o).1).map canon).toFinset

/-- A file that has the feature and others, fewer than `bound`. -/
def Matching.Candidate (f : C) (bound : ℕ) (o : Str) : Prop :=
  f ∈ features pyFloat canon o ∧ 2 ≤ (features pyFloat canon o).card ∧ (features pyFloat canon o).card ≤ bound

omit [DecidableEq C] in
theorem Matching.cast_lt_helper {a b : ℕ} (h : 0 < a) : ((a : ℤ) - 1 < b) ↔ a ≤ b := by omega

theorem Matching.match_single (f : C) (o : Str) :
    matchSets [f] (itemSet pyFloat canon (splitExt o).1) =
      if f ∈ features pyFloat canon o then ((features pyFloat canon o).card : ℤ) - 1 else -1 := by
  rw [C97_match_sets]
  have e : (itemSet pyFloat canon (splitExt o).1).toFinset = features pyFloat canon o := rfl
  rw [e]
  by_cases h : f ∈ features pyFloat canon o
  · rw [if_pos (by simpa using h), if_pos h, Finset.card_sdiff_of_subset (by simpa using h)]
    have : 0 < (features pyFloat canon o).card := Finset.card_pos.mpr ⟨f, h⟩
    simp only [List.toFinset_cons, List.toFinset_nil, insert_empty_eq, Finset.card_singleton]
    omega
  · rw [if_neg (by simpa using h), if_neg h]

/-- The loop finds the first candidate with the fewest features. -/
theorem Matching.bestLoop_spec (f : C) (opts : List Str) (bound : ℕ) (best : Str) :
    ((∀ o ∈ opts, ¬ Candidate pyFloat canon f bound o) ∧ bestLoop pyFloat canon [f] opts bound best = best) ∨
    ∃ l o r, opts = l ++ o :: r ∧ bestLoop pyFloat canon [f] opts bound best = o ∧ Candidate pyFloat canon f bound o ∧
      (∀ o' ∈ l, Candidate pyFloat canon f bound o' → (features pyFloat canon o).card < (features pyFloat canon o').card) ∧
      ∀ o' ∈ r, Candidate pyFloat canon f bound o' → (features pyFloat canon o).card ≤ (features pyFloat canon o').card := by
  induction opts generalizing bound best with
  | nil => exact .inl ⟨by simp, rfl⟩
  | cons o os ih =>
    have hiff : (matchSets [f] (itemSet pyFloat canon (splitExt o).1) > 0 ∧
        matchSets [f] (itemSet pyFloat canon (splitExt o).1) < (bound : ℤ)) ↔ Candidate pyFloat canon f bound o := by
      rw [match_single, Candidate]
      by_cases h : f ∈ features pyFloat canon o
      · rw [if_pos h]
        simp only [h, true_and]
        omega
      · rw [if_neg h]
        simp [h]
    by_cases hc : Candidate pyFloat canon f bound o
    · have hstep : bestLoop pyFloat canon [f] (o :: os) bound best =
          bestLoop pyFloat canon [f] os (((features pyFloat canon o).card - 1 : ℕ) : ℤ) o := by
        rw [bestLoop]
        rw [if_pos (hiff.mpr hc), match_single, if_pos hc.1]
        congr 1
        have := hc.2.1
        omega
      right
      rw [hstep]
      rcases ih ((features pyFloat canon o).card - 1) o with ⟨h1, h2⟩ | ⟨l, o', r, h1, h2, h3, h4, h5⟩
      · refine ⟨[], o, os, rfl, h2, hc, by simp, ?_⟩
        intro o' ho' hc'
        by_contra hlt
        push Not at hlt
        exact h1 o' ho' ⟨hc'.1, hc'.2.1, by omega⟩
      · have hlt : (features pyFloat canon o').card < (features pyFloat canon o).card := by
          have := h3.2.2
          have := hc.2.1
          omega
        refine ⟨o :: l, o', r, by rw [h1]; rfl, h2, ⟨h3.1, h3.2.1, by have := hc.2.2; omega⟩, ?_, ?_⟩
        · intro q hq hcq
          rcases List.mem_cons.mp hq with rfl | hq
          · exact hlt
          · by_cases hb : (features pyFloat canon q).card ≤ (features pyFloat canon o).card - 1
            · exact h4 q hq ⟨hcq.1, hcq.2.1, hb⟩
            · omega
        · intro q hq hcq
          by_cases hb : (features pyFloat canon q).card ≤ (features pyFloat canon o).card - 1
          · exact h5 q hq ⟨hcq.1, hcq.2.1, hb⟩
          · omega
    · have hstep : bestLoop pyFloat canon [f] (o :: os) bound best = bestLoop pyFloat canon [f] os bound best := by
        rw [bestLoop]
        rw [if_neg (fun h => hc (hiff.mp h))]
      rw [hstep]
      rcases ih bound best with ⟨h1, h2⟩ | ⟨l, o', r, h1, h2, h3, h4, h5⟩
      · left
        refine ⟨?_, h2⟩
        intro q hq
        rcases List.mem_cons.mp hq with rfl | hq
        · exact hc
        · exact h1 q hq
      · right
        refine ⟨o :: l, o', r, by rw [h1]; rfl, h2, h3, ?_, h5⟩
        intro q hq hcq
        rcases List.mem_cons.mp hq with rfl | hq
        · exact absurd hcq hc
        · exact h4 q hq hcq

/-- What `remove_modifiers` and `join_items` leave of the name of a feature: what is before the first underscore, without other
characters. -/
def Matching.stem (s : Str) : Str := LogData.clean (s.takeWhile (· ≠ '_'))

theorem Matching.best_name (s : Str) : joinItems true (.items (removeModifiers [s] none)) = stem s := by
  have h1 : (splitModifiers s none).1 = s.takeWhile (· ≠ '_') := by
    rw [splitModifiers]
    have : ∃ ps, split '_' s = s.takeWhile (· ≠ '_') :: ps := by
      induction s with
      | nil => exact ⟨[], rfl⟩
      | cons c s ih =>
        obtain ⟨ps, hps⟩ := ih
        by_cases hc : c = '_'
        · subst hc
          rw [split_cons_self]
          exact ⟨_, rfl⟩
        · rw [split, if_neg hc, hps]
          exact ⟨ps, by simp [hc]⟩
    obtain ⟨ps, hps⟩ := this
    rw [hps]
  simp only [removeModifiers, List.foldl_cons, List.foldl_nil, List.not_mem_nil, if_false, List.nil_append, h1]
  simp [joinItems, stem, Structures.sortStr, join]

theorem Matching.itemSet_stem (s : Str) : itemSet pyFloat canon (stem s) = [canon (toItem pyFloat (stem s))] := by
  rw [itemSet, splitItems, stem, split_of_not_mem (dash_not_clean _)]
  rfl

/-- **C97 (best file).** If there is no file of the feature's own, zipped or not, `get_best_file_match` gives among the text files listed
that have the feature and others, at most ten times as many as the feature has characters, the first with the fewest; if there is
none, the file of the feature's own.  Nothing is written.  Missing for the full claim: several features, for which it raises, see below. -/
theorem C97_best_file_match_partial (w : Disk) (base : Str) (ls : List Str) (s : Str)
    (hmiss : fileExists 0 w (pathJoin2 base (stem s ++ ".txt".toList)) false true true = some (.nothing, w)) :
    ∃ res, getBestFileMatch pyFloat canon w base ls (.inl s) = .ok (some res) ∧
      (((∀ o ∈ getAllTextFiles ls true, ¬ Candidate pyFloat canon (canon (toItem pyFloat (stem s))) (s.length * 10) o) ∧
          res = stem s ++ ".txt".toList) ∨
        ∃ l r, getAllTextFiles ls true = l ++ res :: r ∧
          Candidate pyFloat canon (canon (toItem pyFloat (stem s))) (s.length * 10) res ∧
          (∀ o ∈ l, Candidate pyFloat canon (canon (toItem pyFloat (stem s))) (s.length * 10) o →
            (features pyFloat canon res).card < (features pyFloat canon o).card) ∧
          ∀ o ∈ r, Candidate pyFloat canon (canon (toItem pyFloat (stem s))) (s.length * 10) o →
            (features pyFloat canon res).card ≤ (features pyFloat canon o).card) := by
  rw [getBestFileMatch]
  dsimp only
  rw [best_name, hmiss]
  dsimp only
  rw [if_neg (by simp [Found.truthy])]
  by_cases ho : getAllTextFiles ls true = []
  · rw [if_pos ho]
    exact ⟨_, rfl, .inl ⟨by rw [ho]; simp, rfl⟩⟩
  · rw [if_neg ho, itemSet_stem]
    refine ⟨_, rfl, ?_⟩
    have := bestLoop_spec pyFloat canon (canon (toItem pyFloat (stem s))) (getAllTextFiles ls true) (s.length * 10)
      (stem s ++ ".txt".toList)
    rw [Nat.cast_mul, Nat.cast_ofNat] at this
    rcases this with h | ⟨l, o, r, h1, h2, h3, h4, h5⟩
    · exact .inl h
    · right
      rw [h2]
      exact ⟨l, r, h1, h3, h4, h5⟩

/-- **C97 (own file).** If there is a file of the feature's own, `get_best_file_match` gives its name. -/
theorem C97_best_file_own (w : Disk) (base : Str) (ls : List Str) (s : Str) (hb : base ≠ []) (hb' : base.getLast? ≠ some '/')
    (h : w.node (pathJoin2 base (stem s ++ ".txt".toList)) ≠ none) :
    getBestFileMatch pyFloat canon w base ls (.inl s) = .ok (some (stem s ++ ".txt".toList)) := by
  have hslash : '/' ∉ stem s ++ ".txt".toList := by
    rw [List.mem_append, not_or]
    refine ⟨?_, by decide⟩
    intro hm
    have := (List.mem_filter.mp hm).2
    revert this
    decide
  have hj : pathJoin2 base (stem s ++ ".txt".toList) = base ++ '/' :: (stem s ++ ".txt".toList) := by
    rw [pathJoin2, if_neg, if_neg]
    · rintro (h | h)
      · exact hb h
      · exact hb' h
    · intro hh
      exact hslash (List.mem_of_mem_head? hh)
  rw [hj] at h
  rw [getBestFileMatch]
  dsimp only
  rw [best_name, hj, fileExists, if_neg (by simp), if_pos ((exists_iff _ _).mpr h)]
  dsimp only
  rw [if_pos (by simp [Found.truthy]), Logs.pathSplit_file hb hb' hslash]

/-- **C97 (several features).** For a list of features, which the documentation asks for, `get_best_file_match` raises. -/
theorem C97_best_file_list (w : Disk) (base : Str) (ls : List Str) (l : List Str) :
    getBestFileMatch pyFloat canon w base ls (.inr l) = .error .attributeError := rfl

end Best

section Ext

theorem Files.splitext_dot {q e : Str} (h : Named q) (he : '/' ∉ e) (hd : '.' ∉ e) :
    splitext (q ++ '.' :: e) = (q, '.' :: e) := by
  have e1 : afterLast '/' (q ++ '.' :: e) = afterLast '/' q ++ '.' :: e := by
    rw [afterLast, afterLast, List.reverse_append, List.takeWhile_append_of_pos]
    · simp
    · intro x hx
      simp only [List.mem_reverse, List.mem_cons] at hx
      simp only [ne_eq, decide_eq_true_eq]
      rintro rfl
      rcases hx with hx | hx
      · exact absurd hx (by decide)
      · exact he hx
  have e2 : afterLast '.' (afterLast '/' q ++ '.' :: e) = e := Structures.afterLast_append (c := '.') _ hd
  have e3 : extension (q ++ '.' :: e) = '.' :: e := by
    rw [extension, e1, e2, if_pos]
    constructor
    · simp
    · have : (afterLast '/' q ++ '.' :: e).length - e.length - 1 = (afterLast '/' q).length := by
        rw [List.length_append, List.length_cons]
        omega
      rw [this, List.take_left, List.any_eq_true]
      obtain ⟨c, hc, hd⟩ := h
      exact ⟨c, hc, by simpa using hd⟩
  rw [splitext, e3]
  simp

theorem Files.named_append {q : Str} (h : Named q) {e : Str} (he : '/' ∉ e) : Named (q ++ e) := by
  obtain ⟨c, hc, hd⟩ := h
  refine ⟨c, ?_, hd⟩
  have : afterLast '/' (q ++ e) = afterLast '/' q ++ e := by
    rw [afterLast, afterLast, List.reverse_append, List.takeWhile_append_of_pos]
    · simp
    · intro x hx
      simp only [ne_eq, decide_eq_true_eq]
      rintro rfl
      exact he (by simpa using hx)
  rw [this]
  exact List.mem_append_left _ hc

theorem Files.splitext_append (p : Str) : (splitext p).1 ++ (splitext p).2 = p := by
  have hs : extension p <:+ p := by
    rw [extension]
    split_ifs with hc
    · obtain ⟨a, b, hab, hb⟩ := exists_last_part hc.1
      rw [hab, Structures.afterLast_append a hb]
      have haf : afterLast '/' p <:+ p := by
        rw [afterLast]
        have := List.takeWhile_prefix (fun x => decide (x ≠ '/')) (l := p.reverse)
        rw [← List.reverse_suffix, List.reverse_reverse] at this
        exact this
      rw [hab] at haf
      exact (List.suffix_append a _).trans haf
    · exact List.nil_suffix
  rw [splitext]
  generalize extension p = e at *
  obtain ⟨t, rfl⟩ := hs
  simp

/-- **C97 (extensions).** `split_ext` divides the name; before `.gz` it takes off another extension together with it. -/
theorem C97_split_ext (p : Str) :
    (splitExt p).1 ++ (splitExt p).2 = p ∧
    ∀ q e : Str, Named q → '/' ∉ e → '.' ∉ e → e ≠ "gz".toList →
      splitExt (q ++ '.' :: e) = (q, '.' :: e) ∧ splitExt (q ++ '.' :: e ++ ".gz".toList) = (q, '.' :: e ++ ".gz".toList) := by
  constructor
  · have h1 := splitext_append p
    have h2 := splitext_append (splitext p).1
    rw [splitExt]
    dsimp only
    split_ifs with h
    · dsimp only
      rw [← List.append_assoc, h2, ← h]
      exact h1
    · exact h1
  · intro q e hq he hd hg
    have hn : Named (q ++ '.' :: e) := named_append hq (by
      rw [List.mem_cons, not_or]
      exact ⟨by decide, he⟩)
    constructor
    · rw [splitExt, splitext_dot hq he hd]
      dsimp only
      rw [if_neg]
      intro h
      have : ".gz".toList = '.' :: "gz".toList := by decide
      rw [this] at h
      injection h with _ h
      exact hg h
    · rw [splitExt, splitext_gz hn]
      dsimp only
      rw [if_pos rfl, splitext_dot hq he hd]

example : splitExt "tmp.txt".toList = ("tmp".toList, ".txt".toList) ∧
    splitExt "tmp.txt.gz".toList = ("tmp".toList, ".txt.gz".toList) := by decide +kernel

/-- **C97 (text files).** `get_all_text_files` gives in the order listed names whose extension has `txt` in it, zipped ones included; no
other name is given, and with `keep_extension=False` what is left of them. -/
theorem C97_text_files (ls : List Str) :
    (getAllTextFiles ls true).Sublist ls ∧
    (∀ f, f ∈ getAllTextFiles ls true ↔ f ∈ ls ∧ "txt".toList <:+: (splitExt f).2) ∧
    getAllTextFiles ls false = (getAllTextFiles ls true).map fun f => (splitExt f).1 := by
  have e : getAllTextFiles ls true = ls.filter fun f => decide ("txt".toList <:+: (splitExt f).2) := by
    rw [getAllTextFiles]
    simp
  rw [e]
  refine ⟨List.filter_sublist, fun f => ?_, ?_⟩
  · rw [List.mem_filter, decide_eq_true_eq]
  · rw [getAllTextFiles]
    simp

example : getAllTextFiles ["a.txt".toList, "b.txt.gz".toList, "c.gz".toList, "txt".toList, "d.txt_old".toList] false =
    ["a".toList, "b".toList, "d".toList] := by decide +kernel

end Ext

section Dir

variable {F : Type} [DecidableEq F] (pyFloat : Str → Option F)

/-- **C97 (parameters of a directory).** `get_dir_params` adds to the parameters those in the name of the last directory, and gives the
directory above. -/
theorem C97_dir_params (dir name : Str) (h1 : dir ≠ []) (h2 : dir.getLast? ≠ some '/') (h3 : '/' ∉ name)
    (ps params : PyDict (Item F) (PVal F)) (hps : splitParamsU pyFloat name = .ok ps) (hk : ps.keys.Nodup) :
    ∃ d, getDirParams pyFloat (dir ++ '/' :: name) params = .ok (dir, d) ∧
      ∀ k, d.get? k = ((ps.get? k).orElse fun _ => params.get? k) := by
  refine ⟨ps.foldl (fun d kv => d.set kv.1 kv.2) params, ?_, ?_⟩
  · rw [getDirParams, Logs.pathSplit_file h1 h2 h3]
    dsimp only
    rw [hps]
    rfl
  · intro k
    clear hps
    induction ps generalizing params with
    | nil => rfl
    | cons p ps ih =>
      obtain ⟨k', v⟩ := p
      simp only [PyDict.keys_cons, List.nodup_cons] at hk
      rw [List.foldl_cons, ih _ hk.2]
      by_cases he : k' = k
      · subst he
        rw [PyDict.get?_eq_none.mpr hk.1]
        simp [PyDict.get?, PyDict.get?_set_self]
      · have hne : k ≠ k' := fun h => he h.symm
        rw [PyDict.get?_set_other _ _ hne]
        simp [PyDict.get?, he]

end Dir

section Validate

variable {K : Type} [DecidableEq K]

/-- What the documentation asks of a value. -/
def Matching.Wanted : Req → V → Prop
  | .many l, v => v ∈ l
  | .one r, v => v = r

/-- **C97 (keys).** Without `validate_values` the answer is whether all required keys are given. -/
theorem C97_validate_keys (params : Given K) (required : Required K) :
    validateParams params required false = true ↔ ∀ k ∈ required.ks, k ∈ params.ks := by
  rw [validateParams, List.all_eq_true]
  refine forall₂_congr fun k _ => ?_
  unfold validKey
  by_cases h : k ∈ params.ks <;> simp [h]

/-- **C97 (values).** With `validate_values` and required keys the answer is whether all are given, with a value other than `None`; keys
without values do not do. -/
theorem C97_validate_set (d : PyDict K V) (l l' : List K) :
    (validateParams (.dict d) (.keys l) true = true ↔ ∀ k ∈ l, ∃ v, d.get? k = some v ∧ v ≠ .none) ∧
    (l ≠ [] → validateParams (.keys l') (.keys l) true = false) := by
  constructor
  · rw [validateParams, List.all_eq_true]
    refine forall₂_congr fun k _ => ?_
    rw [validKey]
    cases hg : d.get? k with
    | none =>
      have : k ∉ (Given.dict d).ks := PyDict.get?_eq_none.mp hg
      simp [this]
    | some v =>
      have : k ∈ (Given.dict d).ks := PyDict.get?_isSome.mp ⟨v, hg⟩
      simp [this]
  · intro hne
    obtain ⟨k, l, rfl⟩ := List.exists_cons_of_ne_nil hne
    have : validKey (.keys l') (.keys (k :: l)) true k = false := by
      by_cases h : k ∈ l' <;> simp [validKey, Given.ks, h]
    rw [validateParams, Required.ks, List.all_cons, this]
    rfl

/-- **C97 (required values).** With `validate_values` and required values the answer is whether all are given with a value that is
required, or in the list that is required; but for a required string every string that is a part of it will do.  The full claim
is without this exception and false, see below. -/
theorem C97_validate_values_partial (d : PyDict K V) (r : PyDict K Req) (hr : r.keys.Nodup) :
    validateParams (.dict d) (.dict r) true = true ↔ ∀ kq ∈ r, ∃ v, d.get? kq.1 = some v ∧
      (Wanted kq.2 v ∨ ∃ s t, kq.2 = .one (.str t) ∧ v = .str s ∧ s <:+: t) := by
  have hacc : ∀ q v, Req.accepts q v = true ↔ (Wanted q v ∨ ∃ s t, q = .one (.str t) ∧ v = .str s ∧ s <:+: t) := by
    intro q v
    match q with
    | .many l => simp [Req.accepts, Wanted]
    | .one (.str t) =>
      match v with
      | .str s =>
        simp only [Req.accepts, Wanted, decide_eq_true_eq]
        constructor
        · intro h; exact .inr ⟨s, t, rfl, rfl, h⟩
        · rintro (h | ⟨s', t', h1, h2, h3⟩)
          · injection h with h
            rw [h]
          · injection h1 with h1
            injection h1 with h1
            injection h2 with h2
            rw [h1, h2]
            exact h3
      | .none => simp [Req.accepts, Wanted]
      | .num q => simp [Req.accepts, Wanted]
    | .one .none => cases v <;> simp [Req.accepts, Wanted]
    | .one (.num x) => cases v <;> simp [Req.accepts, Wanted]
  rw [validateParams, List.all_eq_true]
  constructor
  · rintro h ⟨k, q⟩ hm
    have hk : k ∈ r.keys := List.mem_map.mpr ⟨_, hm, rfl⟩
    have := h k hk
    rw [validKey] at this
    cases hg : d.get? k with
    | none =>
      have hn : k ∉ (Given.dict d).ks := PyDict.get?_eq_none.mp hg
      simp [hn] at this
    | some v =>
      have hn : k ∈ (Given.dict d).ks := PyDict.get?_isSome.mp ⟨v, hg⟩
      simp only [hn, not_true, if_false, if_true, hg, Option.getD_some, PyDict.get?_of_mem hr hm] at this
      exact ⟨v, rfl, (hacc q v).mp this⟩
  · intro h k hk
    obtain ⟨⟨k', q⟩, hm, rfl⟩ := List.mem_map.mp hk
    obtain ⟨v, hg, hv⟩ := h _ hm
    have hn : k' ∈ (Given.dict d).ks := PyDict.get?_isSome.mp ⟨v, hg⟩
    rw [validKey]
    simp only [hn, not_true, if_false, if_true, hg, Option.getD_some, PyDict.get?_of_mem hr hm]
    exact (hacc q v).mpr hv

/-- **C97 (a part of the required string).** So a parameter that is empty passes for every required string. -/
theorem C97_validate_part (k : K) (t : Str) (h : t ≠ []) :
    validateParams (.dict [(k, .str [])]) (.dict [(k, .one (.str t))]) true = true ∧ ¬ Wanted (.one (.str t)) (.str []) := by
  constructor
  · rw [C97_validate_values_partial _ _ (by simp)]
    rintro kq hm
    rw [List.mem_singleton] at hm
    subst hm
    exact ⟨.str [], by simp [PyDict.get?], .inr ⟨[], t, rfl, rfl, List.nil_infix⟩⟩
  · simp only [Wanted]
    intro e
    injection e with e
    exact h e.symm

/-- The example of the documentation. -/
example : validateParams (.dict [("a".toList, V.none), ("b".toList, .num 1), ("c".toList, .num 2)])
    (.dict [("a".toList, .many [.num 0, .none]), ("b".toList, .one (.num 1)), ("c".toList, .one (.num 2))]) true = true := by
  decide +kernel

variable {W : Type} [DecidableEq W]

/-- **C97 (settings).** If settings and candidate have all restricted keys, `check_param_matches` tells whether the candidate has the
required keys with the values of the settings, if there are any, and has for every restricted key another value. -/
theorem C97_check_param_matches (candidate settings : PyDict K W) (required restricted : List K)
    (h : ∀ p ∈ restricted, p ∈ settings.keys ∧ p ∈ candidate.keys) :
    ∃ b, checkParamMatches candidate settings required restricted = .ok b ∧
      (b = true ↔ (∀ p ∈ required, ∃ c, candidate.get? p = some c ∧ ∀ s, settings.get? p = some s → s = c) ∧
        ∀ p ∈ restricted, settings.get? p ≠ candidate.get? p) := by
  have h1 : requiredLoop candidate settings required = true ↔
      ∀ p ∈ required, ∃ c, candidate.get? p = some c ∧ ∀ s, settings.get? p = some s → s = c := by
    induction required with
    | nil => simp [requiredLoop]
    | cons p ps ih =>
      rw [requiredLoop]
      cases hc : candidate.get? p with
      | none => simp [hc]
      | some c =>
        cases hs : settings.get? p with
        | none => simp [ih, hc, hs]
        | some s =>
          by_cases he : s = c
          · simp [ih, hc, hs, he]
          · simp [hc, hs, he]
  have h2 : ∃ b, restrictedLoop candidate settings restricted = .ok b ∧
      (b = true ↔ ∀ p ∈ restricted, settings.get? p ≠ candidate.get? p) := by
    induction restricted with
    | nil => exact ⟨true, rfl, by simp⟩
    | cons p ps ih =>
      obtain ⟨b, hb, hi⟩ := ih fun q hq => h q (by simp [hq])
      obtain ⟨hps, hpc⟩ := h p (by simp)
      obtain ⟨s, hs⟩ := PyDict.get?_isSome.mpr hps
      obtain ⟨c, hc⟩ := PyDict.get?_isSome.mpr hpc
      rw [restrictedLoop, PyDict.getE_ok.mpr hs, ok_bind, PyDict.getE_ok.mpr hc, ok_bind]
      by_cases he : s = c
      · exact ⟨false, by rw [if_pos he]; rfl, by simp [hs, hc, he]⟩
      · refine ⟨b, by rw [if_neg he]; exact hb, ?_⟩
        rw [hi]
        simp [hs, hc, he]
  rw [checkParamMatches]
  by_cases hq : requiredLoop candidate settings required = true
  · obtain ⟨b, hb, hi⟩ := h2
    refine ⟨b, by rw [if_pos hq]; exact hb, ?_⟩
    rw [hi]
    exact ⟨fun h => ⟨h1.mp hq, h⟩, fun h => h.2⟩
  · refine ⟨false, by rw [if_neg hq], ?_⟩
    simp only [Bool.false_eq_true, false_iff]
    exact fun h => hq (h1.mpr h.1)

/-- **C97 (settings without the key).** A restricted key that the settings or the candidate do not have raises KeyError. -/
theorem C97_check_param_missing (candidate settings : PyDict K W) (required : List K) (p : K) (ps : List K)
    (hq : ∀ p ∈ required, ∃ c, candidate.get? p = some c ∧ settings.get? p = none)
    (h : p ∉ settings.keys ∨ p ∉ candidate.keys) :
    checkParamMatches candidate settings required (p :: ps) = .error .keyError := by
  have h1 : requiredLoop candidate settings required = true := by
    induction required with
    | nil => rfl
    | cons p ps ih =>
      obtain ⟨c, hc, hs⟩ := hq p (by simp)
      rw [requiredLoop, hc, hs]
      exact ih fun q h => hq q (by simp [h])
  rw [checkParamMatches, if_pos h1, restrictedLoop]
  by_cases hs : p ∈ settings.keys
  · obtain ⟨s, hs'⟩ := PyDict.get?_isSome.mpr hs
    have hc := PyDict.get?_eq_none.mpr (h.resolve_left (not_not.mpr hs))
    simp [PyDict.getE, hs', hc]
  · simp [PyDict.getE, PyDict.get?_eq_none.mpr hs]

end Validate

end Verif
