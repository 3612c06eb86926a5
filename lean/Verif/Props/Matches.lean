import Verif.Model.Matches
import Verif.Props.Format

/-!
# C107: selection of structures by the values of their parameters
-/

namespace Verif

open Str Structures Format Matches

namespace Matches

variable (eq : CVal → CVal → Bool)

/-- The object has the key, and its value or the string form of it is among the options. -/
def Accepts (i : Inst) (k : Str) (o : Opts) : Prop :=
  ∃ v s, i.attrs k = some v ∧ stringify (getParameter i.fields k) v = .ok s ∧ ∃ a ∈ o.list, same eq v a = true ∨ a = .str s

/-- If the object has the key, the string form of its value is not among the options. -/
def Avoids (i : Inst) (k : Str) (o : Opts) : Prop :=
  ∀ v, i.attrs k = some v → ∃ s, stringify (getParameter i.fields k) v = .ok s ∧ .str s ∉ o.list

theorem same_str {s : Str} {a : AVal} : same eq (.str s) a = true ↔ a = .str s := by
  cases a with
  | none => simp [same]
  | str t =>
    simp only [same, decide_eq_true_eq, AVal.str.injEq]
    exact eq_comm
  | val v => simp [same]

theorem any_str {s : Str} {l : List AVal} : l.any (same eq (.str s)) = true ↔ .str s ∈ l := by
  rw [List.any_eq_true]
  constructor
  · rintro ⟨a, ha, h⟩
    rwa [(same_str eq).1 h] at ha
  · exact fun h => ⟨_, h, (same_str eq).2 rfl⟩

theorem assertAll_true (i : Inst) (l : List (Str × Opts)) : assertAll eq i l = .ok true ↔ ∀ ko ∈ l, Accepts eq i ko.1 ko.2 := by
  induction l with
  | nil => simp [assertAll]
  | cons ko l ih =>
    obtain ⟨k, o⟩ := ko
    rw [List.forall_mem_cons, ← ih]
    rw [assertAll, Accepts]
    cases hk : i.attrs k with
    | none => simp
    | some v =>
      cases hs : stringify (getParameter i.fields k) v with
      | error e =>
        dsimp only
        rw [hs, error_bind]
        refine ⟨fun h => (by cases h), ?_⟩
        rintro ⟨⟨v', s, hv, hs', -⟩, -⟩
        obtain rfl := Option.some.inj hv
        rw [hs] at hs'
        cases hs'
      | ok s =>
        dsimp only
        rw [hs, ok_bind]
        by_cases h : (o.list.any (same eq v) || o.list.any (same eq (.str s))) = true
        · rw [if_pos h]
          refine ⟨fun hl => ⟨⟨v, s, rfl, hs, ?_⟩, hl⟩, fun hl => hl.2⟩
          rw [Bool.or_eq_true, any_str, List.any_eq_true] at h
          rcases h with ⟨a, ha, h⟩ | h
          · exact ⟨a, ha, Or.inl h⟩
          · exact ⟨_, h, Or.inr rfl⟩
        · rw [if_neg h]
          refine ⟨fun hl => (by cases hl), ?_⟩
          rintro ⟨⟨v', s', hv, hs', a, ha, hva⟩, -⟩
          obtain rfl := Option.some.inj hv
          rw [hs] at hs'
          obtain rfl := Except.ok.inj hs'
          exfalso
          apply h
          rw [Bool.or_eq_true, any_str, List.any_eq_true]
          rcases hva with hva | rfl
          · exact Or.inl ⟨a, ha, hva⟩
          · exact Or.inr ha

theorem dropAll_true (i : Inst) (l : List (Str × Opts)) : dropAll eq i l = .ok true ↔ ∀ ko ∈ l, Avoids i ko.1 ko.2 := by
  induction l with
  | nil => simp [dropAll]
  | cons ko l ih =>
    obtain ⟨k, o⟩ := ko
    rw [List.forall_mem_cons, ← ih]
    rw [dropAll, Avoids]
    cases hk : i.attrs k with
    | none => simp
    | some v =>
      cases hs : stringify (getParameter i.fields k) v with
      | error e =>
        dsimp only
        rw [hs, error_bind]
        refine ⟨fun h => (by cases h), ?_⟩
        rintro ⟨h, -⟩
        obtain ⟨s, hs', -⟩ := h v rfl
        rw [hs] at hs'
        cases hs'
      | ok s =>
        dsimp only
        rw [hs, ok_bind]
        by_cases h : o.list.any (same eq (.str s)) = true
        · rw [if_pos h]
          refine ⟨fun hl => (by cases hl), ?_⟩
          rintro ⟨h', -⟩
          obtain ⟨s', hs', hn⟩ := h' v rfl
          rw [hs] at hs'
          obtain rfl := Except.ok.inj hs'
          exact absurd ((any_str eq).1 h) hn
        · rw [if_neg h]
          refine ⟨fun hl => ⟨fun v' hv => ?_, hl⟩, fun hl => hl.2⟩
          obtain rfl := Option.some.inj hv
          exact ⟨s, hs, fun hm => h ((any_str eq).2 hm)⟩

theorem getParameter_name (fs : List Fld) (k : Str) : (getParameter fs k).1 = k := by
  unfold getParameter
  cases h : (baseAll fs).find? fun p => p.1 = k with
  | none => rfl
  | some p =>
    have := List.find?_some h
    simpa using this

/-- The string form with a keyword is never the string itself. -/
theorem form_ne (k s : Str) : formatItem (k, s.filter keepH) ≠ s := by
  intro h
  have h1 : ((formatItem (k, s.filter keepH)).filter keepH).length = (s.filter keepH).length := by rw [h]
  have hd : keepH '-' = true := by decide
  simp only [formatItem, List.filter_append, List.filter_cons, hd, if_true, List.length_append, List.length_cons, List.filter_filter,
    Bool.and_self] at h1
  change _ + ((s.filter keepH).length + 1) = _ at h1
  omega

end Matches

variable (eq : CVal → CVal → Bool)

/-- **C107 (meaning).** A structure matches exactly if for every key to be asserted it has an attribute whose value or string form is among the options, and
for no key to be dropped the string form of its attribute is among the options. -/
theorem C107_matches (i : Inst) (drop assert : List (Str × Opts)) :
    isMatch eq i drop assert = .ok true ↔ (∀ ko ∈ assert, Accepts eq i ko.1 ko.2) ∧ ∀ ko ∈ drop, Avoids i ko.1 ko.2 := by
  rw [← assertAll_true, ← dropAll_true eq]
  unfold isMatch
  cases assertAll eq i assert with
  | error e => simp
  | ok b => cases b <;> simp

/-- **C107 (more conditions match less).** Neither the order of the conditions matters nor that some are repeated; with fewer conditions more matches. -/
theorem C107_monotone (i : Inst) (drop drop' assert assert' : List (Str × Opts)) (hd : drop' ⊆ drop) (ha : assert' ⊆ assert)
    (h : isMatch eq i drop assert = .ok true) : isMatch eq i drop' assert' = .ok true := by
  rw [C107_matches] at h ⊢
  exact ⟨fun ko hk => h.1 ko (ha hk), fun ko hk => h.2 ko (hd hk)⟩

/-- **C107 (which parameter).** The parameter of a key is the first one of this name that is not transient, where those of nested structures are looked
through in their place, and a generic one with a keyword if there is none. -/
theorem C107_parameter (n k : Str) (kw : Bool) (gs fs : List Matches.Fld) :
    getParameter [] k = (k, true) ∧ getParameter (.par k kw false :: fs) k = (k, kw) ∧
    (n ≠ k → getParameter (.par n kw false :: fs) k = getParameter fs k) ∧
    getParameter (.par n kw true :: fs) k = getParameter fs k ∧ getParameter (.struct n gs :: fs) k = getParameter (gs ++ fs) k := by
  have happ : baseAll (gs ++ fs) = baseAll gs ++ baseAll fs := by
    induction gs with
    | nil => rfl
    | cons g gs ih => rw [List.cons_append, baseAll, baseAll, ih, List.append_assoc]
  refine ⟨rfl, ?_, fun h => ?_, ?_, ?_⟩
  · simp [getParameter, baseAll, Fld.base]
  · simp [getParameter, baseAll, Fld.base, h]
  · simp [getParameter, baseAll, Fld.base]
  · rw [getParameter, baseAll, Fld.base, getParameter, happ]

/-- **C107 (transient parameters).** A transient parameter is never found, so that its string form has its name even if it has no keyword: by its
string a structure is not dropped. -/
theorem C107_transient (k s : Str) (kw : Bool) (attrs : Str → Option AVal) (hne : k ≠ []) (hv : attrs k = some (.str s)) :
    isMatch eq ⟨[.par k kw true], attrs⟩ [(k, .one (.str s))] [] = .ok true := by
  have hst : stringify (getParameter [.par k kw true] k) (.str s) = .ok (formatItem (k, s.filter keepH)) := by
    rw [(C107_parameter k k kw [] []).2.2.2.1, (C107_parameter k k kw [] []).1]
    simp [stringify, text, ok_bind, hne]
  rw [C107_matches]
  refine ⟨fun ko h => (nomatch h), fun ko h => ?_⟩
  obtain rfl := List.mem_singleton.1 h
  intro v hv'
  obtain rfl : AVal.str s = v := Option.some.inj (hv.symm.trans hv')
  refine ⟨_, hst, fun hm => ?_⟩
  simp only [Opts.list, List.mem_singleton, AVal.str.injEq] at hm
  exact form_ne k s hm

/-- **C107 (string form).** The string form of a string of the characters that are kept is the string itself for a parameter without a keyword, and otherwise the
name, a hyphen and the string. -/
theorem C107_string_form (i : Inst) (k s : Str) (hk : k ≠ []) (hs : ∀ c ∈ s, keepH c = true) :
    stringify (getParameter i.fields k) (.str s) = .ok (if (getParameter i.fields k).2 then k ++ '-' :: s else s) := by
  have hf : s.filter keepH = s := List.filter_eq_self.2 hs
  unfold stringify text
  rw [ok_bind, getParameter_name, hf]
  cases (getParameter i.fields k).2 with
  | false => simp
  | true => simp [hk, formatItem]

namespace Matches

/-- The full claim: to drop structures with certain values is to keep those that do not have them. -/
def Complement (i : Inst) (k : Str) (o : Opts) : Prop :=
  ∀ b, isMatch eq i [] [(k, o)] = .ok b → isMatch eq i [(k, o)] [] = .ok (!b)

end Matches

/-- **C107 (dropping, partial).** This holds if the object has a string of kept characters, the parameter has no keyword and the options are strings.  It is
false with a keyword and for other values, see `C107_drop_keyword` and `C107_drop_value`. -/
theorem C107_complement_partial (i : Inst) (k s : Str) (opts : List Str) (hk : (getParameter i.fields k).2 = false)
    (hv : i.attrs k = some (.str s)) (hs : ∀ c ∈ s, keepH c = true) : Complement eq i k (.many (opts.map .str)) := by
  have hf : s.filter keepH = s := List.filter_eq_self.2 hs
  have hst : stringify (getParameter i.fields k) (.str s) = .ok s := by
    unfold stringify text
    simp [hk, hf]
  intro b hb
  simp only [isMatch, assertAll, dropAll, hv, hst, ok_bind, Bool.or_self, if_true] at hb ⊢
  cases h : (Opts.many (opts.map .str)).list.any (same eq (.str s)) with
  | true =>
    rw [h] at hb
    simp only [if_true, ok_bind] at hb ⊢
    obtain rfl := Except.ok.inj hb
    rfl
  | false =>
    rw [h] at hb
    simp only [Bool.false_eq_true, if_false, ok_bind] at hb ⊢
    obtain rfl := Except.ok.inj hb
    rfl

/-- **C107 (dropping by a keyword).** A structure whose parameter with a keyword has a certain string is not dropped by this string, although it is
kept by asserting it: dropping looks only at the string form, which begins with the name. -/
theorem C107_drop_keyword (i : Inst) (k s : Str) (hk : (getParameter i.fields k).2 = true) (hne : k ≠ []) (hv : i.attrs k = some (.str s)) :
    isMatch eq i [(k, .one (.str s))] [] = .ok true ∧ isMatch eq i [] [(k, .one (.str s))] = .ok true := by
  have hst : stringify (getParameter i.fields k) (.str s) = .ok (formatItem (k, s.filter keepH)) := by
    unfold stringify text
    rw [ok_bind, getParameter_name, hk]
    simp [hne]
  constructor
  · rw [C107_matches]
    refine ⟨fun ko h => (nomatch h), fun ko h => ?_⟩
    obtain rfl := List.mem_singleton.1 h
    intro v hv'
    obtain rfl : AVal.str s = v := Option.some.inj (hv.symm.trans hv')
    refine ⟨_, hst, fun hm => ?_⟩
    simp only [Opts.list, List.mem_singleton, AVal.str.injEq] at hm
    exact form_ne k s hm
  · rw [C107_matches]
    refine ⟨fun ko h => ?_, fun ko h => (nomatch h)⟩
    obtain rfl := List.mem_singleton.1 h
    exact ⟨_, _, hv, hst, _, List.mem_singleton.2 rfl, Or.inl ((same_str eq).2 rfl)⟩

/-- **C107 (dropping by a value).** A structure whose parameter has a value that is not a string is never dropped by this value. -/
theorem C107_drop_value (i : Inst) (k t : Str) (c : CVal) (hc : cleanString c = .ok t) (he : eq c c = true) (hv : i.attrs k = some (.val c)) :
    isMatch eq i [(k, .one (.val c))] [] = .ok true ∧ isMatch eq i [] [(k, .one (.val c))] = .ok true := by
  obtain ⟨s, hst⟩ : ∃ s, stringify (getParameter i.fields k) (.val c) = .ok s := by
    unfold stringify
    rw [text, hc]
    exact ⟨_, rfl⟩
  constructor
  · rw [C107_matches]
    refine ⟨fun ko h => (nomatch h), fun ko h => ?_⟩
    obtain rfl := List.mem_singleton.1 h
    intro v hv'
    obtain rfl : AVal.val c = v := Option.some.inj (hv.symm.trans hv')
    refine ⟨_, hst, fun hm => ?_⟩
    simp [Opts.list] at hm
  · rw [C107_matches]
    refine ⟨fun ko h => ?_, fun ko h => (nomatch h)⟩
    obtain rfl := List.mem_singleton.1 h
    exact ⟨_, _, hv, hst, _, List.mem_singleton.2 rfl, Or.inl he⟩

/-- **C107 (`None`).** Asserting `None` matches nothing, not even a structure whose value is `None`; in a list it does. -/
theorem C107_none (i : Inst) (k : Str) (hv : i.attrs k = some .none) :
    isMatch eq i [] [(k, .one .none)] = .ok false ∧ isMatch eq i [] [(k, .many [.none])] = .ok true := by
  obtain ⟨s, hst⟩ : ∃ s, stringify (getParameter i.fields k) .none = .ok s := ⟨_, rfl⟩
  constructor
  · simp [isMatch, assertAll, hv, hst, Opts.list]
  · simp [isMatch, assertAll, dropAll, hv, hst, Opts.list, same]

/-- **C107 (the string of `None`).** The value `None` has the string form `None`, after the name if the parameter has a keyword: a structure with this value
matches the assertion of that string, and is dropped by it. -/
theorem C107_none_string (i : Inst) (k : Str) (hk : k ≠ []) (hv : i.attrs k = some .none) (s : Str)
    (hs : s = if (getParameter i.fields k).2 then k ++ "-None".toList else "None".toList) :
    isMatch eq i [] [(k, .one (.str s))] = .ok true ∧ isMatch eq i [(k, .one (.str s))] [] = .ok false := by
  have hst : stringify (getParameter i.fields k) .none = .ok s := by
    have hf : ("None".toList).filter keepH = "None".toList := by decide
    unfold stringify text
    rw [ok_bind, getParameter_name, hf, hs]
    cases (getParameter i.fields k).2 with
    | false => simp
    | true =>
      rw [if_pos ⟨rfl, hk⟩, if_pos rfl]
      rfl
  constructor
  · simp [isMatch, assertAll, dropAll, hv, hst, Opts.list, same]
  · simp [isMatch, assertAll, dropAll, hv, hst, Opts.list, same]

namespace Matches

/-- The class and the object of test_datasets.py:25-46. -/
def simplest : Inst :=
  ⟨[.par "base".toList false false, .par "myParam".toList true false],
    fun k => if k = "base".toList then some (.str "a".toList) else if k = "myParam".toList then some (.str "b".toList) else none⟩

/-- Dropping works for `base` and does nothing for `myParam`. -/
example : isMatch (fun _ _ => true) simplest [("base".toList, .one (.str "a".toList))] [] = .ok false ∧
    isMatch (fun _ _ => true) simplest [("myParam".toList, .one (.str "b".toList))] [] = .ok true ∧
    isMatch (fun _ _ => true) simplest [("myParam".toList, .one (.str "myParam-b".toList))] [] = .ok false := by
  refine ⟨?_, (C107_drop_keyword _ simplest _ _ rfl (by decide) rfl).1, ?_⟩
  · have := C107_complement_partial (fun _ _ => true) simplest "base".toList "a".toList ["a".toList] rfl rfl (by decide)
    exact this true rfl
  · rfl

/-- A number is asserted and cannot be dropped. -/
example : isMatch (fun _ _ => true) ⟨[.struct "s".toList [.par "n".toList false false]], fun _ => some (.val (.scalar "3".toList))⟩
    [("n".toList, .one (.val (.scalar "3".toList)))] [] = .ok true :=
  (C107_drop_value _ _ _ _ _ rfl rfl rfl).1

example : isMatch (fun _ _ => true) ⟨[], fun _ => some .none⟩ [] [("n".toList, .one .none)] = .ok false := (C107_none _ _ _ rfl).1

end Matches

end Verif
