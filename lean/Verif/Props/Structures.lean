import Verif.Proofs.StructuresRound

/-!
# C84: directory names of parameter structures

datasets.py says that a `Structure` "can construct (and reconstruct) itself from a file string".  This holds under the conditions of
`FldsGood` and `ClassGood`; the cases outside of them that fail are below.
-/

namespace Verif

open Str Structures

/-- C84 (partial: with conditions on the fields and the values).  `get_dir_string` gives a name; reading that name below any directory
gives back each parameter with its value, those of nested structures included, no other parameters, and the directory. -/
theorem C84_dir_string_roundtrip_partial {L : Type} (lit : Str → Option L) (repr : L → Str) (fs : List Fld) (vs : List Val)
    (h : FldsGood lit none fs vs) (hc : ClassGood fs vs) (base : Str) (hb : IsPath base) :
    ∃ d, dirString fs vs = .ok d ∧ ((∀ c ∈ split '/' d, ¬ "txt".toList <:+: extension c) →
      ∃ ps, paramsFromDirString lit repr fs (pathJoin2 base d) = .ok (ps, base) ∧
        ∀ n, PyDict.get? ps n = (PyDict.get? (items fs vs) n).map fun s => .atom (.str s)) := by
  obtain ⟨k, cs, hk, hcs, rfl⟩ := hb
  have hne := comps_ne fs vs hc.2.2.1
  have hgood : ∀ c ∈ comps fs vs ++ keyComp fs vs, GoodComp c := by
    intro c hm
    rcases List.mem_append.1 hm with hm | hm
    · exact comps_good h c hm
    · exact keyComp_good h c hm
  refine ⟨_, dirString_eq h hc.1, fun hx => ?_⟩
  rw [show split '/' (pathStr 0 (comps fs vs ++ keyComp fs vs)) = comps fs vs ++ keyComp fs vs from split_good hne hgood] at hx
  obtain ⟨ps, e, -, hg⟩ := class_eq (repr := repr) h hc (parseFlds_eq none fs vs h) hk hcs (by simp) hx
  refine ⟨ps, ?_, fun n => ?_⟩
  · rw [pathJoin2_pathStr k hcs hgood hne]; exact e
  · rw [hg, get?_asPV]

/-- C84 (partial, as before).  Instances with the same directory name have the same parameters with the same values: different settings
do not share a directory. -/
theorem C84_dir_string_injective_partial {L : Type} (lit : Str → Option L) (fs : List Fld) (vs ws : List Val)
    (hv : FldsGood lit none fs vs) (hcv : ClassGood fs vs) (hw : FldsGood lit none fs ws) (hcw : ClassGood fs ws)
    (e : dirString fs vs = dirString fs ws)
    (hx : ∀ d, dirString fs vs = .ok d → ∀ c ∈ split '/' d, ¬ "txt".toList <:+: extension c) (n : Str) :
    PyDict.get? (items fs vs) n = PyDict.get? (items fs ws) n := by
  have hb : IsPath [] := ⟨0, [], by omega, by simp, rfl⟩
  obtain ⟨d, e1, h1⟩ := C84_dir_string_roundtrip_partial lit (fun _ => []) fs vs hv hcv [] hb
  obtain ⟨d', e2, h2⟩ := C84_dir_string_roundtrip_partial lit (fun _ => []) fs ws hw hcw [] hb
  have : d = d' := by rw [e1, e2] at e; exact Except.ok.inj e
  subst this
  obtain ⟨ps, p1, g1⟩ := h1 (hx d e1)
  obtain ⟨qs, p2, g2⟩ := h2 (hx d e1)
  rw [p1, Except.ok.injEq, Prod.mk.injEq] at p2
  obtain ⟨rfl, -⟩ := p2
  have g := (g1 n).symm.trans (g2 n)
  revert g
  cases PyDict.get? (items fs vs) n <;> cases PyDict.get? (items fs ws) n <;> simp

/-! ### A concrete case -/

/-- Python's literals among cleaned strings, for the examples: the three constants. -/
def litEx (s : Str) : Option Str := if s = "True".toList ∨ s = "False".toList ∨ s = "None".toList then some s else none

/-- The fields of `TestTypes` (test_structures.py:78-86), with a nested structure. -/
def exFields : List Fld :=
  [.par ⟨"RPK".toList, true, true, true, false⟩,
   .par ⟨"RPnoK".toList, true, true, false, false⟩,
   .par ⟨"RnoPK".toList, true, false, true, false⟩,
   .par ⟨"RnoPnoK".toList, true, false, false, false⟩,
   .par ⟨"noRPK".toList, false, true, true, false⟩,
   .struct ⟨"factory".toList, true, true, false, false⟩ [.par ⟨"alphabet".toList, true, false, true, false⟩],
   .par ⟨"noRnoPK".toList, false, false, true, false⟩]

def exValues : List Val :=
  [.str "overkill".toList, .str "arrogant".toList, .str "simple".toList, .str "pushy".toList, .unset,
   .obj [.str "0-1".toList], .unset]

theorem exGood : FldsGood litEx none exFields exValues := by
  refine ⟨Or.inr ⟨by decide, by simp, fun _ _ => ⟨by decide, by decide, by decide, by decide, by decide, by decide⟩⟩,
    Or.inr ⟨by decide, by simp, by simp⟩, Or.inr ⟨by decide, by simp, by simp⟩, Or.inr ⟨by decide, by simp, by simp⟩,
    Or.inr ⟨rfl, rfl, fun _ => ⟨"arrogant".toList, rfl, by decide, by decide, by decide, ?_⟩⟩,
    Or.inr ⟨rfl, rfl, ⟨Or.inr ⟨by decide, by simp, by simp⟩, trivial⟩, ?_⟩, Or.inr ⟨rfl, rfl, by simp⟩, trivial⟩
  · intro x hx
    have := congrArg List.length hx
    simp at this
  · exact ⟨by simp [npnkOf, Fld.flags, pure_eq_ok], fun _ => ⟨_, List.mem_singleton.2 rfl, _, _, rfl, rfl, rfl⟩, by simp [items, fldItems],
      by simp [items, fldItems]⟩

theorem exClass : ClassGood exFields exValues := by
  refine ⟨?_, fun _ => ⟨_, by rw [exFields, exValues, List.zip_cons_cons, List.zip_cons_cons, List.zip_cons_cons]; exact .tail _ (.tail _ (.head _)), _, _, rfl, rfl, rfl⟩, ?_, ?_⟩
  · simp [npnkOf, Fld.flags, pure_eq_ok, exFields]
  · simp [items, fldItems, exFields, exValues]
  · rw [show (items exFields exValues).map Prod.fst = ["RPK".toList, "RPnoK".toList, "RnoPK".toList, "RnoPnoK".toList, "alphabet".toList]
      by simp [items, fldItems, exFields, exValues]]
    decide

/-- The instance that meets the hypotheses of C84, read back below `/a/b`. -/
example : ∃ ps, paramsFromDirString litEx (fun s => s) exFields "/a/b/RPK-overkill/arrogant/alphabet-0-1/pushy_RnoPK-simple".toList =
      .ok (ps, "/a/b".toList) ∧
    PyDict.get? ps "RPK".toList = some (.atom (.str "overkill".toList)) ∧
    PyDict.get? ps "alphabet".toList = some (.atom (.str "0-1".toList)) ∧
    PyDict.get? ps "noRPK".toList = none := by
  have hb : IsPath "/a/b".toList := ⟨1, ["a".toList, "b".toList], by omega, by decide, by decide⟩
  obtain ⟨d, e, h⟩ := C84_dir_string_roundtrip_partial litEx (fun s => s) exFields exValues exGood exClass _ hb
  have hd : dirString exFields exValues = .ok "RPK-overkill/arrogant/alphabet-0-1/pushy_RnoPK-simple".toList := by
    rw [dirString_eq exGood exClass.1]
    have hk : keyComp exFields exValues = ["pushy_RnoPK-simple".toList] := by
      have : keyComp exFields exValues = [join '_' ("pushy".toList :: sortStr ["RnoPK-simple".toList])] := rfl
      rw [this, sortStr, List.mergeSort_singleton]
      decide
    have hk2 : keyComp [.par ⟨"alphabet".toList, true, false, true, false⟩] [.str "0-1".toList] = ["alphabet-0-1".toList] := by
      have : keyComp [.par ⟨"alphabet".toList, true, false, true, false⟩] [.str "0-1".toList] =
        [join '_' (sortStr ["alphabet-0-1".toList])] := rfl
      rw [this, sortStr, List.mergeSort_singleton]
      rfl
    rw [hk]
    have hcm : comps exFields exValues = ["RPK-overkill".toList, "arrogant".toList, "alphabet-0-1".toList] := by
      simp only [exFields, exValues, comps, fldComps, hk2]
      decide
    rw [hcm]
    decide
  rw [hd, Except.ok.injEq] at e
  subst e
  obtain ⟨ps, e, hg⟩ := h (by decide)
  refine ⟨ps, e, ?_, ?_, ?_⟩ <;> rw [hg] <;> simp [items, fldItems, exFields, exValues, PyDict.get?]

/-! ### What fails -/

/-- The fields of `PTWModel` (experiment.py:93-104): the `Struct` has a keyword, by default. -/
def ptwFields : List Fld :=
  [.struct ⟨"factory".toList, true, true, true, false⟩ [.par ⟨"alphabet".toList, true, false, true, false⟩],
   .par ⟨"minpart".toList, true, false, true, false⟩]

/-- C84 fails for a `Struct` with keyword, such as those of `PTWModel`: its name is written as a directory, and reading leaves that
directory in the base directory. -/
theorem C84_keyword_struct :
    dirString ptwFields [.obj [.str "0-1".toList], .str "2".toList] = .ok "factory/alphabet-0-1/minpart-2".toList ∧
    paramsFromDirString litEx (fun s => s) ptwFields "factory/alphabet-0-1/minpart-2".toList =
      .ok ([("minpart".toList, .atom (.str "2".toList)), ("alphabet".toList, .atom (.str "0-1".toList))], "factory".toList) := by
  constructor <;> decide +kernel

/-- The fields of `CoinEnv` (experiment.py:37-42). -/
def coinFields : List Fld :=
  [.par ⟨"probabilities".toList, true, true, true, false⟩, .par ⟨"changepoints".toList, true, true, true, false⟩]

/-- C84 fails for `CoinEnv`: the positional parameters have keywords and there is no loose parameter, so that the last directory is
taken for the loose ones, and reading raises ValueError. -/
theorem C84_positional_keywords :
    dirString coinFields [.str "half".toList, .str "ten".toList] = .ok "probabilities-half/changepoints-ten".toList ∧
    paramsFromDirString litEx (fun s => s) coinFields "probabilities-half/changepoints-ten".toList = .error .valueError := by
  constructor <;> decide +kernel

/-- A positional parameter with keyword, and a loose one. -/
def posFields (required : Bool) : List Fld :=
  [.par ⟨"foo".toList, required, true, true, false⟩, .par ⟨"bar".toList, false, false, true, false⟩]

theorem splitParamsDeep_value : splitParamsDeep litEx "foo-x_y".toList = .error .indexError := by
  have h1 : split '_' "foo-x_y".toList = ["foo-x".toList, "y".toList] := by decide
  have h2 : split '-' "foo-x".toList = ["foo".toList, "x".toList] := by decide
  rw [splitParamsDeep, h1]
  simp only []
  rw [splitParamsDeepLoop, h2]
  simp only []
  rw [splitParamsDeepLoop]
  rfl

theorem splitParamsDeep_name : splitParamsDeep litEx "a_b-x".toList = .ok [("a_b".toList, some (.atom (.str "x".toList)))] := by
  have h1 : split '_' "a_b-x".toList = ["a".toList, "b-x".toList] := by decide
  have h2 : split '-' "a".toList = ["a".toList] := by decide
  rw [splitParamsDeep, h1]
  simp only []
  rw [splitParamsDeepLoop, h2]
  simp only []
  rw [splitParamsDeepLoop]
  decide

/-- C84 fails for a positional parameter with keyword with `_` in its name (KeyError) or in its value (IndexError). -/
theorem C84_positional_underscore :
    (dirString [.par ⟨"a_b".toList, true, true, true, false⟩, .par ⟨"bar".toList, false, false, true, false⟩]
        [.str "x".toList, .str "1".toList] = .ok "a_b-x/bar-1".toList ∧
      paramsFromDirString litEx (fun s => s)
        [.par ⟨"a_b".toList, true, true, true, false⟩, .par ⟨"bar".toList, false, false, true, false⟩] "a_b-x/bar-1".toList =
        .error .keyError) ∧
    (dirString (posFields true) [.str "x_y".toList, .str "1".toList] = .ok "foo-x_y/bar-1".toList ∧
      paramsFromDirString litEx (fun s => s) (posFields true) "foo-x_y/bar-1".toList = .error .indexError) := by
  refine ⟨⟨by decide +kernel, ?_⟩, by decide +kernel, ?_⟩
  · have h1 : parseHead (L := Str) [.par ⟨"a_b".toList, true, true, true, false⟩, .par ⟨"bar".toList, false, false, true, false⟩]
        "a_b-x/bar-1".toList = .ok ⟨"a_b-x".toList, [("bar".toList, .atom (.str "1".toList))], ["bar".toList], none⟩ := by
      decide +kernel
    have h2 : positionalValue litEx (fun s => s) ⟨"a_b".toList, true, true, true, false⟩ "a_b-x".toList = .error .keyError := by
      rw [positionalValue, deString, show litEx "a_b-x".toList = none by decide, if_pos (by decide), splitParamsDeep_name]
      rfl
    have h3 : pathSplit "a_b-x".toList = ([], "a_b-x".toList) := by decide
    have h4 : parseFlds litEx (fun s => s) [.par ⟨"bar".toList, false, false, true, false⟩]
        ⟨"a_b-x".toList, [("bar".toList, .atom (.str "1".toList))], ["bar".toList], none⟩ =
        .ok ⟨"a_b-x".toList, [("bar".toList, .atom (.str "1".toList))], [], none⟩ := by decide +kernel
    rw [paramsFromDirString, h1, ok_bind, parseFlds, h4, ok_bind, parseFld, if_neg (by decide), if_pos rfl]
    simp only [h3, if_true, h2, error_bind]
  · have h1 : parseHead (L := Str) (posFields true)
        "foo-x_y/bar-1".toList = .ok ⟨"foo-x_y".toList, [("bar".toList, .atom (.str "1".toList))], ["bar".toList], none⟩ := by
      decide +kernel
    have h2 : positionalValue litEx (fun s => s) ⟨"foo".toList, true, true, true, false⟩ "foo-x_y".toList = .error .indexError := by
      rw [positionalValue, deString, show litEx "foo-x_y".toList = none by decide, if_pos (by decide), splitParamsDeep_value]
      rfl
    have h3 : pathSplit "foo-x_y".toList = ([], "foo-x_y".toList) := by decide
    have h4 : parseFlds litEx (fun s => s) [.par ⟨"bar".toList, false, false, true, false⟩]
        ⟨"foo-x_y".toList, [("bar".toList, .atom (.str "1".toList))], ["bar".toList], none⟩ =
        .ok ⟨"foo-x_y".toList, [("bar".toList, .atom (.str "1".toList))], [], none⟩ := by decide +kernel
    rw [paramsFromDirString, h1, ok_bind, posFields, parseFlds, h4, ok_bind, parseFld, if_neg (by decide), if_pos rfl]
    simp only [h3, if_true, h2, error_bind]

/-- C84 fails for a positional parameter with keyword whose value has `-` (the name comes twice) or is a literal, which is not a string
after reading. -/
theorem C84_positional_values :
    (dirString (posFields true) [.str "x-y".toList, .str "1".toList] = .ok "foo-x-y/bar-1".toList ∧
      paramsFromDirString litEx (fun s => s) (posFields true) "foo-x-y/bar-1".toList =
        .ok ([("bar".toList, .atom (.str "1".toList)), ("foo".toList, .atom (.str "foo-x-y".toList))], [])) ∧
    (dirString (posFields true) [.str "True".toList, .str "1".toList] = .ok "foo-True/bar-1".toList ∧
      paramsFromDirString litEx (fun s => s) (posFields true) "foo-True/bar-1".toList =
        .ok ([("bar".toList, .atom (.str "1".toList)), ("foo".toList, .atom (.lit "True".toList))], [])) := by
  refine ⟨⟨?_, ?_⟩, ?_, ?_⟩ <;> decide +kernel

/-- C84 fails for an optional positional parameter that is not set: with nothing before it IndexError, and with a number before it
TypeError; with its name before it, it gets the value of another field. -/
theorem C84_unset_positional :
    (dirString (posFields false) [.unset, .str "1".toList] = .ok "bar-1".toList ∧
      paramsFromDirString litEx (fun s => s) (posFields false) "bar-1".toList = .error .indexError ∧
      paramsFromDirString litEx (fun s => s) (posFields false) "2016/bar-1".toList = .error .typeError) ∧
    (paramsFromDirString litEx (fun s => s) (posFields false) "foo-x/bar-1".toList =
        .ok ([("bar".toList, .atom (.str "1".toList)), ("foo".toList, .atom (.str "x".toList))], [])) := by
  refine ⟨⟨?_, ?_, ?_⟩, ?_⟩ <;> decide +kernel

/-- The fields of `TestSimplest` (test_structures.py:5-7), with the loose parameter optional. -/
def simplestFields : List Fld :=
  [.par ⟨"base".toList, true, true, false, false⟩, .par ⟨"myParam".toList, false, false, true, false⟩,
   .par ⟨"other".toList, false, false, true, false⟩]

/-- C84 fails when no loose parameter is set although some have keywords: the last positional component is taken for them.  It fails when
the extension has `txt` in it: the last component is dropped. -/
theorem C84_last_component :
    (dirString simplestFields [.str "x".toList, .unset, .unset] = .ok "x".toList ∧
      paramsFromDirString litEx (fun s => s) simplestFields "d/x".toList =
        .ok ([("x".toList, .none), ("base".toList, .atom (.str "d".toList))], [])) ∧
    (dirString simplestFields [.str "x".toList, .str "a.txt".toList, .unset] = .ok "x/myParam-a.txt".toList ∧
      paramsFromDirString litEx (fun s => s) simplestFields "d/x/myParam-a.txt".toList =
        .ok ([("x".toList, .none), ("base".toList, .atom (.str "d".toList))], [])) := by
  refine ⟨⟨?_, ?_⟩, ?_, ?_⟩ <;> decide +kernel

/-- C84: without the conditions different settings share a directory: `_` and `-` in a value, and characters that are removed. -/
theorem C84_collision :
    dirString simplestFields [.str "x".toList, .str "1_other-2".toList, .unset] =
      dirString simplestFields [.str "x".toList, .str "1".toList, .str "2".toList] ∧
    dirString simplestFields [.str "a b".toList, .unset, .unset] = dirString simplestFields [.str "ab".toList, .unset, .unset] ∧
    dirString simplestFields [.str "x".toList, .str "1".toList, .str "2".toList] = .ok "x/myParam-1_other-2".toList := by
  have hs : sortStr ["myParam-1".toList, "other-2".toList] = ["myParam-1".toList, "other-2".toList] :=
    List.mergeSort_of_pairwise (by decide)
  have e : dirString simplestFields [.str "x".toList, .str "1".toList, .str "2".toList] = .ok "x/myParam-1_other-2".toList := by
    have h1 : dirArgs simplestFields [.str "x".toList, .str "1".toList, .str "2".toList] = .ok ["x".toList] := by decide +kernel
    have h2 : nonposArgs simplestFields [.str "x".toList, .str "1".toList, .str "2".toList] none =
        .ok (["myParam-1".toList, "other-2".toList], none) := by decide +kernel
    rw [dirString, h1, ok_bind, joinDirs, nonposString, h2, ok_bind]
    simp only [hs, pure_eq_ok, ok_bind]
    decide +kernel
  refine ⟨?_, ?_, e⟩
  · rw [e]; decide +kernel
  · decide +kernel

end Verif
