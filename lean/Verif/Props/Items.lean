import Verif.Model.Items
import Verif.Props.ParamStrings
import Verif.Props.LogDataMore

/-!
# C94: item strings, parameter strings and command line arguments of utilities.py
-/

namespace Verif

open Str Params LogData Structures Items

namespace Items

theorem clean_eq_self {s : Str} (h : ∀ c ∈ s, keepU c = true) : clean s = s := List.filter_eq_self.mpr h

theorem dash_not_clean (s : Str) : '-' ∉ clean s := by
  intro h
  have := (List.mem_filter.mp h).2
  revert this
  decide

theorem digits_clean (n : ℕ) : ∀ c ∈ Str.ofNat n, keepU c = true := fun _ h => keepU_digit (isDigit_of_mem_ofNat h)

theorem clean_ofInt (n : ℤ) : clean (Str.ofInt n) = Str.ofNat n.natAbs := by
  unfold Str.ofInt
  split_ifs
  · rw [clean, List.filter_cons_of_neg (by decide)]
    exact clean_eq_self (digits_clean _)
  · exact clean_eq_self (digits_clean _)

theorem split_join_clean {l : List Str} (hne : l ≠ []) : split '-' (join '-' (l.map clean)) = l.map clean := by
  refine split_join (by simpa using hne) ?_
  intro p hp
  obtain ⟨s, _, rfl⟩ := List.mem_map.mp hp
  exact dash_not_clean s

/-! ### The spec: what is written for an item, and how a command line is read -/

/-- What `str()` gives for an item; `repr` is that of floats. -/
def showItem {F : Type} (repr : F → Str) : Item F → Str
  | .int n => Str.ofNat n
  | .none => "None".toList
  | .float x => repr x
  | .str s => s

/-- An item that can be told from its string: names of letters, digits, `_` and `.` which are not read as a number or as
`None`, and floats whose string has no other characters (so they are not negative) and is read back. -/
def Plain {F : Type} (repr : F → Str) (pyFloat : Str → Option F) : Item F → Prop
  | .int _ => True
  | .none => True
  | .float x => (∀ c ∈ repr x, keepU c = true) ∧ (∃ c ∈ repr x, c.isDigit = false) ∧ repr x ≠ "None".toList ∧
      pyFloat (repr x) = some x
  | .str s => (∀ c ∈ s, keepU c = true) ∧ (s = [] ∨ ∃ c ∈ s, c.isDigit = false) ∧ s ≠ "None".toList ∧ pyFloat s = none

/-- A command line as an argument parser reads it: the words before the first option, and the options with the words that
follow them. -/
def readArgs : List Str → List Str × List (Str × List Str)
  | [] => ([], [])
  | t :: ts =>
    let r := readArgs ts
    match t with
    | '-' :: '-' :: k => ([], (k, r.1) :: r.2)
    | t => (t :: r.1, r.2)

/-- A word that is not an option. -/
def IsValue (t : Str) : Prop := ∀ k, t ≠ '-' :: '-' :: k

theorem readArgs_value {t : Str} (h : IsValue t) (ts : List Str) :
    readArgs (t :: ts) = (t :: (readArgs ts).1, (readArgs ts).2) := by
  rw [readArgs]
  exact h

theorem readArgs_values {l : List Str} (h : ∀ t ∈ l, IsValue t) (ts : List Str) :
    readArgs (l ++ ts) = (l ++ (readArgs ts).1, (readArgs ts).2) := by
  induction l with
  | nil => rfl
  | cons t l ih =>
    rw [List.cons_append, readArgs_value (h t (by simp)), ih fun t ht => h t (by simp [ht])]
    rfl

/-- What the command line says about a value: nothing, or the words. -/
def said : AVal → Option (List Str)
  | .bool false => none
  | .bool true => some []
  | .num q s => if q = 0 then none else if q = 1 then some [] else some [s]
  | .str s => some [s]
  | .seq l => some l
  | .other s => some [s]

theorem readArgs_argsOf (k : Str) (v : AVal) (h : ∀ t ∈ v.words, IsValue t) (ts : List Str) (hts : (readArgs ts).1 = []) :
    readArgs (argsOf k v ++ ts) = ([], ((said v).map fun l => (k, l)).toList ++ (readArgs ts).2) := by
  have key : ∀ l : List Str, (∀ t ∈ l, IsValue t) →
      readArgs ((('-' :: '-' :: k) :: l) ++ ts) = ([], (k, l) :: (readArgs ts).2) := by
    intro l hl
    rw [List.cons_append, readArgs]
    simp only [readArgs_values hl, hts, List.append_nil]
  have hnone : readArgs ts = ([], (readArgs ts).2) := by rw [← hts]
  match v with
  | .bool false => simpa [argsOf, AVal.isFalse, said] using hnone
  | .bool true =>
    have := key [] (by simp)
    simpa [argsOf, AVal.isFalse, AVal.isTrue, said] using this
  | .num q s =>
    by_cases h0 : q = 0
    · simpa [argsOf, AVal.isFalse, said, h0] using hnone
    · by_cases h1 : q = 1
      · have := key [] (by simp)
        simpa [argsOf, AVal.isFalse, AVal.isTrue, said, h0, h1] using this
      · have := key [s] h
        simpa [argsOf, AVal.isFalse, AVal.isTrue, AVal.words, said, h0, h1] using this
  | .str s =>
    have := key [s] h
    simpa [argsOf, AVal.isFalse, AVal.isTrue, AVal.words, said] using this
  | .seq l =>
    have := key l h
    simpa [argsOf, AVal.isFalse, AVal.isTrue, AVal.words, said] using this
  | .other s =>
    have := key [s] h
    simpa [argsOf, AVal.isFalse, AVal.isTrue, AVal.words, said] using this

end Items

section JoinItems

variable {F : Type} (repr : F → Str) (pyFloat : Str → Option F)

/-- **C94 (items).** `split_items` gives back the list whose string `join_items` made: names, natural numbers, `None` and
positive floats. -/
theorem C94_items_round_trip (l : List (Item F)) (hne : l ≠ []) (h : ∀ i ∈ l, Plain repr pyFloat i) :
    splitItems pyFloat (joinItems false (.items (l.map (showItem repr)))) = l := by
  have hcl : ∀ i ∈ l, clean (showItem repr i) = showItem repr i := by
    intro i hi
    have := h i hi
    match i with
    | .int n => exact clean_eq_self (digits_clean n)
    | .none => exact clean_eq_self (by show ∀ c ∈ "None".toList, _; decide)
    | .float x => exact clean_eq_self this.1
    | .str s => exact clean_eq_self this.1
  have hread : ∀ i ∈ l, toItem pyFloat (showItem repr i) = i := by
    intro i hi
    have := h i hi
    match i with
    | .int n => exact toItem_ofNat pyFloat n
    | .none =>
      show toItem pyFloat "None".toList = .none
      rw [toItem, if_neg (by decide), if_pos rfl]
    | .float x =>
      obtain ⟨_, ⟨c, hc, hd⟩, hn, hf⟩ := this
      show toItem pyFloat (repr x) = .float x
      have : ¬ (repr x ≠ [] ∧ (repr x).all Char.isDigit = true) := by
        rintro ⟨_, ha⟩
        rw [List.all_eq_true] at ha
        simp [ha c hc] at hd
      rw [toItem, if_neg this, if_neg hn, hf]
    | .str s =>
      obtain ⟨_, hd, hn, hf⟩ := this
      show toItem pyFloat s = .str s
      have : ¬ (s ≠ [] ∧ s.all Char.isDigit = true) := by
        rintro ⟨h1, ha⟩
        rw [List.all_eq_true] at ha
        rcases hd with hd | ⟨c, hc, hd⟩
        · exact h1 hd
        · simp [ha c hc] at hd
      rw [toItem, if_neg this, if_neg hn, hf]
  simp only [joinItems, splitItems, Bool.false_eq_true, if_false]
  rw [split_join_clean (by simpa using hne), List.map_map, List.map_map]
  conv_rhs => rw [← List.map_id l]
  apply List.map_congr_left
  intro i hi
  simp only [Function.comp, hcl i hi, hread i hi, id]

/-- The list `['true_values', 12, None]` meets the hypotheses if `float` refuses the name. -/
example (h : pyFloat "true_values".toList = none) :
    ∀ i ∈ [Item.str "true_values".toList, .int 12, .none], Plain repr pyFloat i := by
  intro i hi
  simp only [List.mem_cons, List.not_mem_nil, or_false] at hi
  rcases hi with rfl | rfl | rfl
  · exact ⟨by decide, .inr ⟨'t', by decide, by decide⟩, by decide, h⟩
  · trivial
  · trivial

/-- **C94 (sorted items).** With `sort` the cleaned strings come back in increasing order, each as often as it was given. -/
theorem C94_items_sorted (l : List Str) (hne : l ≠ []) :
    ∃ l' : List Str, l'.Perm (l.map clean) ∧ l'.Pairwise (· ≤ ·) ∧
      splitItems pyFloat (joinItems true (.items l)) = l'.map (toItem pyFloat) := by
  have hp : (sortStr (l.map clean)).Perm (l.map clean) := List.mergeSort_perm _ _
  refine ⟨sortStr (l.map clean), hp, ?_, ?_⟩
  · have := List.pairwise_mergeSort (le := fun a b : Str => decide (a ≤ b))
      (fun a b c h1 h2 => by simp only [decide_eq_true_eq] at *; exact List.le_trans h1 h2)
      (fun a b => by simpa using List.le_total a b) (l.map clean)
    exact this.imp (by simp)
  · simp only [joinItems, splitItems, if_true]
    rw [split_join]
    · intro e
      have := hp.length_eq
      rw [e] at this
      simp at this
      exact hne (List.eq_nil_of_length_eq_zero this.symm)
    · intro p hpm
      obtain ⟨s, _, rfl⟩ := List.mem_map.mp (hp.mem_iff.mp hpm)
      exact dash_not_clean s

/-- **C94 (collisions).** Two non-empty lists have the same string exactly if their elements agree once other characters are
removed. -/
theorem C94_items_same (l l' : List Str) (h : l ≠ []) (h' : l' ≠ []) :
    joinItems false (.items l) = joinItems false (.items l') ↔ l.map clean = l'.map clean := by
  simp only [joinItems, Bool.false_eq_true, if_false]
  refine ⟨fun e => ?_, fun e => by rw [e]⟩
  have := congrArg (split '-') e
  rwa [split_join_clean h, split_join_clean h'] at this

example : joinItems false (.items ["a[0]".toList, "a[1]".toList]) = "a0-a1".toList ∧
    joinItems false (.items ["a0".toList, "(a1)".toList]) = "a0-a1".toList := by decide +kernel

/-- **C94 (signs).** In a list a negative integer is read back as its absolute value; given alone it is read back as an empty name
and the absolute value. -/
theorem C94_items_sign (n : ℕ) (hn : 0 < n) (hf : pyFloat [] = none) :
    splitItems pyFloat (joinItems false (.items [Str.ofInt (-n)])) = [.int n] ∧
    splitItems pyFloat (joinItems false (.other (Str.ofInt (-n)))) = [.str [], .int n] ∧
    splitItems pyFloat (joinItems false (.other (Str.ofInt n))) = [.int n] := by
  have hd : '-' ∉ Str.ofNat n := not_mem_ofNat (by decide) n
  have hz : toItem pyFloat [] = .str [] := by simp [toItem, hf]
  have hneg : Str.ofInt (-n) = '-' :: Str.ofNat n := by simp [Str.ofInt, hn]
  have hpos : Str.ofInt (n : ℤ) = Str.ofNat n := by simp [Str.ofInt]
  refine ⟨?_, ?_, ?_⟩
  · simp only [joinItems, List.map_cons, List.map_nil, clean_ofInt, join, splitItems, Bool.false_eq_true, if_false]
    rw [show (-(n : ℤ)).natAbs = n by simp, split_of_not_mem hd]
    simp [toItem_ofNat]
  · rw [joinItems, hneg, splitItems, split_cons_self, split_of_not_mem hd]
    simp [toItem_ofNat, hz]
  · rw [joinItems, hpos, splitItems, split_of_not_mem hd]
    simp [toItem_ofNat]

/-- **C94 (empty list).** The empty list is read back as a list with one empty name, as the list with one empty string is. -/
theorem C94_items_empty (hf : pyFloat [] = none) :
    splitItems pyFloat (joinItems false (.items [])) = [.str []] ∧
    splitItems pyFloat (joinItems false (.items [[]])) = [.str []] := by
  simp [joinItems, splitItems, join, clean, split, toItem, hf]

end JoinItems

section Args

/-- **C94 (arguments).** An argument parser that reads the words of `params_to_args` finds, in the order of the keys, for every
parameter that is not false the words of its value; `True` has no words.  But also the number 0 is left out and the number 1
loses its value. -/
theorem C94_params_to_args (d : PyDict Str AVal) (hv : ∀ kv ∈ d, ∀ t ∈ kv.2.words, IsValue t) :
    ∃ (args ks : List Str), paramsToArgs d = .ok args ∧ ks.Perm d.keys ∧ ks.Pairwise (· ≤ ·) ∧
      readArgs args = ([], ks.filterMap fun k => ((d.get? k).bind said).map fun l => (k, l)) := by
  have hp : (sortStr d.keys).Perm d.keys := List.mergeSort_perm _ _
  have hs : (sortStr d.keys).Pairwise (· ≤ ·) := by
    have := List.pairwise_mergeSort (le := fun a b : Str => decide (a ≤ b))
      (fun a b c h1 h2 => by simp only [decide_eq_true_eq] at *; exact List.le_trans h1 h2)
      (fun a b => by simpa using List.le_total a b) d.keys
    exact this.imp (by simp)
  have key : ∀ ks : List Str, (∀ k ∈ ks, k ∈ d.keys) → ∃ args, argsLoop d ks = .ok args ∧
      readArgs args = ([], ks.filterMap fun k => ((d.get? k).bind said).map fun l => (k, l)) := by
    intro ks
    induction ks with
    | nil => intro _; exact ⟨[], rfl, rfl⟩
    | cons k ks ih =>
      intro hk
      obtain ⟨args, h1, h2⟩ := ih fun k' hk' => hk k' (by simp [hk'])
      obtain ⟨v, hg⟩ := PyDict.get?_isSome.mpr (hk k (by simp))
      refine ⟨argsOf k v ++ args, ?_, ?_⟩
      · simp only [argsLoop, PyDict.getE_ok.mpr hg, ok_bind, h1, pure_eq_ok]
      · rw [readArgs_argsOf k v (hv _ (PyDict.mem_of_get? hg)) args (by rw [h2]), h2, List.filterMap_cons, hg]
        cases hsv : said v <;> simp [hsv]
  obtain ⟨args, h1, h2⟩ := key (sortStr d.keys) fun k hk => hp.mem_iff.mp hk
  exact ⟨args, _, h1, hp, hs, h2⟩

/-- The parameters `alpha=.1, weight_reset=True, horizon=1, steps=0`: the horizon has lost its value and the steps are gone. -/
example : readArgs ["--alpha".toList, "0.1".toList, "--horizon".toList, "--weight_reset".toList] =
    ([], [("alpha".toList, ["0.1".toList]), ("horizon".toList, []), ("weight_reset".toList, [])]) ∧
    argsOf "horizon".toList (.num 1 "1".toList) = ["--horizon".toList] ∧
    argsOf "steps".toList (.num 0 "0".toList) = [] ∧
    argsOf "weight_reset".toList (.bool true) = ["--weight_reset".toList] ∧
    argsOf "alpha".toList (.num (1/10) "0.1".toList) = ["--alpha".toList, "0.1".toList] := by
  refine ⟨by decide +kernel, rfl, rfl, rfl, ?_⟩
  norm_num [argsOf, AVal.isFalse, AVal.isTrue, AVal.words]
  rfl

/-- **C94 (argument string).** Splitting the string of `params_to_arg_string` at the blanks gives the words of `params_to_args`, if
no key and no word has white space and no word is empty. -/
theorem C94_params_to_arg_string (d : PyDict Str AVal)
    (hk : ∀ k ∈ d.keys, ∀ c ∈ k, isSpace c = false)
    (hv : ∀ kv ∈ d, ∀ t ∈ kv.2.words, t ≠ [] ∧ ∀ c ∈ t, isSpace c = false) :
    ∃ args s, paramsToArgs d = .ok args ∧ paramsToArgString d = .ok s ∧ words s = args := by
  have hp : (sortStr d.keys).Perm d.keys := List.mergeSort_perm _ _
  have key : ∀ ks : List Str, (∀ k ∈ ks, k ∈ d.keys) → ∃ args, argsLoop d ks = .ok args ∧
      ∀ t ∈ args, t ≠ [] ∧ ∀ c ∈ t, isSpace c = false := by
    intro ks
    induction ks with
    | nil => intro _; exact ⟨[], rfl, by simp⟩
    | cons k ks ih =>
      intro hks
      obtain ⟨args, h1, h2⟩ := ih fun k' hk' => hks k' (by simp [hk'])
      obtain ⟨v, hg⟩ := PyDict.get?_isSome.mpr (hks k (by simp))
      refine ⟨argsOf k v ++ args, ?_, ?_⟩
      · simp only [argsLoop, PyDict.getE_ok.mpr hg, ok_bind, h1, pure_eq_ok]
      · intro t ht
        rcases List.mem_append.mp ht with ht | ht
        · have hopt : ('-' :: '-' :: k) ≠ [] ∧ ∀ c ∈ ('-' :: '-' :: k), isSpace c = false := by
            refine ⟨by simp, ?_⟩
            intro c hc
            simp only [List.mem_cons] at hc
            rcases hc with rfl | rfl | hc
            · decide
            · decide
            · exact hk k (hks k (by simp)) c hc
          unfold argsOf at ht
          split_ifs at ht
          · simp at ht
          · simp only [List.mem_singleton] at ht
            rw [ht]
            exact hopt
          · rcases List.mem_cons.mp ht with rfl | ht
            · exact hopt
            · exact hv _ (PyDict.mem_of_get? hg) t ht
        · exact h2 t ht
  obtain ⟨args, h1, h2⟩ := key (sortStr d.keys) fun k hk => hp.mem_iff.mp hk
  exact ⟨args, join ' ' args, h1, by rw [paramsToArgString, paramsToArgs, h1]; rfl, words_join h2⟩

/-- The hypotheses are met by `horizon=2, input_features=['a', 'b']`. -/
example : ∀ kv ∈ [("horizon".toList, AVal.num 2 "2".toList), ("input_features".toList, .seq ["a".toList, "b".toList])],
    ∀ t ∈ kv.2.words, t ≠ [] ∧ ∀ c ∈ t, isSpace c = false := by decide +kernel

end Args

section Keys

/-- **C94 (short keys).** `shorten_keys` succeeds exactly if no key has an empty part between underscores, and then gives for every
key the first characters of its parts. -/
theorem C94_shorten_keys (ks : List Str) (hk : ks.Nodup) :
    ((∀ k ∈ ks, ∀ p ∈ split '_' k, p ≠ []) →
      ∃ d, shortenKeys ks [] = .ok d ∧ d.keys = ks ∧
        ∀ k ∈ ks, ∃ s, d.get? k = some s ∧ s.map some = (split '_' k).map List.head?) ∧
    (∀ k ∈ ks, ∀ p ∈ split '_' k, p = [] → shortenKeys ks [] = .error .indexError) := by
  have hf : ∀ ps : List Str, (∀ p ∈ ps, p ≠ []) → ∃ s, firsts ps = .ok s ∧ s.map some = ps.map List.head? := by
    intro ps
    induction ps with
    | nil => intro _; exact ⟨[], rfl, rfl⟩
    | cons p ps ih =>
      intro h
      cases p with
      | nil => exact absurd rfl (h [] (by simp))
      | cons c p =>
        obtain ⟨s, h1, h2⟩ := ih fun q hq => h q (by simp [hq])
        exact ⟨c :: s, by simp [firsts, h1], by simp [h2]⟩
  have hfe : ∀ ps : List Str, [] ∈ ps → firsts ps = .error .indexError := by
    intro ps
    induction ps with
    | nil => simp
    | cons p ps ih =>
      intro h
      cases p with
      | nil => rfl
      | cons c p =>
        have : [] ∈ ps := by simpa using h
        simp [firsts, ih this]
  have step : ∀ n ns (d : PyDict Str Str), shortenKeys (n :: ns) d =
      (firsts (split '_' n)).bind fun f => shortenKeys ns (d.set n f) := fun _ _ _ => rfl
  constructor
  · intro h
    have gen : ∀ (ks : List Str) (d : PyDict Str Str), ks.Nodup → (∀ k ∈ ks, k ∉ d.keys) →
        (∀ k ∈ ks, ∀ p ∈ split '_' k, p ≠ []) →
        ∃ e, shortenKeys ks d = .ok e ∧ e.keys = d.keys ++ ks ∧ (∀ k, k ∉ ks → e.get? k = d.get? k) ∧
          ∀ k ∈ ks, ∃ s, e.get? k = some s ∧ s.map some = (split '_' k).map List.head? := by
      intro ks
      induction ks with
      | nil => intro d _ _ _; exact ⟨d, rfl, by simp, fun _ _ => rfl, by simp⟩
      | cons k ks ih =>
        intro d hnd hdk h
        obtain ⟨hk1, hk2⟩ := List.nodup_cons.mp hnd
        obtain ⟨s, h1, h2⟩ := hf (split '_' k) (h k (by simp))
        have hkeys : (d.set k s).keys = d.keys ++ [k] := PyDict.keys_set_of_not_mem _ (hdk k (by simp))
        obtain ⟨e, e1, e2, e3, e4⟩ := ih (d.set k s) hk2 (by
          intro k' hk'
          rw [hkeys, List.mem_append, List.mem_singleton]
          rintro (h' | rfl)
          · exact hdk k' (by simp [hk']) h'
          · exact hk1 hk') (fun k' hk' => h k' (by simp [hk']))
        refine ⟨e, ?_, ?_, ?_, ?_⟩
        · rw [step, h1]
          exact e1
        · rw [e2, hkeys, List.append_assoc]
          rfl
        · intro k' hk'
          simp only [List.mem_cons, not_or] at hk'
          rw [e3 k' hk'.2, PyDict.get?_set_other _ _ hk'.1]
        · intro k' hk'
          rcases List.mem_cons.mp hk' with rfl | hk'
          · exact ⟨s, by rw [e3 k' hk1, PyDict.get?_set_self], h2⟩
          · exact e4 k' hk'
    obtain ⟨e, e1, e2, _, e4⟩ := gen ks [] hk (by simp [PyDict.keys]) h
    exact ⟨e, e1, by simpa [PyDict.keys] using e2, e4⟩
  · intro k hkm p hp he
    subst he
    clear hk
    suffices hall : ∀ d : PyDict Str Str, shortenKeys ks d = .error .indexError from hall []
    induction ks with
    | nil => simp at hkm
    | cons n ns ih =>
      intro d
      rw [step]
      cases hfn : firsts (split '_' n) with
      | error e =>
        have : e = .indexError := by
          by_cases hm : [] ∈ split '_' n
          · rw [hfe _ hm] at hfn
            cases hfn
            rfl
          · obtain ⟨s, h1, _⟩ := hf (split '_' n) (by
              rintro p hp rfl
              exact hm hp)
            rw [h1] at hfn
            cases hfn
        rw [this]
        rfl
      | ok f =>
        rcases List.mem_cons.mp hkm with rfl | hkm
        · rw [hfe _ hp] at hfn
          cases hfn
        · exact ih hkm (d.set n f)

/-- `alpha_rate` and `action_range` get the same short key; `_private` has none. -/
example : shortenKeys ["alpha_rate".toList, "action_range".toList] [] =
      .ok [("alpha_rate".toList, "ar".toList), ("action_range".toList, "ar".toList)] ∧
    shortenKeys ["_private".toList] [] = .error .indexError := by decide +kernel

end Keys

section JoinParams

variable {F : Type} [DecidableEq F] (pyFloat : Str → Option F)

/-- The strings that are written for a value of a parameter. -/
def Items.parts : JVal → List Str
  | .str s => [clean s]
  | .items l => if l = [] then [[]] else l.map clean
  | .other s => split '-' s

theorem Items.join_parts (v : JVal) : join '-' (parts v) = joinItems false v := by
  cases v with
  | str s => rfl
  | items l =>
    simp only [parts, joinItems, Bool.false_eq_true, if_false]
    split_ifs with h
    · subst h; rfl
    · rfl
  | other s => exact join_split '-' s

/-- **C94 (parameters).** What `join_params` writes is read by `split_params` in the order of the keys: a value whose string
consists of one item as that item, an empty item and a number as a negative number, other lists as lists; two items of which the
first is not a name raise.  Keys have no dash and are not read as numbers, values have no underscore. -/
theorem C94_join_params (d : PyDict Str JVal) (hd : d.keys.Nodup) (hne : d ≠ [])
    (hk : ∀ k ∈ d.keys, '-' ∉ k ∧ toItem pyFloat k = .str k) (hv : ∀ kv ∈ d, '_' ∉ joinItems false kv.2)
    (x : Str → PVal F) (hx : ∀ kv ∈ d, readAs ((parts kv.2).map (toItem pyFloat)) = .ok (x kv.1)) :
    ∃ ks : List Str, ks.Perm d.keys ∧ ks.Pairwise (· ≤ ·) ∧
      splitParamsU pyFloat (joinParams (joinItems false) d) = .ok (ks.map fun k => (.str k, x k)) := by
  have hp : (sortStr d.keys).Perm d.keys := List.mergeSort_perm _ _
  have hs : (sortStr d.keys).Pairwise (· ≤ ·) := by
    have := List.pairwise_mergeSort (le := fun a b : Str => decide (a ≤ b))
      (fun a b c h1 h2 => by simp only [decide_eq_true_eq] at *; exact List.le_trans h1 h2)
      (fun a b => by simpa using List.le_total a b) d.keys
    exact this.imp (by simp)
  refine ⟨sortStr d.keys, hp, hs, ?_⟩
  have hmem : ∀ k ∈ sortStr d.keys, ∃ v, d.get? k = some v := fun k hk => PyDict.get?_isSome.mpr (hp.mem_iff.mp hk)
  have hnd : (sortStr d.keys).Nodup := hp.nodup_iff.mpr hd
  have hsne : sortStr d.keys ≠ [] := by
    intro e
    have := hp.length_eq
    rw [e] at this
    cases d with
    | nil => exact hne rfl
    | cons p d => simp [PyDict.keys] at this
  have hjp : joinParams (joinItems false) d = join '_' ((sortStr d.keys).filterMap fun k =>
      (d.get? k).map fun v => k ++ '-' :: joinItems false v) := rfl
  rw [hjp]
  have hall : ∀ k ∈ sortStr d.keys, k ∈ d.keys := fun k hk => hp.mem_iff.mp hk
  generalize sortStr d.keys = ks at *
  set g : Str → List Str := fun k => ((d.get? k).map parts).getD [[]] with hg
  have e1 : (ks.filterMap fun k => (d.get? k).map fun v => k ++ '-' :: joinItems false v) =
      (ks.map fun k => (k, g k)).map fun kv => Str.formatItem (kv.1, join '-' kv.2) := by
    rw [List.map_map]
    clear hs hnd hp hsne hjp
    induction ks with
    | nil => rfl
    | cons k ks ih =>
      obtain ⟨v, hv'⟩ := hmem k (by simp)
      rw [List.filterMap_cons, hv', List.map_cons, ih (fun k hk => hmem k (by simp [hk])) fun k hk => hall k (by simp [hk])]
      simp [hg, hv', Str.formatItem, join_parts]
  rw [e1, C78_split_params pyFloat _ (by simpa using hsne)]
  · have hread : ∀ k ∈ ks, readAs ((g k).map (toItem pyFloat)) = .ok (x k) := by
      intro k hk'
      obtain ⟨v, hv'⟩ := hmem k hk'
      have := hx (k, v) (PyDict.mem_of_get? hv')
      simpa [hg, hv'] using this
    have hstr : ∀ k ∈ ks, toItem pyFloat k = .str k := fun k hk' => (hk k (hall k hk')).2
    have gen : ∀ (ks : List Str) (e : PyDict (Item F) (PVal F)), ks.Nodup → (∀ k ∈ ks, Item.str k ∉ e.keys) →
        (∀ k ∈ ks, readAs ((g k).map (toItem pyFloat)) = .ok (x k)) → (∀ k ∈ ks, toItem pyFloat k = .str k) →
        (ks.map fun k => (k, g k)).foldlM (fun (d : PyDict (Item F) (PVal F)) kv => do
          let x ← readAs (kv.2.map (toItem pyFloat))
          pure (d.set (toItem pyFloat kv.1) x)) e = (.ok (e ++ ks.map fun k => (.str k, x k)) : Py _) := by
      intro ks
      induction ks with
      | nil => intro e _ _ _ _; simp [pure_eq_ok]
      | cons k ks ih =>
        intro e hnd hnot hr hst
        obtain ⟨hk1, hk2⟩ := List.nodup_cons.mp hnd
        rw [List.map_cons, List.foldlM_cons]
        have hset : e.set (.str k) (x k) = e ++ [(.str k, x k)] := by
          have := hnot k (by simp)
          clear ih hnot
          induction e with
          | nil => rfl
          | cons p e ihe =>
            obtain ⟨k', v'⟩ := p
            simp only [PyDict.keys_cons, List.mem_cons, not_or] at this
            simp [PyDict.set, Ne.symm this.1, ihe this.2]
        simp only [hr k (by simp), hst k (by simp), ok_bind]
        show List.foldlM _ (e.set (.str k) (x k)) _ = _
        rw [ih _ hk2 _ (fun k hk => hr k (by simp [hk])) (fun k hk => hst k (by simp [hk])), hset]
        · simp
        · intro k' hk'
          rw [hset]
          simp only [PyDict.keys, List.map_append, List.map_cons, List.map_nil, List.mem_append, List.mem_singleton, not_or]
          refine ⟨hnot k' (by simp [hk']), ?_⟩
          intro he
          injection he with he
          subst he
          exact hk1 hk'
    have := gen ks [] hnd (by simp [PyDict.keys]) hread hstr
    simpa using this
  · intro kv hkv
    obtain ⟨k, hk', rfl⟩ := List.mem_map.mp hkv
    obtain ⟨v, hv'⟩ := hmem k hk'
    have hu := hv (k, v) (PyDict.mem_of_get? hv')
    have hgk : g k = parts v := by simp [hg, hv']
    dsimp only
    rw [hgk]
    have hpne : parts v ≠ [] := by
      cases v with
      | str s => simp [parts]
      | items l =>
        simp only [parts]
        split_ifs with h
        · simp
        · simpa using h
      | other s => exact split_ne_nil _ _
    refine ⟨(hk k (hall k hk')).1, hpne, ?_⟩
    intro p hpp
    refine ⟨?_, ?_⟩
    · cases v with
      | str s =>
        simp only [parts, List.mem_singleton] at hpp
        rw [hpp]
        exact dash_not_clean s
      | items l =>
        simp only [parts] at hpp
        split_ifs at hpp with h
        · simp only [List.mem_singleton] at hpp
          simp [hpp]
        · obtain ⟨s, _, rfl⟩ := List.mem_map.mp hpp
          exact dash_not_clean s
      | other s => exact not_mem_of_mem_split hpp
    · intro hup
      apply hu
      dsimp only
      rw [← join_parts]
      have mem_join : ∀ (l : List Str) (p : Str), p ∈ l → ∀ c ∈ p, c ∈ join '-' l := by
        intro l
        induction l with
        | nil => simp
        | cons a l ih =>
          intro p hp c hc
          cases l with
          | nil =>
            simp only [List.mem_singleton] at hp
            subst hp
            exact hc
          | cons b l =>
            rw [join_cons (by simp)]
            rcases List.mem_cons.mp hp with rfl | hp
            · exact List.mem_append_left _ hc
            · exact List.mem_append_right _ (List.mem_cons_of_mem _ (ih p hp c hc))
      exact mem_join _ _ hpp _ hup

/-- `join_params(features=['a','b','c'], depth=15)`. -/
example (h : ∀ s, pyFloat s = none) :
    (∀ k ∈ PyDict.keys [("features".toList, JVal.items ["a".toList, "b".toList, "c".toList]), ("depth".toList, .other "15".toList)],
      '-' ∉ k ∧ toItem pyFloat k = .str k) ∧
    readAs ((parts (.other "15".toList)).map (toItem pyFloat)) = .ok (.one (.int 15)) := by
  constructor
  · intro k hk
    simp only [PyDict.keys, List.map_cons, List.map_nil, List.mem_cons, List.not_mem_nil, or_false] at hk
    rcases hk with rfl | rfl
    · refine ⟨by decide, ?_⟩
      rw [toItem, if_neg (by decide), if_neg (by decide), h]
    · refine ⟨by decide, ?_⟩
      rw [toItem, if_neg (by decide), if_neg (by decide), h]
  · rfl

end JoinParams

end Verif
