import Verif.Proofs.StructuresRound

/-!
# C84, continued: what reading a directory name does when parameters are missing, and with parent directories
-/

namespace Verif

open Str Structures

/-- No literals, for the examples. -/
def litMore (_ : Str) : Option Str := none

/-- C84. A structure without fields cannot be read: NameError. -/
theorem C84_no_fields {L : Type} (lit : Str → Option L) (repr : L → Str) (d : Str) :
    paramsFromDirString lit repr [] d = .error .nameError := by
  rw [paramsFromDirString, parseHead]
  rfl

namespace Structures

variable {L : Type} {lit : Str → Option L} {repr : L → Str}

theorem parseFlds_loose {fs : List Fld} (hf : ∀ f ∈ fs, ∃ p, f = .par p ∧ p.keyword = true ∧ Par.Loose p) (s : St L)
    (hs : ∀ k ∈ s.keyworded, k ∈ s.params.keys) :
    ((∀ p, Fld.par p ∈ fs → p.required = true → p.name ∈ s.params.keys) →
      ∃ kw, (∀ k ∈ kw, k ∈ s.params.keys) ∧ parseFlds lit repr fs s = .ok ⟨s.dir, s.params, kw, s.npnk⟩) ∧
    ((∃ p, Fld.par p ∈ fs ∧ p.required = true ∧ p.name ∉ s.params.keys) → parseFlds lit repr fs s = .error .valueError) := by
  induction fs with
  | nil => exact ⟨fun _ => ⟨s.keyworded, hs, by rw [parseFlds]; rfl⟩, by simp⟩
  | cons f fs ih =>
    obtain ⟨p, rfl, hk, hl⟩ := hf f List.mem_cons_self
    obtain ⟨i1, i2⟩ := ih fun f h => hf f (List.mem_cons_of_mem _ h)
    by_cases hall : ∀ p, Fld.par p ∈ fs → p.required = true → p.name ∈ s.params.keys
    · obtain ⟨kw, h1, h2⟩ := i1 hall
      rw [parseFlds, h2, ok_bind, parseFld, if_neg (by rw [hl.2]; simp), if_neg (by rw [hl.1]; simp), if_pos hk]
      have hnone : p.name ∉ s.params.keys ↔ (s.params.get? p.name).isNone = true := by
        rw [← PyDict.get?_isSome, Option.isNone_iff_eq_none]
        cases s.params.get? p.name <;> simp
      constructor
      · intro h
        by_cases hm : p.name ∈ kw
        · exact ⟨kw.erase p.name, fun k hk => h1 k (List.mem_of_mem_erase hk), by rw [if_pos hm]; rfl⟩
        · refine ⟨kw, h1, ?_⟩
          rw [if_neg hm, if_neg]
          · rfl
          · rintro ⟨a, b⟩
            exact hnone.2 b (h p List.mem_cons_self a)
      · rintro ⟨q, hq, a, b⟩
        rcases List.mem_cons.1 hq with e | hq
        · cases e
          rw [if_neg fun h => b (h1 _ h), if_pos ⟨a, hnone.1 b⟩]
        · exact absurd (hall q hq a) b
    · push Not at hall
      obtain ⟨q, hq, a, b⟩ := hall
      have he := i2 ⟨q, hq, a, b⟩
      refine ⟨fun h => absurd (h q (List.mem_cons_of_mem _ hq) a) b, fun _ => ?_⟩
      rw [parseFlds, he]
      rfl

end Structures

/-- C84. If all parameters are loose, with keywords: the last component of the directory has to name those that are required, and
reading raises ValueError if one of them is missing.  The rest may be missing. -/
theorem C84_required {L : Type} (lit : Str → Option L) (repr : L → Str) (fs : List Fld) (hne : fs ≠ [])
    (hf : ∀ f ∈ fs, ∃ p, f = .par p ∧ p.keyword = true ∧ Par.Loose p) (base c : Str) (hb : IsPath base) (hc : GoodComp c)
    (hx : ¬ "txt".toList <:+: extension c) (ps : PyDict Str (Option Str)) (hps : splitParams c = .ok ps) :
    ((∃ p, Fld.par p ∈ fs ∧ p.required = true ∧ p.name ∉ ps.keys) →
      paramsFromDirString lit repr fs (pathJoin2 base c) = .error .valueError) ∧
    ((∀ p, Fld.par p ∈ fs → p.required = true → p.name ∈ ps.keys) →
      ∃ qs, paramsFromDirString lit repr fs (pathJoin2 base c) = .ok (qs, base) ∧
        ∀ n, PyDict.get? qs n = (ps.get? n).map fun v => match v with | some s => .atom (.str s) | none => .none) := by
  obtain ⟨k, cs, hk, hcs, rfl⟩ := hb
  have hcs' : ∀ x ∈ cs ++ [c], GoodComp x := by
    intro x hx
    rcases List.mem_append.1 hx with hx | hx
    · exact hcs x hx
    · rw [List.mem_singleton] at hx; exact hx ▸ hc
  have hjoin : pathJoin2 (pathStr k cs) c = pathStr k (cs ++ [c]) := by
    have := pathJoin2_pathStr k hcs (ds := [c]) (by simpa using hc) (by simp)
    simpa [pathStr, join] using this
  have hkey : hasKeyword fs = true := by
    obtain ⟨f, fs', rfl⟩ := List.exists_cons_of_ne_nil hne
    obtain ⟨p, rfl, h1, h2⟩ := hf f List.mem_cons_self
    simp [hasKeyword, h1, h2.2]
  have hnp : npnkOf fs = .ok none := by
    rw [npnkOf, List.filter_eq_nil_iff.2]
    · rfl
    · intro f hm
      obtain ⟨p, rfl, h1, h2⟩ := hf f hm
      simp [Fld.flags, h1]
  have hhead : parseHead (L := L) fs (pathStr k (cs ++ [c])) = .ok ⟨pathStr k cs, ps.map fun kv => (kv.1, match kv.2 with
      | some s => .atom (.str s)
      | none => .none), ps.map Prod.fst, none⟩ := by
    rw [parseHead, extension_afterLast k cs hc, if_neg hx, hnp]
    dsimp only
    rw [ok_bind, if_pos hkey, normpath_pathStr hk hcs' (by simp), pathSplit_pathStr k cs hcs hc]
    simp only [hps, ok_bind, pure_eq_ok]
    rfl
  have hkeys : PyDict.keys (ps.map fun kv => (kv.1, match kv.2 with
      | some s => PV.atom (L := L) (.str s)
      | none => .none)) = ps.keys := by simp [PyDict.keys, List.map_map, Function.comp_def]
  obtain ⟨h1, h2⟩ := parseFlds_loose (lit := lit) (repr := repr) hf ⟨pathStr k cs, ps.map fun kv => (kv.1, match kv.2 with
      | some s => .atom (.str s)
      | none => .none), ps.map Prod.fst, none⟩ (by
        intro n hn
        rw [hkeys]
        exact hn)
  rw [hkeys] at h1 h2
  rw [hjoin, paramsFromDirString, hhead, ok_bind]
  refine ⟨fun h => by rw [h2 h]; rfl, fun h => ?_⟩
  obtain ⟨kw, -, e⟩ := h1 h
  refine ⟨_, by rw [e, ok_bind, parseTail, if_neg (by simpa using hne)]; rfl, fun n => ?_⟩
  exact get?_map (fun v : Option Str => match v with | some s => PV.atom (L := L) (.str s) | none => .none) ps n

/-- The hypotheses of `C84_required`, in both cases. -/
example : paramsFromDirString litMore (fun s => s) [.par ⟨"foo".toList, true, false, true, false⟩, .par ⟨"bar".toList, false, false, true, false⟩]
    "/a/foo-1".toList = .ok ([("foo".toList, .atom (.str "1".toList))], "/a".toList) ∧
    paramsFromDirString litMore (fun s => s) [.par ⟨"foo".toList, true, false, true, false⟩, .par ⟨"bar".toList, false, false, true, false⟩]
    "/a/bar-1".toList = .error .valueError := by
  have hf : ∀ f ∈ [Fld.par ⟨"foo".toList, true, false, true, false⟩, .par ⟨"bar".toList, false, false, true, false⟩],
      ∃ p, f = .par p ∧ p.keyword = true ∧ Par.Loose p := by
    simp only [List.mem_cons, List.not_mem_nil, or_false, forall_eq_or_imp, forall_eq]
    exact ⟨⟨_, rfl, rfl, by decide⟩, _, rfl, rfl, by decide⟩
  have hb : IsPath "/a".toList := ⟨1, ["a".toList], by omega, by decide, by decide⟩
  refine ⟨by decide +kernel, ?_⟩
  exact (C84_required litMore (fun s => s) _ (by simp) hf "/a".toList "bar-1".toList hb (by decide) (by decide)
    [("bar".toList, some "1".toList)] (by decide +kernel)).1 ⟨_, List.mem_cons_self, rfl, by decide⟩

/-- What reading a structure with one field, a structure, makes of reading that. -/
def Structures.nestedResult {L : Type} (required : Bool) (d : Str) : Py (PyDict Str (PV L) × Str) → Py (PyDict Str (PV L) × Str)
  | .error .valueError => if required then .error .valueError else .ok ([], d)
  | .error e => .error e
  | .ok (ps, b) => .ok (updateAll [] ps, b)

/-- C84. A structure in a structure, with nothing else: what reading it gives; if that is ValueError, nothing is read and the directory
stays, unless the structure is required. -/
theorem C84_nested {L : Type} (lit : Str → Option L) (repr : L → Str) (p : Par) (g : List Fld) (hp : p.positional = true)
    (ht : p.transient = false) (d : Str) (hd : IsPath d) (hne : d ≠ []) (hx : ¬ "txt".toList <:+: extension d) :
    (∀ ps b, paramsFromDirString lit repr g d = .ok (ps, b) → ∃ qs, paramsFromDirString lit repr [.struct p g] d = .ok (qs, b) ∧
      (ps.keys.Nodup → ∀ n, PyDict.get? qs n = ps.get? n)) ∧
    (paramsFromDirString lit repr g d = .error .valueError →
      (p.required = true → paramsFromDirString lit repr [.struct p g] d = .error .valueError) ∧
      (p.required = false → paramsFromDirString lit repr [.struct p g] d = .ok ([], d))) ∧
    (∀ e, e ≠ .valueError → paramsFromDirString lit repr g d = .error e → paramsFromDirString lit repr [.struct p g] d = .error e) := by
  obtain ⟨k, cs, hk, hcs, rfl⟩ := hd
  have hor : k ≠ 0 ∨ cs ≠ [] := by
    by_contra h
    push Not at h
    obtain ⟨rfl, rfl⟩ := h
    exact hne rfl
  have hnp : npnkOf [.struct p g] = .ok none := by
    rw [npnkOf, List.filter_eq_nil_iff.2]
    · rfl
    · simp [Fld.flags, hp]
  have hhead : parseHead (L := L) [.struct p g] (pathStr k cs) = .ok ⟨pathStr k cs, [], [], none⟩ := by
    rw [parseHead, if_neg hx, hnp]
    dsimp only
    rw [ok_bind, if_neg (by simp [hasKeyword]), normpath_pathStr hk hcs hor]
    rfl
  have hread : paramsFromDirString lit repr [.struct p g] (pathStr k cs) =
      nestedResult p.required (pathStr k cs) (paramsFromDirString lit repr g (pathStr k cs)) := by
    conv_lhs => rw [paramsFromDirString, hhead, ok_bind, parseFlds, parseFlds, pure_eq_ok, ok_bind, parseFld, if_neg (by rw [ht]; simp)]
    rw [paramsFromDirString]
    dsimp only
    generalize (parseHead g (pathStr k cs) >>= fun t => parseFlds lit repr g t >>= fun t => parseTail g t) = r
    match r with
    | .ok (ps, b) => rfl
    | .error e => cases e <;> cases p.required <;> rfl
  refine ⟨fun ps b h => ?_, fun h => ⟨fun hr => ?_, fun hr => ?_⟩, fun e he h => ?_⟩
  · rw [hread, h]
    refine ⟨_, rfl, fun hnd n => ?_⟩
    rw [(updateAll_spec [] ps hnd (by simp [PyDict.keys])).2]
    cases ps.get? n <;> rfl
  · rw [hread, h]
    simp only [nestedResult, hr, if_true]
  · rw [hread, h]
    simp only [nestedResult, hr, Bool.false_eq_true, if_false]
  · rw [hread, h]
    cases e <;> first | rfl | exact absurd rfl he

/-- The hypotheses of `C84_nested`: what is below `/a` has no loose parameter with the right name. -/
example : paramsFromDirString litMore (fun s => s)
      [.struct ⟨"s".toList, false, true, false, false⟩ [.par ⟨"foo".toList, true, false, true, false⟩]] "/a/bar-1".toList =
      .ok ([], "/a/bar-1".toList) ∧
    paramsFromDirString litMore (fun s => s)
      [.struct ⟨"s".toList, true, true, false, false⟩ [.par ⟨"foo".toList, true, false, true, false⟩]] "/a/bar-1".toList =
      .error .valueError := by
  have hb : IsPath "/a/bar-1".toList := ⟨1, ["a".toList, "bar-1".toList], by omega, by decide, by decide⟩
  have he : paramsFromDirString litMore (fun s => s) [.par ⟨"foo".toList, true, false, true, false⟩] "/a/bar-1".toList =
      .error .valueError := by decide +kernel
  exact ⟨((C84_nested litMore (fun s => s) ⟨"s".toList, false, true, false, false⟩ _ rfl rfl _ hb (by decide) (by decide)).2.1 he).2 rfl,
    ((C84_nested litMore (fun s => s) ⟨"s".toList, true, true, false, false⟩ _ rfl rfl _ hb (by decide) (by decide)).2.1 he).1 rfl⟩

/-- C84. A component and the parent directory after it do not matter. -/
theorem C84_parent {L : Type} (lit : Str → Option L) (repr : L → Str) (fs : List Fld) (p x q : Str) (hx : GoodComp x)
    (hq : q.head? ≠ some '/') (ht : ¬ "txt".toList <:+: extension (p ++ '/' :: q)) :
    paramsFromDirString lit repr fs (p ++ '/' :: x ++ "/../".toList ++ q) = paramsFromDirString lit repr fs (p ++ '/' :: q) := by
  have hal : ∀ a : Str, afterLast '/' (a ++ '/' :: q) = afterLast '/' q := by
    intro a
    by_cases h : '/' ∈ q
    · obtain ⟨b, c, rfl, hc⟩ := exists_last_part h
      rw [afterLast_append _ hc, show a ++ '/' :: (b ++ '/' :: c) = (a ++ '/' :: b) ++ '/' :: c by simp, afterLast_append _ hc]
    · rw [afterLast_append _ h, afterLast_of_not_mem h]
  have heq : p ++ '/' :: x ++ "/../".toList ++ q = (p ++ '/' :: x ++ ['/', '.', '.']) ++ '/' :: q := by
    simp
  have hext : extension (p ++ '/' :: x ++ "/../".toList ++ q) = extension (p ++ '/' :: q) := by
    rw [extension, extension, heq, hal, hal]
  have hloop : ∀ r : Bool, normLoop r [] (split '/' (p ++ '/' :: x ++ "/../".toList ++ q)) = normLoop r [] (split '/' (p ++ '/' :: q)) := by
    intro r
    have h1 : split '/' (p ++ '/' :: x ++ "/../".toList ++ q) = split '/' p ++ x :: ['.', '.'] :: split '/' q := by
      rw [heq, split_append_cons, show p ++ '/' :: x ++ ['/', '.', '.'] = p ++ '/' :: (x ++ '/' :: ['.', '.']) by simp,
        split_append_cons, split_append_cons, split_of_not_mem hx.2.1, split_of_not_mem (s := ['.', '.']) (by decide)]
      simp
    rw [h1, split_append_cons]
    have key : ∀ (l : List Str) (acc : List Str), normLoop r acc (l ++ x :: ['.', '.'] :: split '/' q) = normLoop r acc (l ++ split '/' q) := by
      intro l
      induction l with
      | nil =>
        intro acc
        rw [List.nil_append, List.nil_append, normLoop, if_neg (by simp [hx.1, hx.2.2.1]), if_pos (.inl hx.2.2.2), normLoop,
          if_neg (by decide), if_neg (by simp [hx.2.2.2]), List.tail_cons]
      | cons a l ih =>
        intro acc
        rw [List.cons_append, List.cons_append, normLoop, normLoop]
        split_ifs <;> exact ih _
    exact key _ _
  have hnorm : normpath (p ++ '/' :: x ++ "/../".toList ++ q) = normpath (p ++ '/' :: q) := by
    have hs : ∀ c ∈ x.head?, c ≠ '/' := fun c hc e => hx.2.1 (by rw [← e]; exact List.mem_of_mem_head? hc)
    obtain ⟨c, x', rfl⟩ := List.exists_cons_of_ne_nil hx.1
    have hc := hs c (by simp)
    have hh : (p ++ '/' :: (c :: x') ++ "/../".toList ++ q).head? = (p ++ '/' :: q).head? := by
      cases p <;> rfl
    have h2 : ((p ++ '/' :: (c :: x') ++ "/../".toList ++ q).take 2 = ['/', '/'] ∧
        (p ++ '/' :: (c :: x') ++ "/../".toList ++ q).take 3 ≠ ['/', '/', '/']) ↔
        ((p ++ '/' :: q).take 2 = ['/', '/'] ∧ (p ++ '/' :: q).take 3 ≠ ['/', '/', '/']) := by
      match p with
      | [] => cases q <;> simp_all
      | [a] => cases q <;> simp_all
      | [a, b] => cases q <;> simp_all
      | a :: b :: d :: p => simp
    have e1 : p ++ '/' :: (c :: x') ++ "/../".toList ++ q ≠ [] := by simp
    have e2 : p ++ '/' :: q ≠ [] := by simp
    revert hh h2 hloop e1 e2
    generalize p ++ '/' :: (c :: x') ++ "/../".toList ++ q = A
    generalize p ++ '/' :: q = B
    intro hloop hh h2 e1 e2
    unfold normpath
    rw [if_neg e1, if_neg e2]
    simp only [hh, h2, hloop]
  rw [paramsFromDirString, paramsFromDirString, parseHead, parseHead, hext, if_neg ht, if_neg ht, hnorm]

example : GoodComp "x".toList ∧ ¬ "txt".toList <:+: extension ("/a".toList ++ '/' :: "foo-1".toList) ∧
    paramsFromDirString litMore (fun s => s) [.par ⟨"foo".toList, true, false, true, false⟩] "/a/x/../foo-1".toList =
      .ok ([("foo".toList, .atom (.str "1".toList))], "/a".toList) := by decide +kernel

/-- What the text of a value stands for: a literal, if it is one and has no `-` but a sign; a list, if it has a `-` elsewhere. -/
inductive Stands {L : Type} (lit : Str → Option L) : Str → Flat L → Prop
  | literal (v : Str) (x : L) (h : lit v = some x) (hv : '-' ∈ v → v.head? = some '-') : Stands lit v (.atom (.lit x))
  | digits (v : Str) (h : lit v = none) (hv : isNumeric v = true) : Stands lit v (.atom (.int (Nat.ofDigitChars 10 v 0)))
  | text (v : Str) (h : lit v = none) (hn : isNumeric v = false) (hv : '-' ∉ v ∨ v = ['-']) : Stands lit v (.atom (.str v))
  | parts (v : Str) (h : lit v = none ∨ v.head? ≠ some '-') (hv : '-' ∈ v) (h1 : v ≠ ['-']) :
      Stands lit v (.list ((split '-' v).map (deAtom lit)))

namespace Structures

theorem deValue_split {L : Type} (lit : Str → Option L) (v : Str) : deValue lit (split '-' v) =
    if '-' ∈ v ∧ v.head? ≠ some '-' then .list ((split '-' v).map (deAtom lit)) else deFlat lit v := by
  by_cases hd : '-' ∈ v
  · cases v with
    | nil => simp at hd
    | cons a w =>
      by_cases ha : a = '-'
      · subst ha
        have hj := join_split '-' ('-' :: w)
        rw [split_cons_self] at hj ⊢
        cases h : split '-' w with
        | nil => exact absurd h (split_ne_nil _ _)
        | cons x l => rw [h] at hj; simp [deValue, hj]
      · have hw : '-' ∈ w := by simpa [Ne.symm ha] using hd
        obtain ⟨b, c, rfl⟩ := List.append_of_mem hw
        obtain ⟨p, ps, h, h'⟩ := split_cons_ne ha (b ++ '-' :: c)
        rw [h']
        rw [split_append_cons] at h
        cases ps with
        | nil =>
          have hl := congrArg List.length h
          have h1 := List.length_pos_of_ne_nil (split_ne_nil '-' b)
          have h2 := List.length_pos_of_ne_nil (split_ne_nil '-' c)
          simp only [List.length_append, List.length_cons, List.length_nil] at hl
          omega
        | cons q qs => simp [deValue, ha]
  · rw [split_of_not_mem hd]
    simp [deValue, hd]

theorem not_isNumeric_of_dash {v : Str} (h : '-' ∈ v) : isNumeric v = false := by
  simp only [isNumeric, Bool.and_eq_false_iff]
  exact Or.inr (List.all_eq_false.mpr ⟨'-', h, by decide⟩)

theorem stands_deValue {L : Type} (lit : Str → Option L) (v : Str) : Stands lit v (deValue lit (split '-' v)) := by
  rw [deValue_split]
  by_cases hd : '-' ∈ v
  · by_cases hh : v.head? = some '-'
    · rw [if_neg (by simp [hh]), deFlat]
      cases hl : lit v with
      | some x => exact .literal v x hl fun _ => hh
      | none =>
        simp only [not_isNumeric_of_dash hd, Bool.false_eq_true, if_false]
        by_cases h1 : v = ['-']
        · rw [if_neg (by simp [h1])]
          exact .text v hl (not_isNumeric_of_dash hd) (Or.inr h1)
        · rw [if_pos]
          · exact .parts v (Or.inl hl) hd h1
          · refine ⟨hd, ?_⟩
            match v, hh, h1 with
            | [a], hh, h1 => simp at hh; simp [hh] at h1
            | a :: b :: l, _, _ => simp
    · rw [if_pos ⟨hd, hh⟩]
      exact .parts v (Or.inr hh) hd (by rintro rfl; simp at hh)
  · rw [if_neg (by simp [hd]), deFlat]
    cases hl : lit v with
    | some x => exact .literal v x hl fun h => absurd h hd
    | none =>
      cases hn : isNumeric v with
      | true => simpa using Stands.digits (lit := lit) v hl hn
      | false => simpa [hd] using Stands.text (lit := lit) v hl hn (Or.inl hd)

theorem stands_eq {L : Type} {lit : Str → Option L} {v : Str} {x : Flat L} (hx : Stands lit v x) : x = deValue lit (split '-' v) := by
  rw [deValue_split]
  cases hx with
  | literal x h hv => rw [if_neg fun h => h.2 (hv h.1)]; simp [deFlat, h]
  | digits h hv =>
    have hd : '-' ∉ v := fun hd => by simp [not_isNumeric_of_dash hd] at hv
    rw [if_neg (by simp [hd])]; simp [deFlat, h, hv]
  | text h hn hv =>
    rcases hv with hv | rfl
    · rw [if_neg (by simp [hv])]; simp [deFlat, h, hn, hv]
    · rw [if_neg (by simp)]; simp [deFlat, h, hn]
  | parts h hv h1 =>
    by_cases hh : v.head? = some '-'
    · rw [if_neg (by simp [hh])]
      have : 1 < v.length := by
        match v, hh, h1 with
        | [a], hh, h1 => simp at hh; simp [hh] at h1
        | a :: b :: l, _, _ => simp
      simp [deFlat, h.resolve_right (by simp [hh]), not_isNumeric_of_dash hv, hv, this]
    · rw [if_pos ⟨hv, hh⟩]

theorem splitParamsDeepLoop_eq {L : Type} (lit : Str → Option L) (ps : List Str) (d : PyDict Str Str) :
    splitParamsDeepLoop lit ps (d.map fun kv => (kv.1, some (deValue lit (split '-' kv.2)))) =
      (splitParamsLoop ps d).map fun d => d.map fun kv => (kv.1, some (deValue lit (split '-' kv.2))) := by
  have hset : ∀ (d : PyDict Str Str) (k v : Str), PyDict.set (d.map fun kv => (kv.1, some (deValue lit (split '-' kv.2)))) k
      (some (deValue lit (split '-' v))) = (PyDict.set d k v).map fun kv => (kv.1, some (deValue lit (split '-' kv.2))) := by
    intro d k v
    induction d with
    | nil => rfl
    | cons a d ih =>
      obtain ⟨a, b⟩ := a
      simp only [List.map_cons, PyDict.set]
      split
      · rfl
      · rw [List.map_cons, ← ih]
  have hval : ∀ p k v vs, split '-' p = k :: v :: vs → split '-' (join '-' (v :: vs)) = v :: vs := by
    intro p k v vs h
    exact split_join (by simp) fun q hq => not_mem_of_mem_split (s := p) (by rw [h]; exact List.mem_cons_of_mem _ hq)
  induction ps, d using splitParamsLoop.induct with
  | case1 d => simp [splitParamsDeepLoop, splitParamsLoop, Except.map]
  | case2 p d k v vs h =>
    have := hset d k (join '-' (v :: vs))
    rw [hval p k v vs h] at this
    simp only [splitParamsDeepLoop, splitParamsLoop, h, Except.map, this]
  | case3 p d h =>
    rw [splitParamsDeepLoop, splitParamsLoop]
    cases hs : split '-' p with
    | nil => rfl
    | cons a l =>
      cases l with
      | nil => rfl
      | cons b l => exact absurd hs (h a b l)
  | case4 p q rest d k v vs h ih =>
    have := hset d k (join '-' (v :: vs))
    rw [hval p k v vs h] at this
    rw [splitParamsDeepLoop, splitParamsLoop]
    simp only [h, this, ih]
  | case5 p q rest d h ih =>
    rw [splitParamsDeepLoop, splitParamsLoop]
    cases hs : split '-' p with
    | nil => exact ih
    | cons a l =>
      cases l with
      | nil => exact ih
      | cons b l => exact absurd hs (h a b l)

end Structures

/-- C84. With evaluation, a parameter string gives the same parameters in the same order, or the same exception; every value is what its
text stands for. -/
theorem C84_evaluated {L : Type} (lit : Str → Option L) (s : Str) :
    (∀ e, splitParams s = .error e → splitParamsDeep lit s = .error e) ∧
    (∀ d, splitParams s = .ok d → ∃ d', splitParamsDeep lit s = .ok d' ∧
      List.Forall₂ (fun kv kx => kx.1 = kv.1 ∧ (∀ v, kv.2 = some v → ∃ x, kx.2 = some x ∧ Stands lit v x) ∧ (kv.2 = none → kx.2 = none))
        d d') := by
  have key : splitParamsDeep lit s = (splitParams s).map fun d => d.map fun kv => (kv.1, kv.2.map fun v => deValue lit (split '-' v)) := by
    have hl := splitParamsDeepLoop_eq lit (split '_' s) []
    have hm : ∀ r : Py (PyDict Str Str), (r.map fun d => d.map fun kv => (kv.1, some (deValue lit (split '-' kv.2)))) =
        (r.map fun d => d.map fun kv => (kv.1, some kv.2)).map fun d => d.map fun kv => (kv.1, kv.2.map fun v => deValue lit (split '-' v)) := by
      intro r; cases r <;> simp [Except.map, List.map_map, Function.comp_def]
    rw [hm] at hl
    unfold splitParamsDeep splitParams
    cases hs : split '_' s with
    | nil => rw [hs] at hl; exact hl
    | cons p ps =>
      rw [hs] at hl
      cases ps with
      | nil =>
        by_cases hp : '-' ∈ p
        · simp only [hp, if_true]; exact hl
        · simp only [hp, if_false]; rfl
      | cons q qs => exact hl
  rw [key]
  refine ⟨fun e h => by rw [h]; rfl, fun d h => ⟨_, by rw [h]; rfl, ?_⟩⟩
  rw [List.forall₂_map_right_iff, List.forall₂_same]
  intro kv _
  refine ⟨rfl, fun v hv => ⟨_, by rw [hv]; rfl, stands_deValue lit v⟩, fun hv => by rw [hv]; rfl⟩

/-- C84. The text of a value stands for one thing. -/
theorem C84_evaluated_once {L : Type} (lit : Str → Option L) (v : Str) : ∃! x, Stands lit v x :=
  ⟨_, stands_deValue lit v, fun _ h => stands_eq h⟩

/-- The statement is not empty: `alpha--3` is −3 and `sizes-3-4` a list, where `lit` reads `-3` and `3`. -/
example : splitParamsDeep (fun s => if s = "-3".toList then some (-3 : ℤ) else if s = "3".toList then some 3 else none)
      "alpha--3_sizes-3-4".toList =
    .ok [("alpha".toList, some (.atom (.lit (-3)))), ("sizes".toList, some (.list [.lit 3, .int 4]))] := by
  decide +kernel

namespace Structures

theorem parseFld_transient {L : Type} (lit : Str → Option L) (repr : L → Str) (f : Fld) (s : St L) (h : (Fld.flags f).transient = true) :
    parseFld lit repr f s = .ok s := by
  cases f with
  | par p => rw [parseFld, if_pos (show p.transient = true from h)]; rfl
  | struct p g => rw [parseFld, if_pos (show p.transient = true from h)]; rfl

theorem parseFlds_transient {L : Type} (lit : Str → Option L) (repr : L → Str) (fs : List Fld) (s : St L) :
    parseFlds lit repr (fs.filter fun f => !(Fld.flags f).transient) s = parseFlds lit repr fs s := by
  induction fs with
  | nil => rfl
  | cons f fs ih =>
    cases h : (Fld.flags f).transient with
    | true =>
      rw [List.filter_cons_of_neg (by simp [h]), ih]
      conv_rhs => rw [parseFlds]
      cases parseFlds lit repr fs s with
      | error e => rfl
      | ok t => rw [ok_bind, parseFld_transient lit repr f t h]
    | false =>
      rw [List.filter_cons_of_pos (by simp [h]), parseFlds, parseFlds, ih]

end Structures

/-- C84. Transient fields do not matter when a directory is read, whatever their other flags. -/
theorem C84_transient {L : Type} (lit : Str → Option L) (repr : L → Str) (fs : List Fld) (h : ∃ f ∈ fs, (Fld.flags f).transient = false) (d : Str) :
    paramsFromDirString lit repr (fs.filter fun f => !(Fld.flags f).transient) d = paramsFromDirString lit repr fs d := by
  have h1 : hasKeyword (fs.filter fun f => !(Fld.flags f).transient) = hasKeyword fs := by
    rw [hasKeyword, List.any_filter, hasKeyword]
    congr 1
    funext f
    cases f <;> simp [Fld.flags]
  have h2 : npnkOf (fs.filter fun f => !(Fld.flags f).transient) = npnkOf fs := by
    have : ∀ f : Fld, ((!(Fld.flags f).positional && !(Fld.flags f).keyword && !(Fld.flags f).transient) && !(Fld.flags f).transient) =
        (!(Fld.flags f).positional && !(Fld.flags f).keyword && !(Fld.flags f).transient) := by
      intro f
      cases (Fld.flags f).positional <;> cases (Fld.flags f).keyword <;> cases (Fld.flags f).transient <;> rfl
    rw [npnkOf, List.filter_filter, npnkOf]
    simp only [this]
  have h3 : ∀ s : St L, parseTail (fs.filter fun f => !(Fld.flags f).transient) s = parseTail fs s := by
    intro s
    obtain ⟨f, hf, ht⟩ := h
    have e1 : (fs.filter fun f => !(Fld.flags f).transient).isEmpty = false := by
      rw [List.isEmpty_eq_false_iff]
      exact List.ne_nil_of_mem (List.mem_filter.mpr ⟨hf, by simp [ht]⟩)
    have e2 : fs.isEmpty = false := by
      rw [List.isEmpty_eq_false_iff]
      exact List.ne_nil_of_mem hf
    rw [parseTail, parseTail, e1, e2]
  have h4 : parseHead (L := L) (fs.filter fun f => !(Fld.flags f).transient) d = parseHead fs d := by
    rw [parseHead, parseHead, h1, h2]
  rw [paramsFromDirString, paramsFromDirString, h4]
  cases parseHead (L := L) fs d with
  | error e => rfl
  | ok t =>
    rw [ok_bind, ok_bind, parseFlds_transient]
    cases parseFlds lit repr fs t with
    | error e => rfl
    | ok t => rw [ok_bind, ok_bind, h3]

/-- The hypothesis of `C84_transient`: a transient parameter with keyword beside a positional one. -/
example : paramsFromDirString litMore (fun s => s)
    [.par ⟨"base".toList, true, true, false, false⟩, .par ⟨"note".toList, false, false, true, true⟩] "/a/b".toList =
      .ok ([("base".toList, .atom (.str "b".toList))], "/a".toList) := by
  rw [← C84_transient _ _ _ ⟨_, List.mem_cons_self, rfl⟩]
  decide +kernel

end Verif
