import Verif.Proofs.StructuresParse

/-!
# Writing a directory name and reading it back
-/

namespace Verif

open Str

namespace Structures

variable {L : Type} {lit : Str → Option L} {prev : Option Str} {repr : L → Str}

theorem mem_join {c x : Char} {ps : List Str} (h : x ∈ join c ps) : x = c ∨ ∃ p ∈ ps, x ∈ p := by
  induction ps with
  | nil => simp [join] at h
  | cons p ps ih =>
    cases ps with
    | nil => exact Or.inr ⟨p, by simp, h⟩
    | cons q qs =>
      rw [join_cons (ps := q :: qs) (by simp), List.mem_append, List.mem_cons] at h
      rcases h with h | h | h
      · exact Or.inr ⟨p, by simp, h⟩
      · exact Or.inl h
      · rcases ih h with h | ⟨r, hr, h⟩
        · exact Or.inl h
        · exact Or.inr ⟨r, List.mem_cons_of_mem _ hr, h⟩

theorem mem_join_of {c x : Char} {ps : List Str} {p : Str} (hp : p ∈ ps) (h : x ∈ p) : x ∈ join c ps := by
  induction ps with
  | nil => simp at hp
  | cons q ps ih =>
    cases ps with
    | nil => rw [List.mem_singleton] at hp; subst hp; exact h
    | cons r rs =>
      rw [join_cons (ps := r :: rs) (by simp), List.mem_append, List.mem_cons]
      rcases List.mem_cons.1 hp with rfl | hp
      · exact Or.inl h
      · exact Or.inr (Or.inr (ih hp))

/-- A string of kept characters with `-` or `_` is a component. -/
theorem goodComp_of_keep {s : Str} (h : ∀ c ∈ s, keepH c = true) (hne : s ≠ []) (h1 : s ≠ ['.']) (h2 : s ≠ ['.', '.']) : GoodComp s :=
  ⟨hne, fun e => absurd (h _ e) (by decide), h1, h2⟩

theorem goodComp_of_dash {s : Str} (h : ∀ c ∈ s, keepH c = true) {x : Char} (hx : x ∈ s) (hd : x ≠ '.') : GoodComp s := by
  refine goodComp_of_keep h ?_ ?_ ?_ <;> rintro rfl <;> simp [hd] at hx

theorem keep_formatItem {kv : Str × Str} (h1 : ∀ c ∈ kv.1, keepH c = true) (h2 : ∀ c ∈ kv.2, keepH c = true) :
    ∀ c ∈ formatItem kv, keepH c = true := by
  intro c hc
  rw [formatItem, List.mem_append, List.mem_cons] at hc
  rcases hc with hc | rfl | hc
  · exact h1 c hc
  · decide
  · exact h2 c hc

theorem npItems_length {fs : List Fld} {vs : List Val} (h : FldsGood lit prev fs vs) (hc : npnkOf fs ≠ .error .typeError) :
    (npItems fs vs).length ≤ 1 := by
  have e := npnkOf_eq h
  cases hn : npItems fs vs with
  | nil => simp
  | cons a l =>
    cases l with
    | nil => simp
    | cons b l => rw [hn] at e; exact absurd e hc

/-- The strings of the loose parameters with keyword, sorted. -/
theorem sorted_keep {fs : List Fld} {vs : List Val} (h : FldsGood lit prev fs vs) :
    ∀ p ∈ sortStr ((kwItems fs vs).map formatItem), '-' ∈ p ∧ ∀ c ∈ p, keepH c = true := by
  intro p hp
  have hp' : p ∈ (kwItems fs vs).map formatItem := (List.mergeSort_perm _ _).mem_iff.1 hp
  obtain ⟨kv, hkv, rfl⟩ := List.mem_map.1 hp'
  obtain ⟨-, -, -, h1, h2⟩ := kwItems_good h kv hkv
  exact ⟨by simp [formatItem], keep_formatItem h1 h2⟩

theorem keyComp_good {fs : List Fld} {vs : List Val} (h : FldsGood lit prev fs vs) : ∀ c ∈ keyComp fs vs, GoodComp c := by
  have hs := sorted_keep h
  have hm : ∀ x : Char, (x = '_' ∨ ∃ p ∈ sortStr ((kwItems fs vs).map formatItem), x ∈ p) → keepH x = true := by
    rintro x (rfl | ⟨p, hp, hx⟩)
    · decide
    · exact (hs p hp).2 x hx
  intro c hc
  rw [keyComp] at hc
  split at hc
  · rename_i hn
    split_ifs at hc with hk
    · simp at hc
    · rw [List.mem_singleton] at hc
      subst hc
      have hne : sortStr ((kwItems fs vs).map formatItem) ≠ [] := by
        intro e
        have := (List.mergeSort_perm ((kwItems fs vs).map formatItem) (· ≤ ·)).length_eq
        rw [sortStr] at e
        rw [e, List.length_map] at this
        exact hk (List.length_eq_zero_iff.1 this.symm)
      obtain ⟨p, hp⟩ := List.exists_mem_of_ne_nil _ hne
      exact goodComp_of_dash (x := '-') (fun x hx => hm x (mem_join hx)) (mem_join_of hp (hs p hp).1) (by decide)
  · rename_i nm s l hn
    rw [List.mem_singleton] at hc
    subst hc
    obtain ⟨p, -, hcl, -⟩ := npItems_good h (nm, s) (by rw [hn]; simp)
    by_cases hne : sortStr ((kwItems fs vs).map formatItem) = []
    · rw [hne]
      exact goodComp_of_keep hcl.2.2.2.2.1 hcl.2.2.2.1 hcl.2.2.2.2.2.1 hcl.2.2.2.2.2.2
    · obtain ⟨p, hp⟩ := List.exists_mem_of_ne_nil _ hne
      refine goodComp_of_dash (x := '-') ?_ (mem_join_of (List.mem_cons_of_mem _ hp) (hs p hp).1) (by decide)
      intro x hx
      rcases mem_join hx with hx | ⟨q, hq, hx'⟩
      · exact hm x (Or.inl hx)
      · rcases List.mem_cons.1 hq with rfl | hq
        · exact hcl.2.2.2.2.1 x hx'
        · exact hm x (Or.inr ⟨q, hq, hx'⟩)

theorem nonposString_eq {fs : List Fld} {vs : List Val} (h : FldsGood lit prev fs vs) (hc : npnkOf fs ≠ .error .typeError) :
    nonposString fs vs = .ok (pathStr 0 (keyComp fs vs)) := by
  have hl := npItems_length h hc
  rw [nonposString, nonposArgs_eq h none (by simpa using hl), ok_bind, keyComp]
  cases hn : npItems fs vs with
  | nil =>
    dsimp only
    by_cases hk : kwItems fs vs = []
    · rw [if_pos hk, hk, List.map_nil, show sortStr [] = [] from List.mergeSort_nil]; rfl
    · rw [if_neg hk]; rfl
  | cons a l => rfl

theorem pathStr_zero_ne {cs : List Str} (hne : cs ≠ []) (h : ∀ c ∈ cs, GoodComp c) : pathStr 0 cs ≠ [] :=
  (join_getLast hne h).2

theorem keyComp_cases (fs : List Fld) (vs : List Val) : keyComp fs vs = [] ∨ ∃ c, keyComp fs vs = [c] := by
  rw [keyComp]
  split
  · split_ifs
    · exact Or.inl rfl
    · exact Or.inr ⟨_, rfl⟩
  · exact Or.inr ⟨_, rfl⟩

theorem joinDirs_eq {fs : List Fld} {vs : List Val} (h : FldsGood lit prev fs vs) (hc : npnkOf fs ≠ .error .typeError)
    (ls : List (List Str)) (hls : ∀ l ∈ ls, l ≠ [] ∧ ∀ c ∈ l, GoodComp c) :
    joinDirs fs vs (ls.map (pathStr 0)) = .ok (pathStr 0 (ls.flatten ++ keyComp fs vs)) := by
  rw [joinDirs, nonposString_eq h hc, ok_bind]
  rcases keyComp_cases fs vs with e | ⟨c, e⟩
  · rw [e, if_pos (show pathStr 0 [] = [] from rfl), pathJoin_pathStr ls hls, List.append_nil]; rfl
  · have hg : GoodComp c := keyComp_good h c (by rw [e]; simp)
    rw [e, if_neg (pathStr_zero_ne (by simp) (by simpa using hg))]
    have : ls.map (pathStr 0) ++ [pathStr 0 [c]] = (ls ++ [[c]]).map (pathStr 0) := by simp
    rw [this, pathJoin_pathStr, List.flatten_append]
    · rfl
    · intro l hl
      rcases List.mem_append.1 hl with hl | hl
      · exact hls l hl
      · rw [List.mem_singleton] at hl; subst hl; exact ⟨by simp, by simpa using hg⟩

theorem parString_good {p : Par} {s : Str} (h : ParGood lit p s) : GoodComp (parString p s) := by
  have hcl := h.1
  cases hk : p.keyword with
  | true =>
    rw [parString_kw hk hcl]
    exact goodComp_of_dash (x := '-') (keep_formatItem hcl.2.2.1 hcl.2.2.2.2.1) (by simp [formatItem]) (by decide)
  | false =>
    rw [parString_nokw hk hcl]
    exact goodComp_of_keep hcl.2.2.2.2.1 hcl.2.2.2.1 hcl.2.2.2.2.2.1 hcl.2.2.2.2.2.2

mutual

theorem fldComps_ne (f : Fld) (v : Val) (h : fldPos f v ≠ []) : fldComps f v ≠ [] := by
  cases f with
  | par p =>
    cases v with
    | str s =>
      rw [fldPos] at h
      rw [fldComps]
      split_ifs at h ⊢
      · simp
      · simp at h
    | unset => simp [fldPos] at h
    | obj ws => simp [fldPos] at h
  | struct p g =>
    cases v with
    | obj ws =>
      rw [fldPos] at h
      rw [fldComps]
      by_cases ht : p.transient = true
      · rw [if_pos ht] at h; exact absurd rfl h
      · rw [if_neg ht] at h ⊢
        exact comps_ne g ws h
    | unset => simp [fldPos] at h
    | str s => simp [fldPos] at h

theorem posComps_ne (fs : List Fld) (vs : List Val) (h : posItems fs vs ≠ []) : comps fs vs ≠ [] := by
  cases fs with
  | nil => cases vs <;> simp [posItems] at h
  | cons f fs =>
    cases vs with
    | nil => simp [posItems] at h
    | cons v vs =>
      rw [posItems] at h
      rw [comps]
      intro e
      rw [List.append_eq_nil_iff] at e
      apply h
      rw [List.append_eq_nil_iff]
      constructor
      · by_contra hh; exact fldComps_ne f v hh e.1
      · by_contra hh; exact posComps_ne fs vs hh e.2

theorem comps_ne (fs : List Fld) (vs : List Val) (h : items fs vs ≠ []) : comps fs vs ++ keyComp fs vs ≠ [] := by
  intro e
  rw [List.append_eq_nil_iff] at e
  have hp : posItems fs vs = [] := by
    by_contra hh
    cases fs with
    | nil => cases vs <;> simp [posItems] at hh
    | cons f fs =>
      cases vs with
      | nil => simp [posItems] at hh
      | cons v vs =>
        rw [comps, List.append_eq_nil_iff] at e
        apply hh
        rw [posItems, List.append_eq_nil_iff]
        constructor
        · by_contra hh; exact fldComps_ne f v hh e.1.1
        · by_contra hh; exact posComps_ne fs vs hh e.1.2
  have hperm := items_perm fs vs
  have h2 := e.2
  rw [keyComp] at h2
  cases hn : npItems fs vs with
  | cons a l => rw [hn] at h2; simp at h2
  | nil =>
    rw [hn] at h2
    by_cases hk : kwItems fs vs = []
    · rw [hp, hn, hk] at hperm
      exact h hperm.eq_nil
    · dsimp only at h2; rw [if_neg hk] at h2; simp at h2

end

mutual

theorem fldArgs_eq (prev : Option Str) (f : Fld) (v : Val) (h : FldGood lit prev f v) :
    ∃ ls : List (List Str), fldArgs f v = .ok (ls.map (pathStr 0)) ∧ (∀ l ∈ ls, l ≠ [] ∧ ∀ c ∈ l, GoodComp c) ∧ ls.flatten = fldComps f v := by
  cases f with
  | par p =>
    cases v with
    | obj ws =>
      have ht := fldGood_obj h
      exact ⟨[], by simp [fldArgs, ht, pure_eq_ok], by simp, by simp [fldComps]⟩
    | unset =>
      refine ⟨[], ?_, by simp, by simp [fldComps]⟩
      rcases fldGood_unset h with ht | ht
      · simp [fldArgs, ht, pure_eq_ok]
      · simp [fldArgs, ht.1, pure_eq_ok]
    | str s =>
      by_cases ht : p.transient = true
      · exact ⟨[], by simp [fldArgs, ht, pure_eq_ok], by simp, by simp [fldComps, ht]⟩
      · have hg := (fldGood_str h).resolve_left ht
        by_cases hp : p.positional = true
        · refine ⟨[[parString p s]], ?_, ?_, ?_⟩
          · simp [fldArgs, ht, hp, pure_eq_ok, pathStr, join]
          · intro l hl
            rw [List.mem_singleton] at hl
            subst hl
            exact ⟨by simp, by simpa using parString_good hg⟩
          · simp [fldComps, ht, hp]
        · exact ⟨[], by simp [fldArgs, hp, pure_eq_ok], by simp, by simp [fldComps, hp]⟩
  | struct p g =>
    by_cases ht : p.transient = true
    · refine ⟨[], by simp [fldArgs, ht, pure_eq_ok], by simp, ?_⟩
      cases v <;> simp [fldComps, ht]
    · obtain ⟨hk, hp, ws, rfl, hg, hc⟩ := (fldGood_struct h).resolve_left ht
      obtain ⟨ls, e, hls, hf⟩ := dirArgs_eq prev g ws hg
      have hne := comps_ne g ws hc.2.2.1
      refine ⟨[comps g ws ++ keyComp g ws], ?_, ?_, ?_⟩
      · rw [fldArgs, if_neg ht]
        simp only [e, ok_bind, joinDirs_eq hg hc.1 ls hls, hk, hf]
        rfl
      · intro l hl
        rw [List.mem_singleton] at hl
        subst hl
        refine ⟨hne, fun c hc => ?_⟩
        rcases List.mem_append.1 hc with hc | hc
        · rw [← hf, List.mem_flatten] at hc
          obtain ⟨l, hl, hc⟩ := hc
          exact (hls l hl).2 c hc
        · exact keyComp_good hg c hc
      · simp [fldComps, ht]

theorem dirArgs_eq (prev : Option Str) (fs : List Fld) (vs : List Val) (h : FldsGood lit prev fs vs) :
    ∃ ls : List (List Str), dirArgs fs vs = .ok (ls.map (pathStr 0)) ∧ (∀ l ∈ ls, l ≠ [] ∧ ∀ c ∈ l, GoodComp c) ∧ ls.flatten = comps fs vs := by
  cases fs with
  | nil => exact ⟨[], by cases vs <;> rfl, by simp, by cases vs <;> simp [comps]⟩
  | cons f fs =>
    cases vs with
    | nil => simp [FldsGood] at h
    | cons v vs =>
      rw [FldsGood] at h
      obtain ⟨l1, e1, h1, f1⟩ := fldArgs_eq prev f v h.1
      obtain ⟨l2, e2, h2, f2⟩ := dirArgs_eq _ fs vs h.2
      refine ⟨l1 ++ l2, ?_, ?_, ?_⟩
      · rw [dirArgs, e1, ok_bind, e2, ok_bind, List.map_append]; rfl
      · intro l hl
        rcases List.mem_append.1 hl with hl | hl
        · exact h1 l hl
        · exact h2 l hl
      · rw [List.flatten_append, f1, f2, comps]

end

theorem comps_good {fs : List Fld} {vs : List Val} (h : FldsGood lit prev fs vs) : ∀ c ∈ comps fs vs, GoodComp c := by
  obtain ⟨ls, -, hls, hf⟩ := dirArgs_eq prev fs vs h
  intro c hc
  rw [← hf, List.mem_flatten] at hc
  obtain ⟨l, hl, hc⟩ := hc
  exact (hls l hl).2 c hc

/-- The directory name is the path of the components. -/
theorem dirString_eq {fs : List Fld} {vs : List Val} (h : FldsGood lit prev fs vs) (hc : npnkOf fs ≠ .error .typeError) :
    dirString fs vs = .ok (pathStr 0 (comps fs vs ++ keyComp fs vs)) := by
  obtain ⟨ls, e, hls, hf⟩ := dirArgs_eq prev fs vs h
  rw [dirString, e, ok_bind, joinDirs_eq h hc ls hls, hf]

/-! ### Reading -/

theorem extension_afterLast (k : ℕ) (cs : List Str) {c : Str} (hc : GoodComp c) : extension (pathStr k (cs ++ [c])) = extension c := by
  rw [extension, extension, afterLast_pathStr k cs hc, afterLast_of_not_mem hc.2.1]

theorem kwItems_par {fs : List Fld} {vs : List Val} {kv : Str × Str} (h : kv ∈ kwItems fs vs) : hasKeyword fs = true := by
  rw [hasKeyword, List.any_eq_true]
  induction fs generalizing vs with
  | nil => cases vs <;> simp [kwItems] at h
  | cons f fs ih =>
    cases vs with
    | nil => simp [kwItems] at h
    | cons v vs =>
      by_cases hh : kv ∈ kwItems fs vs
      · obtain ⟨x, hx, e⟩ := ih hh
        exact ⟨x, List.mem_cons_of_mem _ hx, e⟩
      · cases f with
        | struct p g =>
          have e2 : kwItems (.struct p g :: fs) (v :: vs) = kwItems fs vs := by cases v <;> rfl
          rw [e2] at h; exact absurd h hh
        | par p =>
          cases v with
          | unset => exact absurd h hh
          | obj ws => exact absurd h hh
          | str s =>
            rw [kwItems] at h
            split_ifs at h with hc
            · exact ⟨.par p, by simp, by simp [hc]⟩
            · exact absurd h hh

theorem loose_items {fs : List Fld} {vs : List Val} (h : ∃ fv ∈ fs.zip vs, ∃ p s, fv = (Fld.par p, Val.str s) ∧ Par.Loose p) :
    npItems fs vs ≠ [] ∨ kwItems fs vs ≠ [] := by
  induction fs generalizing vs with
  | nil => simp at h
  | cons f fs ih =>
    cases vs with
    | nil => simp at h
    | cons v vs =>
      obtain ⟨fv, hm, p, s, rfl, hl⟩ := h
      rw [List.zip_cons_cons, List.mem_cons] at hm
      rcases hm with hm | hm
      · rw [Prod.mk.injEq] at hm
        obtain ⟨rfl, rfl⟩ := hm
        cases hk : p.keyword with
        | true => right; rw [kwItems, if_pos ⟨hl.2, hl.1, hk⟩]; simp
        | false => left; rw [npItems, if_pos ⟨hl.2, hl.1, hk⟩]; simp
      · have hi := ih ⟨_, hm, p, s, rfl, hl⟩
        cases f with
        | struct p g =>
          have e1 : npItems (.struct p g :: fs) (v :: vs) = npItems fs vs := by cases v <;> rfl
          have e2 : kwItems (.struct p g :: fs) (v :: vs) = kwItems fs vs := by cases v <;> rfl
          rw [e1, e2]; exact hi
        | par p =>
          cases v with
          | unset => exact hi
          | obj ws => exact hi
          | str s =>
            rw [npItems, kwItems]
            split_ifs <;> simp_all

/-- What the first part of reading does. -/
theorem parseHead_eq {fs : List Fld} {vs : List Val} (h : FldsGood lit prev fs vs) (hc : ClassGood fs vs) {k : ℕ} (hk : k ≤ 2)
    {cs : List Str} (hcs : ∀ c ∈ cs, GoodComp c) (hx : ∀ c ∈ comps fs vs ++ keyComp fs vs, ¬ "txt".toList <:+: extension c) :
    ∃ t : St L, parseHead fs (pathStr k (cs ++ (comps fs vs ++ keyComp fs vs))) = .ok t ∧
      t.dir = pathStr k (cs ++ comps fs vs) ∧ t.npnk = none ∧ (PyDict.keys t.params).Nodup ∧
      ∀ n, t.params.get? n = PyDict.get? (asPV (npItems fs vs ++ kwItems fs vs)) n := by
  have hne := comps_ne fs vs hc.2.2.1
  have hgood : ∀ c ∈ cs ++ (comps fs vs ++ keyComp fs vs), GoodComp c := by
    intro c hm
    rcases List.mem_append.1 hm with hm | hm
    · exact hcs c hm
    · rcases List.mem_append.1 hm with hm | hm
      · exact comps_good h c hm
      · exact keyComp_good h c hm
  have hnorm : normpath (if "txt".toList <:+: extension (pathStr k (cs ++ (comps fs vs ++ keyComp fs vs))) then
      (pathSplit (pathStr k (cs ++ (comps fs vs ++ keyComp fs vs)))).1 else pathStr k (cs ++ (comps fs vs ++ keyComp fs vs))) =
      pathStr k (cs ++ (comps fs vs ++ keyComp fs vs)) := by
    obtain ⟨ds, c, e⟩ : ∃ ds c, comps fs vs ++ keyComp fs vs = ds ++ [c] :=
      ⟨_, _, (List.dropLast_append_getLast hne).symm⟩
    have hcg : GoodComp c := hgood c (by rw [e]; simp)
    rw [if_neg]
    · exact normpath_pathStr hk hgood (Or.inr (by simp [hne]))
    · rw [e, ← List.append_assoc, extension_afterLast k _ hcg]
      exact hx c (by rw [e]; simp)
  have hnodup : ((npItems fs vs ++ kwItems fs vs).map Prod.fst).Nodup := by
    have hp := ((items_perm fs vs).map Prod.fst).nodup_iff.1 hc.2.2.2
    rw [List.map_append, List.nodup_append] at hp
    exact hp.2.1
  have hpre : ∀ c ∈ cs ++ comps fs vs, GoodComp c := fun c hm => hgood c (by
    rw [← List.append_assoc]; exact List.mem_append_left _ hm)
  have hnp := npnkOf_eq h
  have hl := npItems_length h hc.1
  obtain ⟨m, hm, hs⟩ := sortStr_map (kwItems fs vs)
  rw [parseHead]
  simp only [hnorm, hnp]
  by_cases hkw : hasKeyword fs = true
  · have hloose := loose_items (hc.2.1 hkw)
    simp only [hkw, if_true]
    cases hn : npItems fs vs with
    | nil =>
      rw [hn] at hnodup
      have hkne : kwItems fs vs ≠ [] := hloose.resolve_left fun e => e hn
      have hkey : keyComp fs vs = [join '_' (m.map formatItem)] := by
        rw [keyComp, hn]; dsimp only; rw [if_neg hkne, hs]
      have hmne : m ≠ [] := fun e => hkne (by rw [e] at hm; exact hm.symm.eq_nil)
      have hmg : ∀ kv ∈ m, '-' ∉ kv.1 ∧ '_' ∉ kv.2 := fun kv hkv => by
        obtain ⟨-, h1, h2, -⟩ := kwItems_good h kv (hm.mem_iff.1 hkv)
        exact ⟨h1, h2⟩
      have hmd : (m.map Prod.fst).Nodup := (hm.map Prod.fst).nodup_iff.2 hnodup
      have hsp : pathSplit (pathStr k (cs ++ (comps fs vs ++ keyComp fs vs))) =
          (pathStr k (cs ++ comps fs vs), join '_' (m.map formatItem)) := by
        rw [← List.append_assoc, hkey]
        exact pathSplit_pathStr k _ hpre (keyComp_good h _ (by rw [hkey]; simp))
      simp only [ok_bind, hsp, C72_split_params_roundtrip m hmne hmg hmd, pure_eq_ok]
      refine ⟨_, rfl, rfl, rfl, ?_, ?_⟩
      · simpa [PyDict.keys, Function.comp_def] using hmd
      · intro n
        rw [List.nil_append]
        rw [get?_asPV, ← get?_perm hm hmd, ← get?_asPV]
        simp only [asPV, List.map_map, Function.comp_def]
    | cons a l =>
      have : l = [] := by rw [hn] at hl; simpa using hl
      subst this
      obtain ⟨nm, s⟩ := a
      rw [hn] at hnodup
      obtain ⟨p, hpn, hcl, hus⟩ := npItems_good h (nm, s) (by rw [hn]; simp)
      have hkey : keyComp fs vs = [join '_' (s :: m.map formatItem)] := by
        rw [keyComp, hn, hs]
      have hmg : ∀ kv ∈ (nm, s) :: m, '-' ∉ kv.1 ∧ '_' ∉ kv.2 := fun kv hkv => by
        rcases List.mem_cons.1 hkv with rfl | hkv
        · exact ⟨by rw [← hpn]; exact hcl.2.1, hus⟩
        · obtain ⟨-, h1, h2, -⟩ := kwItems_good h kv (hm.mem_iff.1 hkv)
          exact ⟨h1, h2⟩
      have hperm : ((nm, s) :: m).Perm ([(nm, s)] ++ kwItems fs vs) := hm.cons _
      have hmd : (((nm, s) :: m).map Prod.fst).Nodup := (hperm.map Prod.fst).nodup_iff.2 hnodup
      have hsp : pathSplit (pathStr k (cs ++ (comps fs vs ++ keyComp fs vs))) =
          (pathStr k (cs ++ comps fs vs), join '_' (s :: m.map formatItem)) := by
        rw [← List.append_assoc, hkey]
        exact pathSplit_pathStr k _ hpre (keyComp_good h _ (by rw [hkey]; simp))
      have hj : nm ++ '-' :: join '_' (s :: m.map formatItem) = join '_' (((nm, s) :: m).map formatItem) := by
        rw [List.map_cons]
        by_cases hmn : m.map formatItem = []
        · rw [hmn]; rfl
        · rw [join_cons hmn, join_cons hmn, formatItem]; simp
      simp only [ok_bind, hsp, hj, C72_split_params_roundtrip ((nm, s) :: m) (by simp) hmg hmd, pure_eq_ok]
      refine ⟨_, rfl, rfl, rfl, ?_, ?_⟩
      · simpa [PyDict.keys, Function.comp_def] using hmd
      · intro n
        rw [get?_asPV, ← get?_perm hperm hmd, ← get?_asPV]
        simp only [asPV, List.map_map, Function.comp_def]
  · have hkn : kwItems fs vs = [] := by
      by_contra hh
      obtain ⟨kv, hkv⟩ := List.exists_mem_of_ne_nil _ hh
      exact hkw (kwItems_par hkv)
    simp only [hkw, hkn, List.append_nil]
    cases hn : npItems fs vs with
    | nil =>
      have hkey : keyComp fs vs = [] := by rw [keyComp, hn]; simp [hkn]
      simp only [ok_bind, hkey, List.append_nil, pure_eq_ok]
      refine ⟨_, rfl, rfl, rfl, ?_, ?_⟩
      · simp [PyDict.keys]
      · intro n; rfl
    | cons a l =>
      have : l = [] := by rw [hn] at hl; simpa using hl
      subst this
      obtain ⟨nm, s⟩ := a
      have hkey : keyComp fs vs = [s] := by
        rw [keyComp, hn, hkn]; simp [sortStr, join]
      have hsp : pathSplit (pathStr k (cs ++ (comps fs vs ++ keyComp fs vs))) = (pathStr k (cs ++ comps fs vs), s) := by
        rw [← List.append_assoc, hkey]
        exact pathSplit_pathStr k _ hpre (keyComp_good h _ (by rw [hkey]; simp))
      simp only [ok_bind, hsp, pure_eq_ok]
      refine ⟨_, rfl, rfl, rfl, ?_, ?_⟩
      · simp [PyDict.keys]
      · intro n; rfl

theorem isNumeric_dash {s : Str} (h : '-' ∈ s) : isNumeric s = false := by
  rw [isNumeric, Bool.and_eq_false_iff]
  right
  rw [List.all_eq_false]
  exact ⟨'-', h, by decide⟩

theorem deAtom_plain {s : Str} (h : Plain lit s) : deAtom lit s = .str s := by
  simp [deAtom, h.1, h.2]

/-- A positional parameter with keyword is recognised. -/
theorem positionalValue_eq {p : Par} {s : Str} (h : ParGood lit p s) (hp : p.positional = true) (hk : p.keyword = true) :
    positionalValue lit repr p (parString p s) = .ok (some (.atom (.str s))) := by
  obtain ⟨hcl, -, h3⟩ := h
  obtain ⟨hu, hus, hds, hpn, hps, hl⟩ := h3 hp hk
  have e : parString p s = p.name ++ '-' :: s := parString_kw hk hcl
  have hdash : '-' ∈ p.name ++ '-' :: s := by simp
  have hund : '_' ∉ p.name ++ '-' :: s := by
    rw [List.mem_append, List.mem_cons]
    rintro (h | h | h)
    · exact hu h
    · exact absurd h (by decide)
    · exact hus h
  have hlen : 1 < (p.name ++ '-' :: s).length := by
    have := List.length_pos_iff.2 hcl.1
    simp; omega
  have hds : deString lit (p.name ++ '-' :: s) = .ok (.flat (.list [.str p.name, .str s])) := by
    rw [deString, hl]
    simp only [hund, if_false]
    rw [deFlat, hl]
    simp only [isNumeric_dash hdash, hdash, hlen]
    simp [split_append_cons, split_of_not_mem hcl.2.1, split_of_not_mem hds, deAtom_plain hpn, deAtom_plain hps, pure_eq_ok]
  rw [positionalValue, e, hds, ok_bind]
  simp [Atom.isStr, pure_eq_ok]

/-- Another component is not taken for a positional parameter with keyword. -/
theorem positionalValue_other {p : Par} {c : Str} (hr : p.required = false) (hg : GoodComp c) (h : Other lit p c) :
    positionalValue lit repr p c = .ok none := by
  obtain ⟨hpl, hu, hpre, hhd⟩ := h
  rw [positionalValue, deString, hpl.1]
  simp only [hu, if_false, pure_eq_ok, ok_bind, deFlat, hpl.1, hpl.2, hr, Bool.false_eq_true]
  by_cases hd : '-' ∈ c ∧ 1 < c.length
  · rw [if_pos hd]
    obtain ⟨a, b, e, ha⟩ := exists_first_part hd.1
    rw [e, split_append_cons, split_of_not_mem ha]
    have hne : (deAtom lit a).isStr p.name = false := by
      rw [deAtom]
      split
      · rfl
      · split_ifs
        · rfl
        · simp only [Atom.isStr, decide_eq_false_iff_not]
          intro ea
          exact hpre ⟨b, by rw [← ea, e]; simp⟩
    simp only [List.singleton_append, List.map_cons, hne, if_true]
  · rw [if_neg hd]
    cases c with
    | nil => exact absurd rfl hg.1
    | cons x xs =>
      have : [x] ≠ p.name := fun e => hhd x e.symm rfl
      simp only [ne_eq, this, not_false_eq_true, if_true]

theorem kwItems_cons (f : Fld) (v : Val) (fs : List Fld) (vs : List Val) :
    kwItems (f :: fs) (v :: vs) = kwItems [f] [v] ++ kwItems fs vs := by
  cases f with
  | struct p g => cases v <;> rfl
  | par p =>
    cases v with
    | unset => rfl
    | obj ws => rfl
    | str s =>
      rw [kwItems, kwItems, show kwItems [] [] = [] from rfl]
      split_ifs <;> rfl

theorem npItems_cons (f : Fld) (v : Val) (fs : List Fld) (vs : List Val) :
    npItems (f :: fs) (v :: vs) = npItems [f] [v] ++ npItems fs vs := by
  cases f with
  | struct p g => cases v <;> rfl
  | par p =>
    cases v with
    | unset => rfl
    | obj ws => rfl
    | str s =>
      rw [npItems, npItems, show npItems [] [] = [] from rfl]
      split_ifs <;> rfl

/-- What a loop over fields does: it takes the components off the path and adds the parameters. -/
def LoopSpec (prev : Option Str) (run : St L → Py (St L)) (cmps : List Str) (pos np kw : List (Str × Str)) : Prop :=
  ∀ (k : ℕ) (cs : List Str) (s : St L), k ≤ 2 → (∀ c ∈ cs, GoodComp c) →
    (∀ c, prev = some c → cs.getLast? = some c) → (∀ c ∈ cmps, ¬ "txt".toList <:+: extension c) →
    s.dir = pathStr k (cs ++ cmps) → (PyDict.keys s.params).Nodup → (∀ kv ∈ kw, (s.params.get? kv.1).isSome = true) →
    ∃ t, run s = .ok t ∧ t.dir = pathStr k cs ∧ (PyDict.keys t.params).Nodup ∧
      (∀ n, t.params.get? n = (PyDict.get? (asPV pos) n).or (s.params.get? n)) ∧
      (t.npnk = s.npnk ∨ ∃ n x, t.npnk = some n ∧ (n, x) ∈ np)

theorem class_eq {fs : List Fld} {vs : List Val} (h : FldsGood lit prev fs vs) (hc : ClassGood fs vs)
    (hloop : LoopSpec prev (parseFlds lit repr fs) (comps fs vs) (posItems fs vs) (npItems fs vs) (kwItems fs vs))
    {k : ℕ} (hk : k ≤ 2) {cs : List Str} (hcs : ∀ c ∈ cs, GoodComp c)
    (hpv : ∀ c, prev = some c → cs.getLast? = some c)
    (hx : ∀ c ∈ comps fs vs ++ keyComp fs vs, ¬ "txt".toList <:+: extension c) :
    ∃ ps, paramsFromDirString lit repr fs (pathStr k (cs ++ (comps fs vs ++ keyComp fs vs))) = .ok (ps, pathStr k cs) ∧
      (PyDict.keys ps).Nodup ∧ ∀ n, PyDict.get? ps n = PyDict.get? (asPV (items fs vs)) n := by
  obtain ⟨t, e, hd, hn, hnd, hg⟩ := parseHead_eq h hc hk hcs hx
  have hkw : ∀ kv ∈ npItems fs vs ++ kwItems fs vs, (t.params.get? kv.1).isSome = true := by
    intro kv hkv
    rw [hg, Option.isSome_iff_exists, PyDict.get?_isSome, keys_asPV]
    exact List.mem_map_of_mem hkv
  obtain ⟨u, e2, hd2, hnd2, hg2, hnp⟩ := hloop k cs t hk hcs hpv (fun c hm => hx c (List.mem_append_left _ hm)) hd hnd
    fun kv hm => hkw kv (List.mem_append_right _ hm)
  have hperm := items_perm fs vs
  have hres : ∀ n, u.params.get? n = PyDict.get? (asPV (items fs vs)) n := by
    intro n
    rw [hg2, hg, ← get?_append, ← asPV_append, get?_asPV, get?_asPV, get?_perm hperm hc.2.2.2]
  have hfs : fs.isEmpty = false := by
    cases fs with
    | nil => exact absurd (by cases vs <;> simp [items]) hc.2.2.1
    | cons => rfl
  refine ⟨u.params, ?_, hnd2, hres⟩
  rw [paramsFromDirString, e, ok_bind, e2, ok_bind, parseTail, hfs]
  rcases hnp with hnp | ⟨n, x, hnp, hm⟩
  · rw [hnp, hn, hd2]; rfl
  · rw [hnp]
    have : (u.params.get? n).isSome = true := by
      rw [hres, Option.isSome_iff_exists, PyDict.get?_isSome, keys_asPV]
      have : (n, x) ∈ items fs vs := hperm.mem_iff.2 (by simp [hm])
      exact List.mem_map_of_mem (f := Prod.fst) this
    simp only [this, if_true, hd2, pure_eq_ok]
    rfl

/-- The last component after a field is the one that was written last. -/
theorem last_fldComps {f : Fld} {v : Val} (h : FldGood lit prev f v) {cs : List Str} (hpv : ∀ c, prev = some c → cs.getLast? = some c) :
    ∀ c, lastWritten prev f v = some c → (cs ++ fldComps f v).getLast? = some c := by
  intro c hc
  cases f with
  | struct p g =>
    rw [lastWritten] at hc
    by_cases ht : p.transient = true
    · rw [if_pos ht] at hc
      have e1 : fldComps (.struct p g) v = [] := by cases v <;> simp [fldComps, ht]
      rw [e1, List.append_nil]; exact hpv c hc
    · rw [if_neg ht] at hc; exact absurd hc (by simp)
  | par p =>
    cases v with
    | unset => rw [show fldComps (.par p) .unset = [] by simp [fldComps], List.append_nil]; exact hpv c hc
    | obj ws => rw [show fldComps (.par p) (.obj ws) = [] by simp [fldComps], List.append_nil]; exact hpv c hc
    | str s =>
      rw [lastWritten] at hc
      rw [fldComps]
      by_cases hh : p.transient = false ∧ p.positional = true
      · rw [if_pos hh] at hc ⊢
        obtain ⟨hcl, -⟩ := (fldGood_str h).resolve_left (by simp [hh.1])
        have e : component p s = parString p s := by
          rw [component]
          by_cases hk : p.keyword = true
          · rw [if_pos hk, parString_kw hk hcl]; rfl
          · rw [if_neg hk, parString_nokw (by simpa using hk) hcl]
        rw [Option.some.injEq] at hc
        rw [← hc, e]; simp
      · rw [if_neg hh] at hc ⊢
        rw [List.append_nil]; exact hpv c hc

mutual

theorem parseFld_eq (prev : Option Str) (f : Fld) (v : Val) (h : FldGood lit prev f v) :
    LoopSpec prev (parseFld lit repr f) (fldComps f v) (fldPos f v) (npItems [f] [v]) (kwItems [f] [v]) := by
  intro k cs s hk hcs hpv hx hd hnd hkw
  cases f with
  | par p =>
    rw [parseFld]
    by_cases ht : p.transient = true
    · rw [if_pos ht]
      have e1 : fldComps (.par p) v = [] := by cases v <;> simp [fldComps, ht]
      have e2 : fldPos (.par p) v = [] := by cases v <;> simp [fldPos, ht]
      rw [e1, List.append_nil] at hd
      exact ⟨s, rfl, hd, hnd, fun n => by rw [e2]; rfl, Or.inl rfl⟩
    · rw [if_neg ht]
      have htf : p.transient = false := by simpa using ht
      cases v with
      | obj ws => exact absurd (fldGood_obj h) ht
      | unset =>
        obtain ⟨h1, h2, h3⟩ := (fldGood_unset h).resolve_left ht
        rw [show fldComps (.par p) .unset = [] by simp [fldComps], List.append_nil] at hd
        rw [show fldPos (.par p) .unset = [] from rfl]
        by_cases hp : p.positional = true
        · rw [if_pos hp]
          obtain ⟨c, hc, ho⟩ := h3 hp
          obtain ⟨ds, rfl⟩ := List.getLast?_eq_some_iff.1 (hpv c hc)
          have hsp : pathSplit s.dir = (pathStr k ds, c) := by
            rw [hd]; exact pathSplit_pathStr k ds (fun x hx => hcs x (List.mem_append_left _ hx)) (hcs c (by simp))
          have hj : pathJoin2 (pathStr k ds) c = pathStr k (ds ++ [c]) := by
            have := pathJoin2_pathStr k (cs := ds) (ds := [c]) (fun x hx => hcs x (List.mem_append_left _ hx))
              (by simpa using hcs c (by simp)) (by simp)
            exact this
          rw [hsp]
          simp only [h2, if_true, positionalValue_other (repr := repr) h1 (hcs c (by simp)) ho, ok_bind, pure_eq_ok]
          exact ⟨_, rfl, hj, hnd, fun n => rfl, Or.inl rfl⟩
        rw [if_neg hp, if_pos h2]
        split_ifs with hh hr
        · exact ⟨_, rfl, hd, hnd, fun n => rfl, Or.inl rfl⟩
        · rw [h1] at hr; exact absurd hr.1 (by simp)
        · exact ⟨_, rfl, hd, hnd, fun n => rfl, Or.inl rfl⟩
      | str x =>
        have hg := (fldGood_str h).resolve_left ht
        by_cases hp : p.positional = true
        · rw [if_pos hp]
          have e1 : fldComps (.par p) (.str x) = [parString p x] := by simp [fldComps, htf, hp]
          have e2 : fldPos (.par p) (.str x) = [(p.name, x)] := by simp [fldPos, htf, hp]
          rw [e1] at hd
          have hsp : pathSplit s.dir = (pathStr k cs, parString p x) := by
            rw [hd]; exact pathSplit_pathStr k cs hcs (parString_good hg)
          have hget : ∀ n, PyDict.get? (PyDict.set s.params p.name (PV.atom (L := L) (.str x))) n =
              (PyDict.get? (asPV [(p.name, x)]) n).or (s.params.get? n) := by
            intro n
            rw [get?_set]
            simp only [asPV, List.map_cons, List.map_nil, PyDict.get?]
            split_ifs <;> rfl
          rw [hsp, e2]
          by_cases hkk : p.keyword = true
          · simp only [hkk, if_true, positionalValue_eq (repr := repr) hg hp hkk, ok_bind, pure_eq_ok]
            exact ⟨_, rfl, rfl, PyDict.nodup_keys_set hnd, hget, Or.inl rfl⟩
          · have : p.keyword = false := by simpa using hkk
            have e3 : parString p x = x := parString_nokw this hg.1
            simp only [this, Bool.false_eq_true, if_false, e3, pure_eq_ok]
            exact ⟨_, rfl, rfl, PyDict.nodup_keys_set hnd, hget, Or.inl rfl⟩
        · have hpf : p.positional = false := by simpa using hp
          rw [if_neg hp]
          have e1 : fldComps (.par p) (.str x) = [] := by simp [fldComps, hpf]
          have e2 : fldPos (.par p) (.str x) = [] := by simp [fldPos, hpf]
          rw [e1, List.append_nil] at hd
          rw [e2]
          by_cases hkk : p.keyword = true
          · have hs := hkw (p.name, x) (by rw [kwItems, if_pos ⟨htf, hpf, hkk⟩]; simp)
            rw [if_pos hkk]
            split_ifs with hh hr
            · exact ⟨_, rfl, hd, hnd, fun n => rfl, Or.inl rfl⟩
            · rw [Option.isNone_iff_eq_none] at hr
              rw [hr.2] at hs
              exact absurd hs (by simp)
            · exact ⟨_, rfl, hd, hnd, fun n => rfl, Or.inl rfl⟩
          · have hkf : p.keyword = false := by simpa using hkk
            rw [if_neg hkk]
            refine ⟨_, rfl, hd, hnd, fun n => rfl, Or.inr ⟨p.name, x, rfl, ?_⟩⟩
            rw [npItems, if_pos ⟨htf, hpf, hkf⟩]; simp
  | struct p g =>
    rw [parseFld]
    by_cases ht : p.transient = true
    · rw [if_pos ht]
      have e1 : fldComps (.struct p g) v = [] := by cases v <;> simp [fldComps, ht]
      have e2 : fldPos (.struct p g) v = [] := by cases v <;> simp [fldPos, ht]
      rw [e1, List.append_nil] at hd
      exact ⟨s, rfl, hd, hnd, fun n => by rw [e2]; rfl, Or.inl rfl⟩
    · rw [if_neg ht]
      obtain ⟨hkk, hp, ws, rfl, hg, hc⟩ := (fldGood_struct h).resolve_left ht
      have e1 : fldComps (.struct p g) (.obj ws) = comps g ws ++ keyComp g ws := by simp [fldComps, ht]
      have e2 : fldPos (.struct p g) (.obj ws) = items g ws := by simp [fldPos, ht]
      rw [e1] at hd hx
      obtain ⟨ps, e, hpd, hpg⟩ := class_eq hg hc (parseFlds_eq prev g ws hg) hk hcs hpv hx
      rw [paramsFromDirString] at e
      simp only [hd, e]
      obtain ⟨hu1, hu2⟩ := updateAll_spec s.params ps hpd hnd
      refine ⟨_, rfl, rfl, hu1, ?_, Or.inl rfl⟩
      intro n
      rw [hu2, hpg, e2]

theorem parseFlds_eq (prev : Option Str) (fs : List Fld) (vs : List Val) (h : FldsGood lit prev fs vs) :
    LoopSpec prev (parseFlds lit repr fs) (comps fs vs) (posItems fs vs) (npItems fs vs) (kwItems fs vs) := by
  intro k cs s hk hcs hpv hx hd hnd hkw
  cases fs with
  | nil =>
    cases vs with
    | cons v vs => simp [FldsGood] at h
    | nil =>
      rw [show comps [] [] = [] by simp [comps], List.append_nil] at hd
      exact ⟨s, rfl, hd, hnd, fun n => rfl, Or.inl rfl⟩
  | cons f fs =>
    cases vs with
    | nil => simp [FldsGood] at h
    | cons v vs =>
      rw [FldsGood] at h
      rw [comps] at hd hx
      rw [kwItems_cons] at hkw
      have hcg : ∀ c ∈ cs ++ fldComps f v, GoodComp c := by
        obtain ⟨ls, -, hls, hf⟩ := fldArgs_eq prev f v h.1
        intro c hc
        rcases List.mem_append.1 hc with hc | hc
        · exact hcs c hc
        · rw [← hf, List.mem_flatten] at hc
          obtain ⟨l, hl, hc⟩ := hc
          exact (hls l hl).2 c hc
      obtain ⟨t, e, hd1, hnd1, hg1, hn1⟩ := parseFlds_eq _ fs vs h.2 k (cs ++ fldComps f v) s hk hcg (last_fldComps h.1 hpv)
        (fun c hc => hx c (List.mem_append_right _ hc)) (by rw [hd, List.append_assoc]) hnd
        fun kv hm => hkw kv (List.mem_append_right _ hm)
      obtain ⟨u, e', hd2, hnd2, hg2, hn2⟩ := parseFld_eq prev f v h.1 k cs t hk hcs hpv
        (fun c hc => hx c (List.mem_append_left _ hc)) hd1 hnd1 (fun kv hm => by
          rw [hg1]
          have := hkw kv (List.mem_append_left _ hm)
          cases PyDict.get? (asPV (L := L) (posItems fs vs)) kv.1 <;> simp [this])
      refine ⟨u, ?_, hd2, hnd2, ?_, ?_⟩
      · rw [parseFlds, e, ok_bind]; exact e'
      · intro n
        rw [hg2, hg1, posItems, asPV_append, get?_append, Option.or_assoc]
      · rw [npItems_cons]
        rcases hn2 with hn2 | ⟨n, x, hn2, hm⟩
        · rw [hn2]
          rcases hn1 with hn1 | ⟨n, x, hn1, hm⟩
          · exact Or.inl hn1
          · exact Or.inr ⟨n, x, hn1, List.mem_append_right _ hm⟩
        · exact Or.inr ⟨n, x, hn2, List.mem_append_left _ hm⟩

end

end Structures

end Verif
