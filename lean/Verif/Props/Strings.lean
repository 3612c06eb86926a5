import Verif.Proofs.Strings

/-!
# C71 to C73: names with numbers and parameters
-/

namespace Verif
open Str

/-! ## Specification -/

/-- The part of a string after the last `c`. -/
def lastField (c : Char) (s : Str) : Str := (s.reverse.takeWhile (· ≠ c)).reverse

/-- A name that is not mistaken for a name with a number: its last `-` field is neither empty nor a number. -/
def PlainName (n : Str) : Prop := n = [] ∨ (lastField '-' n ≠ [] ∧ ∀ z, pyInt (lastField '-' n) ≠ .ok z)

/-- Dictionary built by assigning in order. -/
def assignAll (items : List (Str × Str)) : PyDict Str Str := items.foldl (fun d kv => d.set kv.1 kv.2) []

theorem lastField_append {c : Char} (a : Str) {b : Str} (h : c ∉ b) : lastField c (a ++ c :: b) = b := by
  have hb : ∀ x ∈ b.reverse, decide (x ≠ c) = true := fun x hx => by
    simp only [decide_eq_true_eq]; rintro rfl; exact h (by simpa using hx)
  rw [lastField, List.reverse_append, List.reverse_cons, List.append_assoc, List.takeWhile_append_of_pos hb]
  simp

theorem lastField_of_not_mem {c : Char} {b : Str} (h : c ∉ b) : lastField c b = b := by
  have hb : ∀ x ∈ b.reverse, decide (x ≠ c) = true := fun x hx => by
    simp only [decide_eq_true_eq]; rintro rfl; exact h (by simpa using hx)
  have := List.takeWhile_append_of_pos (l₂ := []) hb
  rw [List.append_nil, List.takeWhile_nil, List.append_nil] at this
  rw [lastField, this, List.reverse_reverse]

/-! ## C71: protocol strings -/

namespace Str

theorem protocolPart_dash (a : Str) {b : Str} (h : '-' ∉ b) :
    protocolPart (a ++ '-' :: b) = if b = [] then (a, 0) else
      match pyInt b with
      | .ok n => (a, n)
      | .error _ => (a ++ '-' :: b, 0) := by
  obtain ⟨h1, h2⟩ := getLast?_split_append '-' a b h
  simp only [protocolPart, h1, h2, join_split]
  rfl

theorem protocolPart_nodash {b : Str} (h : '-' ∉ b) :
    protocolPart b = if b = [] then ([], 0) else
      match pyInt b with
      | .ok n => ([], n)
      | .error _ => (b, 0) := by
  simp [protocolPart, split_of_not_mem h, join]
  rfl

theorem protocolPart_dash_ofNat (a : Str) (n : ℕ) : protocolPart (a ++ '-' :: ofNat n) = (a, (n : ℤ)) := by
  rw [protocolPart_dash a (not_mem_ofNat (by decide) n), if_neg (ofNat_ne_nil n), pyInt_ofNat]

theorem protocolPart_ofNat (n : ℕ) : protocolPart (ofNat n) = ([], (n : ℤ)) := by
  rw [protocolPart_nodash (not_mem_ofNat (by decide) n), if_neg (ofNat_ne_nil n), pyInt_ofNat]

theorem protocolPart_plain_iff (n : Str) : protocolPart n = (n, 0) ↔ PlainName n := by
  by_cases hd : '-' ∈ n
  · obtain ⟨a, b, rfl, hb⟩ := exists_last_part hd
    rw [protocolPart_dash a hb, PlainName, lastField_append a hb]
    by_cases hbe : b = []
    · subst hbe
      simp
    · rw [if_neg hbe]
      cases hi : pyInt b with
      | error e => simp [hbe]
      | ok z => simp [hbe]
  · rw [protocolPart_nodash hd, PlainName, lastField_of_not_mem hd]
    by_cases hne : n = []
    · simp [hne]
    · rw [if_neg hne]
      cases hi : pyInt n with
      | error e => simp [hne]
      | ok z =>
        simp only [Prod.mk.injEq, hne, false_or]
        constructor
        · rintro ⟨h, -⟩; exact absurd h.symm hne
        · rintro ⟨-, h⟩; exact absurd rfl (h z)

theorem ofInt_natCast (n : ℕ) : ofInt n = ofNat n := by
  simp [ofInt]

theorem ofInt_neg {n : ℕ} (h : 0 < n) : ofInt (-(n : ℤ)) = '-' :: ofNat n := by
  rw [ofInt, if_pos (by omega)]; simp

end Str

/-- What a row must look like to survive printing and parsing. -/
def RowOk (v : Str × ℤ) : Prop := '_' ∉ v.1 ∧ 0 ≤ v.2 ∧ (v.2 = 0 → PlainName v.1)

/-- C71. `Protocol.from_string(str(p))` has the rows of `p`, for any number of rows and any names and step counts, if the
names have no underscore, the counts are not negative and a name without count does not end in a number or a dash. -/
theorem C71_protocol_roundtrip (ps : List (Str × ℤ)) (hne : ps ≠ []) (h : ∀ v ∈ ps, RowOk v) :
    getProtocolParts (protocolStr ps) = ps := by
  have key : ∀ v, RowOk v → '_' ∉ formatProtocol v ∧ protocolPart (formatProtocol v) = v := by
    rintro ⟨name, steps⟩ ⟨hu, hs, hp⟩
    obtain ⟨n, rfl⟩ := Int.eq_ofNat_of_zero_le hs
    have hf : (ofNat n).filter keepH = ofNat n := by rw [← ofInt_natCast, filter_ofInt]
    simp only [formatProtocol, ofInt_natCast, hf]
    replace hp : (n : ℤ) = 0 → PlainName name := hp
    by_cases h0 : (n : ℤ) = 0
    · rw [if_pos h0]
      refine ⟨hu, ?_⟩
      have := (protocolPart_plain_iff name).2 (hp h0)
      rw [this]
      exact Prod.ext rfl h0.symm
    · rw [if_neg h0]
      by_cases hn : name = []
      · simp only [hn, if_true]
        exact ⟨not_mem_ofNat (by decide) n, protocolPart_ofNat n⟩
      · simp only [hn, if_false]
        refine ⟨?_, protocolPart_dash_ofNat name n⟩
        simp only [List.mem_append, List.mem_cons, not_or]
        exact ⟨hu, by decide, not_mem_ofNat (by decide) n⟩
  rw [getProtocolParts, protocolStr, split_join (by simpa using hne), List.map_map]
  · conv_rhs => rw [← List.map_id ps]
    exact List.map_congr_left fun v hv => (key v (h v hv)).2
  · intro p hp
    obtain ⟨v, hv, rfl⟩ := List.mem_map.1 hp
    exact (key v (h v hv)).1

/-- C71. The same for the strings of the rows, `EnvDir`. -/
theorem C71_envdir_roundtrip (ps : List (Str × ℤ)) (hne : ps ≠ []) (h : ∀ v ∈ ps, RowOk v) :
    getProtocolParts (join '_' (ps.map envDirStr)) = ps := by
  have key : ∀ v, RowOk v → '_' ∉ envDirStr v ∧ protocolPart (envDirStr v) = v := by
    rintro ⟨name, steps⟩ ⟨hu, hs, hp⟩
    obtain ⟨n, rfl⟩ := Int.eq_ofNat_of_zero_le hs
    simp only [envDirStr, ofInt_natCast]
    replace hp : (n : ℤ) = 0 → PlainName name := hp
    by_cases h0 : (n : ℤ) = 0
    · rw [if_neg (fun hh => hh h0)]
      refine ⟨hu, ?_⟩
      rw [(protocolPart_plain_iff name).2 (hp h0)]
      exact Prod.ext rfl h0.symm
    · rw [if_pos h0]
      refine ⟨?_, protocolPart_dash_ofNat name n⟩
      simp only [List.mem_append, List.mem_cons, not_or]
      exact ⟨hu, by decide, not_mem_ofNat (by decide) n⟩
  rw [getProtocolParts, split_join (by simpa using hne), List.map_map]
  · conv_rhs => rw [← List.map_id ps]
    exact List.map_congr_left fun v hv => (key v (h v hv)).2
  · intro p hp
    obtain ⟨v, hv, rfl⟩ := List.mem_map.1 hp
    exact (key v (h v hv)).1

/-- Two rows that meet the hypotheses of C71. -/
example : ∀ v ∈ [("hand-wrist".toList, (100 : ℤ)), ("rest".toList, 0)], RowOk v := by
  intro v hv
  simp only [List.mem_cons, List.not_mem_nil, or_false] at hv
  rcases hv with rfl | rfl
  · exact ⟨by decide, by decide, fun h => absurd h (by decide)⟩
  · refine ⟨by decide, by decide, fun _ => (protocolPart_plain_iff _).1 (by decide +kernel)⟩

/-- C71. The condition on names without count is necessary. -/
theorem C71_protocol_plain_iff (n : Str) (h : '_' ∉ n) :
    getProtocolParts (protocolStr [(n, 0)]) = [(n, 0)] ↔ PlainName n := by
  have : protocolStr [(n, 0)] = n := by simp [protocolStr, formatProtocol, join]
  rw [this, getProtocolParts, split_of_not_mem h, List.map_singleton, List.singleton_inj]
  exact protocolPart_plain_iff n

/-- C71. A negative count always comes back positive, with its sign in the name. -/
theorem C71_protocol_negative (n : Str) (hn : n ≠ []) (h : '_' ∉ n) (k : ℕ) (hk : 0 < k) :
    getProtocolParts (protocolStr [(n, -(k : ℤ))]) = [(n ++ ['-'], (k : ℤ))] := by
  have hs : protocolStr [(n, -(k : ℤ))] = (n ++ ['-']) ++ '-' :: ofNat k := by
    have h0 : ¬ (-(k : ℤ)) = 0 := by omega
    simp only [protocolStr, List.map_cons, List.map_nil, join, formatProtocol, if_neg h0, if_neg hn, filter_ofInt]
    rw [ofInt_neg hk, List.append_assoc]
    rfl
  rw [hs, getProtocolParts, split_of_not_mem, List.map_singleton, protocolPart_dash_ofNat]
  simp only [List.mem_append, List.mem_cons, not_or]
  exact ⟨⟨h, by decide, by simp⟩, by decide, not_mem_ofNat (by decide) k⟩

/-- C71. Whatever the string, it has one row per underscore-separated part, no name has an underscore and no count is
negative. -/
theorem C71_protocol_parts (s : Str) :
    (getProtocolParts s).length = s.count '_' + 1 ∧ ∀ v ∈ getProtocolParts s, '_' ∉ v.1 ∧ 0 ≤ v.2 := by
  constructor
  · rw [getProtocolParts, List.length_map]
    induction s with
    | nil => rfl
    | cons x xs ih =>
      by_cases hx : x = '_'
      · subst hx
        rw [split_cons_self, List.length_cons, ih]; simp
      · obtain ⟨q, qs, e1, e2⟩ := split_cons_ne hx xs
        rw [e2, List.length_cons, List.count_cons_of_ne hx, ← ih, e1, List.length_cons]
  · intro v hv
    obtain ⟨p, hp, rfl⟩ := List.mem_map.1 hv
    have hu := not_mem_of_mem_split hp
    have hpos : ∀ b : Str, '-' ∉ b → ∀ z, pyInt b = .ok z → 0 ≤ z := by
      intro b hb z hz
      have hs : '-' ∉ strip b := by
        intro hm
        apply hb
        rw [strip, List.mem_reverse] at hm
        have := (List.dropWhile_sublist isSpace).subset hm
        rw [List.mem_reverse] at this
        exact (List.dropWhile_sublist isSpace).subset this
      rw [pyInt] at hz
      split at hz
      · rename_i r e
        rw [e] at hs; simp at hs
      · rename_i r e
        cases hr : unsigned r with
        | error e => rw [hr] at hz; cases hz
        | ok m => rw [hr] at hz; cases hz; exact Int.natCast_nonneg m
      · cases hr : unsigned (strip b) with
        | error e => rw [hr] at hz; cases hz
        | ok m => rw [hr] at hz; cases hz; exact Int.natCast_nonneg m
    by_cases hd : '-' ∈ p
    · obtain ⟨a, b, rfl, hb⟩ := exists_last_part hd
      have hua : '_' ∉ a := fun hm => hu (List.mem_append_left _ hm)
      rw [protocolPart_dash a hb]
      by_cases hbe : b = []
      · rw [if_pos hbe]; exact ⟨hua, le_rfl⟩
      · rw [if_neg hbe]
        cases hi : pyInt b with
        | error e => exact ⟨hu, le_rfl⟩
        | ok z => exact ⟨hua, hpos b hb z hi⟩
    · rw [protocolPart_nodash hd]
      by_cases hbe : p = []
      · rw [if_pos hbe]; simp
      · rw [if_neg hbe]
        cases hi : pyInt p with
        | error e => exact ⟨hu, le_rfl⟩
        | ok z => exact ⟨by simp, hpos p hd z hi⟩

/-- C71. Printing a parsed protocol and parsing it again can change it. -/
theorem C71_protocol_not_stable :
    getProtocolParts "fred-12-0".toList = [("fred-12".toList, 0)] ∧
    getProtocolParts (protocolStr (getProtocolParts "fred-12-0".toList)) = [("fred".toList, 12)] ∧
    getProtocolParts (protocolStr []) = [([], 0)] := by
  refine ⟨?_, ?_, ?_⟩ <;> decide +kernel

/-! ## C72: parameter strings -/

namespace Str

theorem splitParamsLoop_skip {p : Str} (h : '-' ∉ p) (q : Str) (rest : List Str) (d : PyDict Str Str) :
    splitParamsLoop (p :: q :: rest) d = splitParamsLoop ((p ++ '_' :: q) :: rest) d := by
  rw [splitParamsLoop, split_of_not_mem h]

theorem splitParamsLoop_stuck {p : Str} (h : '-' ∉ p) (d : PyDict Str Str) :
    splitParamsLoop [p] d = .error .indexError := by
  rw [splitParamsLoop, split_of_not_mem h]

theorem splitParamsLoop_item {k : Str} (h : '-' ∉ k) (v : Str) (rest : List Str) (d : PyDict Str Str) :
    splitParamsLoop ((k ++ '-' :: v) :: rest) d = splitParamsLoop rest (d.set k v) := by
  have hj := join_split '-' v
  cases hv : split '-' v with
  | nil => exact absurd hv (split_ne_nil _ _)
  | cons w ws =>
    rw [hv] at hj
    cases rest with
    | nil =>
      simp only [splitParamsLoop]
      rw [split_append_cons, split_of_not_mem h, hv]
      simp only [List.singleton_append, hj]
    | cons q qs =>
      rw [splitParamsLoop, split_append_cons, split_of_not_mem h, hv]
      simp only [List.singleton_append, hj]

theorem splitParamsLoop_key {k : Str} (hk : '-' ∉ k) {v : Str} (hv : '_' ∉ v) (rest : List Str) (d : PyDict Str Str) :
    ∀ x : Str, '-' ∉ x → ∀ q qs, split '_' (k ++ '-' :: v) = q :: qs →
      splitParamsLoop ((x ++ q) :: qs ++ rest) d = splitParamsLoop rest (d.set (x ++ k) v) := by
  induction k with
  | nil =>
    intro x hx q qs h
    have hu : '_' ∉ '-' :: v := by simp only [List.mem_cons, not_or]; exact ⟨by decide, hv⟩
    rw [List.nil_append, split_of_not_mem hu] at h
    obtain ⟨rfl, rfl⟩ := List.cons.inj h
    rw [List.append_nil]
    exact splitParamsLoop_item hx v rest d
  | cons y k ih =>
    simp only [List.mem_cons, not_or] at hk
    intro x hx q qs h
    have hxy : '-' ∉ x ++ [y] := by simp [hx, hk.1]
    by_cases hy : y = '_'
    · subst hy
      rw [List.cons_append, split_cons_self] at h
      obtain ⟨rfl, rfl⟩ := List.cons.inj h
      cases hs : split '_' (k ++ '-' :: v) with
      | nil => exact absurd hs (split_ne_nil _ _)
      | cons q' qs' =>
        rw [List.append_nil, List.cons_append, List.cons_append, splitParamsLoop_skip hx]
        have := ih hk.2 (x ++ ['_']) hxy q' qs' hs
        simpa [List.append_assoc] using this
    · obtain ⟨q', qs', e1, e2⟩ := split_cons_ne hy (k ++ '-' :: v)
      rw [List.cons_append, e2] at h
      obtain ⟨rfl, rfl⟩ := List.cons.inj h
      have := ih hk.2 (x ++ [y]) hxy q' qs' e1
      simpa [List.append_assoc] using this

theorem split_join_flat (c : Char) {ps : List Str} (hne : ps ≠ []) : split c (join c ps) = ps.flatMap (split c) := by
  induction ps with
  | nil => exact absurd rfl hne
  | cons p ps ih =>
    cases ps with
    | nil => simp [join]
    | cons q qs => rw [join_cons (by simp), split_append_cons, ih (by simp), List.flatMap_cons (x := p)]

theorem splitParamsLoop_items (items : List (Str × Str)) (h : ∀ kv ∈ items, '-' ∉ kv.1 ∧ '_' ∉ kv.2)
    (d : PyDict Str Str) :
    splitParamsLoop ((items.map formatItem).flatMap (split '_')) d =
      .ok (items.foldl (fun d kv => d.set kv.1 kv.2) d) := by
  induction items generalizing d with
  | nil => simp [splitParamsLoop]
  | cons kv items ih =>
    obtain ⟨h1, h2⟩ := h kv (by simp)
    rw [List.map_cons, List.flatMap_cons, formatItem]
    cases hs : split '_' (kv.1 ++ '-' :: kv.2) with
    | nil => exact absurd hs (split_ne_nil _ _)
    | cons q qs =>
      have := splitParamsLoop_key h1 h2 ((items.map formatItem).flatMap (split '_')) d [] (by simp) q qs hs
      rw [List.nil_append, List.nil_append] at this
      rw [this, ih fun r hr => h r (List.mem_cons_of_mem _ hr)]
      rfl

theorem splitParams_eq {s : Str} (h : '-' ∈ s ∨ '_' ∈ s) :
    splitParams s = (splitParamsLoop (split '_' s) []).map fun d => d.map fun kv => (kv.1, some kv.2) := by
  rw [splitParams]
  split
  · rename_i p hp
    have e : p = s := by
      have := join_split '_' s
      rwa [hp] at this
    rw [hp]
    have hu : '_' ∉ s := by
      rw [← e]; exact not_mem_of_mem_split (c := '_') (s := s) (by rw [hp]; simp)
    rw [if_pos]
    rw [e]
    exact h.resolve_right hu
  · rfl

theorem assignAll_nodup {items : List (Str × Str)} (h : (items.map Prod.fst).Nodup) : assignAll items = items := by
  have key : ∀ (l d : List (Str × Str)), ((d ++ l).map Prod.fst).Nodup →
      l.foldl (fun d kv => PyDict.set d kv.1 kv.2) d = d ++ l := by
    intro l
    induction l with
    | nil => simp
    | cons kv l ih =>
      intro d hd
      have hn : kv.1 ∉ PyDict.keys d := by
        intro hm
        rw [List.map_append, List.map_cons, List.nodup_append] at hd
        exact hd.2.2 _ hm _ (by simp) rfl
      have hset : ∀ (d : PyDict Str Str) (k v : Str), k ∉ PyDict.keys d → d.set k v = d ++ [(k, v)] := by
        intro d k v
        induction d with
        | nil => intro _; rfl
        | cons a d ihd =>
          intro hk
          simp only [PyDict.keys, List.map_cons, List.mem_cons, not_or] at hk
          rw [PyDict.set, if_neg (fun e => hk.1 e.symm), ihd hk.2]; rfl
      rw [List.foldl_cons, hset d kv.1 kv.2 hn, ih]
      · simp
      · simpa using hd
  exact key items [] h

end Str

/-- C72. `split_params` recovers parameters from their string: keys without `-` (they may have `_`), values without `_` (they
may have `-`); of parameters with the same key the last one counts. -/
theorem C72_split_params (items : List (Str × Str)) (hne : items ≠ [])
    (h : ∀ kv ∈ items, '-' ∉ kv.1 ∧ '_' ∉ kv.2) :
    splitParams (join '_' (items.map formatItem)) = .ok ((assignAll items).map fun kv => (kv.1, some kv.2)) := by
  have hmem : '-' ∈ join '_' (items.map formatItem) := by
    cases items with
    | nil => exact absurd rfl hne
    | cons kv items =>
      cases items with
      | nil => simp [join, formatItem]
      | cons a l => simp [join, formatItem]
  rw [splitParams_eq (Or.inl hmem), split_join_flat _ (by simpa using hne), splitParamsLoop_items items h]
  rfl

/-- C72. With distinct keys the result is the list of parameters, in order. -/
theorem C72_split_params_roundtrip (items : List (Str × Str)) (hne : items ≠ [])
    (h : ∀ kv ∈ items, '-' ∉ kv.1 ∧ '_' ∉ kv.2) (hd : (items.map Prod.fst).Nodup) :
    splitParams (join '_' (items.map formatItem)) = .ok (items.map fun kv => (kv.1, some kv.2)) := by
  rw [C72_split_params items hne h, assignAll_nodup hd]

/-- Two parameters that meet the hypotheses of C72. -/
example : splitParams "safe_mode-False_test-1-2-3".toList =
    .ok [("safe_mode".toList, some "False".toList), ("test".toList, some "1-2-3".toList)] :=
  C72_split_params_roundtrip [("safe_mode".toList, "False".toList), ("test".toList, "1-2-3".toList)] (by simp)
    (by decide) (by decide)

/-- C72. A name alone, without separators, is a parameter without value. -/
theorem C72_split_params_bare (s : Str) (hd : '-' ∉ s) (hu : '_' ∉ s) : splitParams s = .ok [(s, none)] := by
  rw [splitParams, split_of_not_mem hu]
  simp [hd]

example : splitParams "random".toList = .ok [("random".toList, none)] := C72_split_params_bare _ (by decide) (by decide)

/-- C72. It raises on exactly the strings whose last of several parts has no `-`, and then IndexError. -/
theorem C72_split_params_error_iff (s : Str) (e : PyErr) :
    splitParams s = .error e ↔ e = .indexError ∧ '_' ∈ s ∧ '-' ∉ lastField '_' s := by
  have loop : ∀ (n : ℕ) (ps : List Str) (d : PyDict Str Str) (l : Str), ps.length = n → ps.getLast? = some l →
      if '-' ∈ l then ∃ r, splitParamsLoop ps d = .ok r else splitParamsLoop ps d = .error .indexError := by
    intro n
    induction n with
    | zero =>
      intro ps d l hl hg
      rw [List.length_eq_zero_iff] at hl; subst hl; simp at hg
    | succ n ih =>
      intro ps d l hl hg
      cases ps with
      | nil => simp at hg
      | cons p ps =>
        cases ps with
        | nil =>
          obtain rfl : p = l := by simpa using hg
          by_cases hp : '-' ∈ p
          · rw [if_pos hp]
            obtain ⟨k, v, rfl, hk⟩ := exists_first_part hp
            exact ⟨d.set k v, by rw [splitParamsLoop_item hk v [] d, splitParamsLoop]⟩
          · rw [if_neg hp]; exact splitParamsLoop_stuck hp d
        | cons q rest =>
          have hg' : (q :: rest).getLast? = some l := by rwa [List.getLast?_cons_cons] at hg
          by_cases hp : '-' ∈ p
          · obtain ⟨k, v, rfl, hk⟩ := exists_first_part hp
            rw [splitParamsLoop_item hk]
            exact ih _ _ _ (by simpa using hl) hg'
          · rw [splitParamsLoop_skip hp]
            cases rest with
            | nil =>
              obtain rfl : q = l := by simpa using hg'
              have := ih [p ++ '_' :: q] d (p ++ '_' :: q) (by simp only [List.length_cons, List.length_nil] at hl ⊢; omega) rfl
              simpa [hp] using this
            | cons r rs =>
              refine ih _ _ _ (by simpa using hl) ?_
              rwa [List.getLast?_cons_cons] at hg' ⊢
  by_cases hu : '_' ∈ s
  · obtain ⟨a, b, rfl, hb⟩ := exists_last_part hu
    have hl := loop _ (split '_' (a ++ '_' :: b)) [] b rfl (getLast?_split_append '_' a b hb).1
    rw [splitParams_eq (Or.inr hu), lastField_append a hb]
    by_cases hd : '-' ∈ b
    · rw [if_pos hd] at hl
      obtain ⟨r, hr⟩ := hl
      rw [hr]
      constructor
      · intro h; cases h
      · rintro ⟨-, -, h⟩; exact absurd hd h
    · rw [if_neg hd] at hl
      rw [hl]
      constructor
      · intro h; cases h; exact ⟨rfl, hu, hd⟩
      · rintro ⟨rfl, -, -⟩; rfl
  · have hno : ¬ splitParams s = .error e := by
      by_cases hd : '-' ∈ s
      · have hl := loop _ (split '_' s) [] s rfl (by rw [split_of_not_mem hu]; rfl)
        rw [if_pos hd] at hl
        obtain ⟨r, hr⟩ := hl
        rw [splitParams_eq (Or.inl hd), hr]
        intro h; cases h
      · rw [splitParams, split_of_not_mem hu]
        simp [hd]
    exact ⟨fun h => absurd h hno, fun h => absurd h.2.1 hu⟩

/-- C72. Values with `_` and keys with `-` are not recovered. -/
theorem C72_split_params_unsafe :
    splitParams (join '_' ([("a".toList, "x_y".toList)].map formatItem)) = .error .indexError ∧
    splitParams (join '_' ([("a".toList, "x_y".toList), ("b".toList, "1".toList)].map formatItem)) =
      .ok [("a".toList, some "x".toList), ("y_b".toList, some "1".toList)] ∧
    splitParams (join '_' ([("a-b".toList, "1".toList)].map formatItem)) = .ok [("a".toList, some "b-1".toList)] := by
  refine ⟨(C72_split_params_error_iff _ _).2 ⟨rfl, by decide, by decide⟩, ?_, ?_⟩
  · exact C72_split_params_roundtrip [("a".toList, "x".toList), ("y_b".toList, "1".toList)] (by simp)
      (by decide) (by decide)
  · exact C72_split_params_roundtrip [("a".toList, "b-1".toList)] (by simp) (by decide) (by decide)

/-! ## C73: numbers at the end of names -/

/-- C73. `split_number(join_number(s, n, width))` is `(s, n)`, for every string, natural number and width. -/
theorem C73_number_roundtrip {F : Type} (pyFloat : Str → Option F) (s : Str) (n width : ℕ) :
    splitNumber pyFloat (joinNumber s n width) = (s, .int n) := by
  have key : ∀ t : Str, (∀ c ∈ t, c.isDigit = true) → pyInt t = .ok (n : ℤ) →
      splitNumber pyFloat (s ++ '-' :: t) = (s, .int n) := by
    intro t ht hi
    have hd : '-' ∉ t := fun h => absurd (ht _ h) (by decide)
    have hp : '.' ∉ t := fun h => absurd (ht _ h) (by decide)
    obtain ⟨h1, h2⟩ := getLast?_split_append '-' s t hd
    simp only [splitNumber, h1, h2, if_neg hp, hi, join_split]
  rw [joinNumber, ofInt_natCast]
  by_cases hw : width = 0
  · simp only [hw, ne_eq, not_true, if_false]
    exact key _ (fun c hc => isDigit_of_mem_ofNat hc) (pyInt_ofNat n)
  · simp only [ne_eq, hw, not_false_iff, if_true]
    exact key _ (digit_zfill fun c hc => isDigit_of_mem_ofNat hc) (pyInt_zfill width n)

/-- C73. A negative number comes back positive, with its sign in the name. -/
theorem C73_number_negative {F : Type} (pyFloat : Str → Option F) (s : Str) (n : ℕ) (hn : 0 < n) :
    splitNumber pyFloat (joinNumber s (-(n : ℤ)) 0) = (s ++ ['-'], .int n) := by
  have h := C73_number_roundtrip pyFloat (s ++ ['-']) n 0
  rw [joinNumber, ofInt_natCast] at h
  rw [joinNumber, ofInt_neg hn]
  simpa [List.append_assoc] using h

namespace Str

theorem filter_zfill (w n : ℕ) : (zfill w (ofNat n)).filter keepU = zfill w (ofNat n) := by
  rw [List.filter_eq_self]
  exact fun c hc => keepU_digit (digit_zfill (fun c hc => isDigit_of_mem_ofNat hc) c hc)

theorem length_zfill {i n : ℕ} (h : i < n) : (zfill (ofNat n).length (ofNat i)).length = (ofNat n).length := by
  have h1 : n < 10 ^ (ofNat n).length :=
    (Nat.length_toDigits_le_iff (by decide) Nat.length_toDigits_pos).1 le_rfl
  have h2 : (ofNat i).length ≤ (ofNat n).length :=
    (Nat.length_toDigits_le_iff (by decide) Nat.length_toDigits_pos).2 (lt_trans h h1)
  rw [zfill, List.length_append, List.length_replicate]
  omega

theorem ofDigitChars_lt {s : Str} (h : ∀ c ∈ s, c.isDigit = true) : Nat.ofDigitChars 10 s 0 < 10 ^ s.length := by
  induction s with
  | nil => simp
  | cons x xs ih =>
    have hx := (isDigit_iff x).1 (h x (by simp))
    have := ih fun c hc => h c (List.mem_cons_of_mem _ hc)
    rw [Nat.ofDigitChars_cons, Nat.ofDigitChars_eq_ofDigitChars_zero, List.length_cons, pow_succ]
    have h48 : '0'.toNat = 48 := rfl
    have hle : 10 * 0 + (x.toNat - '0'.toNat) ≤ 9 := by omega
    have := Nat.mul_le_mul_left (10 ^ xs.length) hle
    omega

/-- Digit strings of one length are ordered as the numbers that they denote. -/
theorem lt_of_ofDigitChars_lt {s t : Str} (hs : ∀ c ∈ s, c.isDigit = true) (ht : ∀ c ∈ t, c.isDigit = true)
    (hl : s.length = t.length) (h : Nat.ofDigitChars 10 s 0 < Nat.ofDigitChars 10 t 0) : s < t := by
  induction s generalizing t with
  | nil =>
    cases t with
    | nil => simp at h
    | cons y ys => simp at hl
  | cons x xs ih =>
    cases t with
    | nil => simp at hl
    | cons y ys =>
      have hx := (isDigit_iff x).1 (hs x (by simp))
      have hy := (isDigit_iff y).1 (ht y (by simp))
      have hl' : xs.length = ys.length := by simpa using hl
      have hys := ofDigitChars_lt fun c hc => ht c (List.mem_cons_of_mem _ hc)
      rw [Nat.ofDigitChars_cons, Nat.ofDigitChars_cons, Nat.ofDigitChars_eq_ofDigitChars_zero,
        Nat.ofDigitChars_eq_ofDigitChars_zero (l := ys), hl'] at h
      have h48 : '0'.toNat = 48 := rfl
      rcases lt_trichotomy x.toNat y.toNat with hlt | heq | hgt
      · exact List.Lex.rel (by rw [Char.lt_def]; exact hlt)
      · have hxy : x = y := Char.toNat_inj.1 heq
        subst hxy
        refine List.Lex.cons (ih (fun c hc => hs c (List.mem_cons_of_mem _ hc))
          (fun c hc => ht c (List.mem_cons_of_mem _ hc)) hl' ?_)
        omega
      · exfalso
        have h1 : (10 * 0 + (y.toNat - '0'.toNat)) + 1 ≤ 10 * 0 + (x.toNat - '0'.toNat) := by omega
        have h2 := Nat.mul_le_mul_left (10 ^ ys.length) h1
        rw [Nat.mul_add] at h2
        omega

theorem lt_append_left (a : Str) {s t : Str} (h : s < t) : a ++ s < a ++ t := by
  induction a with
  | nil => exact h
  | cons x xs ih => exact List.Lex.cons ih

theorem arrayHeaders_get (name : Str) (length i : ℕ) (h : i < length) :
    (arrayHeaders name length)[i]? = some (name.filter keepU ++ '-' :: zfill (ofNat length).length (ofNat i)) := by
  simp only [arrayHeaders, List.getElem?_map, List.getElem?_range h, Option.map_some, join, filter_zfill]

end Str

/-- C73. `get_array_headers(name, n)` gives `n` headers; they all have the same length, their order as strings is their
order as numbers (so that they are distinct), and `split_number` recovers the cleaned name and the index. -/
theorem C73_array_headers {F : Type} (pyFloat : Str → Option F) (name : Str) (n : ℕ) :
    (arrayHeaders name n).length = n ∧ (arrayHeaders name n).Pairwise (· < ·) ∧
    (∀ h ∈ arrayHeaders name n, ∀ h' ∈ arrayHeaders name n, h.length = h'.length) ∧
    ∀ i < n, ∃ h, (arrayHeaders name n)[i]? = some h ∧ splitNumber pyFloat h = (name.filter keepU, .int i) := by
  have hlen : (arrayHeaders name n).length = n := by simp [arrayHeaders]
  have hget : ∀ h ∈ arrayHeaders name n, h.length = (name.filter keepU).length + (ofNat n).length + 1 := by
    intro h hm
    obtain ⟨i, hi⟩ := List.mem_iff_getElem?.1 hm
    have hin : i < n := by
      have := (List.getElem?_eq_some_iff.1 hi).1
      omega
    rw [arrayHeaders_get name n i hin] at hi
    rw [← Option.some.inj hi, List.length_append, List.length_cons, length_zfill hin]
    omega
  refine ⟨hlen, ?_, fun h hh h' hh' => by rw [hget h hh, hget h' hh'], ?_⟩
  · rw [List.pairwise_iff_getElem]
    intro i j hi hj hij
    rw [hlen] at hi hj
    have e1 := (List.getElem?_eq_some_iff.1 (arrayHeaders_get name n i hi)).2
    have e2 := (List.getElem?_eq_some_iff.1 (arrayHeaders_get name n j hj)).2
    rw [e1, e2]
    apply lt_append_left
    refine List.Lex.cons ?_
    refine lt_of_ofDigitChars_lt (digit_zfill fun c hc => isDigit_of_mem_ofNat hc)
      (digit_zfill fun c hc => isDigit_of_mem_ofNat hc) (by rw [length_zfill hi, length_zfill hj]) ?_
    rw [ofDigitChars_zfill, ofDigitChars_zfill, ofNat, ofNat, Nat.ofDigitChars_ten_toDigits,
      Nat.ofDigitChars_ten_toDigits]
    exact hij
  · intro i hi
    refine ⟨_, arrayHeaders_get name n i hi, ?_⟩
    have h := C73_number_roundtrip pyFloat (name.filter keepU) i (ofNat n).length
    rw [joinNumber, ofInt_natCast] at h
    have hw : (ofNat n).length ≠ 0 := fun e => ofNat_ne_nil n (List.length_eq_zero_iff.1 e)
    simpa [hw] using h

/-- Twelve headers. -/
example : arrayHeaders "a[x]".toList 12 = ["ax-00", "ax-01", "ax-02", "ax-03", "ax-04", "ax-05", "ax-06", "ax-07", "ax-08",
    "ax-09", "ax-10", "ax-11"].map String.toList := by decide +kernel

/-- C73. `de_number` splits digits and points off a name, whether or not a dash stands between them. -/
theorem C73_de_number (p : Str) (l : Char) (hl : l.isDigit = false) (hp : l ≠ '.') (hm : l ≠ '-') (s : Str) (d : Char)
    (hd : d.isDigit = true) (hs : ∀ c ∈ s, c.isDigit = true ∨ c = '.') :
    deNumber (p ++ [l] ++ s ++ [d]) = .ok (p ++ [l], some (s ++ [d])) ∧
    deNumber (p ++ [l] ++ '-' :: s ++ [d]) = .ok (p ++ [l], some (s ++ [d])) := by
  have loop : ∀ (t acc rest : Str), (∀ c ∈ t, c.isDigit = true ∨ c = '.') → ∀ x : Char, x.isDigit = false → x ≠ '.' →
      deNumberLoop acc (t ++ x :: rest) = .ok (t.reverse ++ acc, x :: rest) := by
    intro t
    induction t with
    | nil => intro acc rest _ x hx hx'; simp [deNumberLoop, hx, hx']
    | cons c t ih =>
      intro acc rest ht x hx hx'
      have hc : (c.isDigit || decide (c = '.')) = true := by
        rcases ht c (by simp) with h | h <;> simp [h]
      rw [List.cons_append, deNumberLoop, if_pos hc, ih _ _ (fun c hc => ht c (List.mem_cons_of_mem _ hc)) x hx hx']
      simp
  have hall : ∀ c ∈ d :: s.reverse, c.isDigit = true ∨ c = '.' := by
    intro c hc
    rcases List.mem_cons.1 hc with rfl | hc
    · exact Or.inl hd
    · exact hs c (List.mem_reverse.1 hc)
  constructor
  · have hrev : (p ++ [l] ++ s ++ [d]).reverse = d :: (s.reverse ++ l :: p.reverse) := by simp
    have := loop (d :: s.reverse) [] p.reverse hall l hl hp
    rw [List.cons_append] at this
    simp only [deNumber, hrev, hd, Bool.not_true, Bool.false_eq_true, if_false, this, ok_bind]
    split
    · rename_i r e; exact absurd (List.cons.inj e).1 hm
    · simp [pure_eq_ok]
  · have hrev : (p ++ [l] ++ '-' :: s ++ [d]).reverse = d :: (s.reverse ++ '-' :: (p ++ [l]).reverse) := by simp
    have := loop (d :: s.reverse) [] (p ++ [l]).reverse hall '-' (by decide) (by decide)
    rw [List.cons_append] at this
    simp only [deNumber, hrev, hd, Bool.not_true, Bool.false_eq_true, if_false, this, ok_bind]
    simp [pure_eq_ok]

/-- C73. A name that is nothing but digits and points, with a digit at the end, raises IndexError. -/
theorem C73_de_number_all_digits (s : Str) (d : Char) (hd : d.isDigit = true)
    (hs : ∀ c ∈ s, c.isDigit = true ∨ c = '.') : deNumber (s ++ [d]) = .error .indexError := by
  have loop : ∀ (t acc : Str), (∀ c ∈ t, c.isDigit = true ∨ c = '.') → deNumberLoop acc t = .error .indexError := by
    intro t
    induction t with
    | nil => intro acc _; rfl
    | cons c t ih =>
      intro acc ht
      have hc : (c.isDigit || decide (c = '.')) = true := by
        rcases ht c (by simp) with h | h <;> simp [h]
      rw [deNumberLoop, if_pos hc, ih _ fun c hc => ht c (List.mem_cons_of_mem _ hc)]
  have hrev : (s ++ [d]).reverse = d :: s.reverse := by simp
  have := loop (d :: s.reverse) [] (by
    intro c hc
    rcases List.mem_cons.1 hc with rfl | hc
    · exact Or.inl hd
    · exact hs c (List.mem_reverse.1 hc))
  simp only [deNumber, hrev, hd, Bool.not_true, Bool.false_eq_true, if_false, this, error_bind]

/-- Cases of the two theorems. -/
example : deNumber "a-010".toList = .ok ("a".toList, some "010".toList) ∧ deNumber "12".toList = .error .indexError := by
  decide +kernel

end Verif
