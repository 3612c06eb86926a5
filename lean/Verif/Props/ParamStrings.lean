import Verif.Proofs.Params
import Verif.Props.Strings

/-!
# C78 and C79: parameter strings and modifiers of utilities.py, approximate equality
-/

namespace Verif
open Params

/-! ## C78: `split_params`, `split_modifiers` -/

namespace Params

variable {F : Type} [DecidableEq F] (pyFloat : Str → Option F)

omit [DecidableEq F] in
theorem splitItems_nodash {s : Str} (h : '-' ∉ s) : splitItems pyFloat s = [toItem pyFloat s] := by
  rw [splitItems, Str.split_of_not_mem h]; rfl

omit [DecidableEq F] in
theorem splitItems_key {k : Str} (h : '-' ∉ k) (v : Str) :
    splitItems pyFloat (k ++ '-' :: v) = toItem pyFloat k :: splitItems pyFloat v := by
  rw [splitItems, Str.split_append_cons, Str.split_of_not_mem h]; rfl

theorem loopU_skip {p : Str} (h : '-' ∉ p) (q : Str) (rest : List Str) (d : PyDict (Item F) (PVal F)) :
    splitParamsULoop pyFloat (p :: q :: rest) d = splitParamsULoop pyFloat ((p ++ '_' :: q) :: rest) d := by
  rw [splitParamsULoop, splitItems_nodash pyFloat h]

theorem loopU_stuck {p : Str} (h : '-' ∉ p) (d : PyDict (Item F) (PVal F)) :
    splitParamsULoop pyFloat [p] d = .ok d := by
  rw [splitParamsULoop, splitItems_nodash pyFloat h]

theorem loopU_item {k : Str} (h : '-' ∉ k) (v : Str) (rest : List Str) (d : PyDict (Item F) (PVal F)) :
    splitParamsULoop pyFloat ((k ++ '-' :: v) :: rest) d =
      (paramValue (splitItems pyFloat v)).bind fun x => splitParamsULoop pyFloat rest (d.set (toItem pyFloat k) x) := by
  cases hv : splitItems pyFloat v with
  | nil =>
    rw [splitItems, List.map_eq_nil_iff] at hv
    exact absurd hv (Str.split_ne_nil _ _)
  | cons w ws =>
    cases rest with
    | nil =>
      simp only [splitParamsULoop]
      rw [splitItems_key pyFloat h, hv]
      rfl
    | cons q qs =>
      rw [splitParamsULoop, splitItems_key pyFloat h, hv]
      rfl

theorem loopU_key {k : Str} (hk : '-' ∉ k) {v : Str} (hv : '_' ∉ v) (rest : List Str)
    (d : PyDict (Item F) (PVal F)) :
    ∀ x : Str, '-' ∉ x → ∀ q qs, Str.split '_' (k ++ '-' :: v) = q :: qs →
      splitParamsULoop pyFloat ((x ++ q) :: qs ++ rest) d =
        (paramValue (splitItems pyFloat v)).bind fun y =>
          splitParamsULoop pyFloat rest (d.set (toItem pyFloat (x ++ k)) y) := by
  induction k with
  | nil =>
    intro x hx q qs h
    have hu : '_' ∉ '-' :: v := by simp only [List.mem_cons, not_or]; exact ⟨by decide, hv⟩
    rw [List.nil_append, Str.split_of_not_mem hu] at h
    obtain ⟨rfl, rfl⟩ := List.cons.inj h
    rw [List.append_nil]
    exact loopU_item pyFloat hx v rest d
  | cons y k ih =>
    simp only [List.mem_cons, not_or] at hk
    intro x hx q qs h
    have hxy : '-' ∉ x ++ [y] := by simp [hx, hk.1]
    by_cases hy : y = '_'
    · subst hy
      rw [List.cons_append, Str.split_cons_self] at h
      obtain ⟨rfl, rfl⟩ := List.cons.inj h
      cases hs : Str.split '_' (k ++ '-' :: v) with
      | nil => exact absurd hs (Str.split_ne_nil _ _)
      | cons q' qs' =>
        rw [List.append_nil, List.cons_append, List.cons_append, loopU_skip pyFloat hx]
        have := ih hk.2 (x ++ ['_']) hxy q' qs' hs
        simpa [List.append_assoc] using this
    · obtain ⟨q', qs', e1, e2⟩ := Str.split_cons_ne hy (k ++ '-' :: v)
      rw [List.cons_append, e2] at h
      obtain ⟨rfl, rfl⟩ := List.cons.inj h
      have := ih hk.2 (x ++ [y]) hxy q' qs' e1
      simpa [List.append_assoc] using this

end Params

section SplitParams
variable {F : Type} [DecidableEq F] (pyFloat : Str → Option F)

/-- What a list of items is read as: one item, a negative number, or a list. -/
def readAs : List (Item F) → Py (PVal F)
  | [] => .ok (.many [])
  | [x] => .ok (.one x)
  | [.str [], .int n] => .ok (.neg (.int n))
  | [.str [], .float x] => .ok (.neg (.float x))
  | [.str [], _] => .error .typeError
  | [.str (c :: s), y] => .ok (.many [.str (c :: s), y])
  | [_, _] => .error .typeError
  | x :: y :: z :: l => .ok (.many (x :: y :: z :: l))

/-- C78. `split_params` reads parameters one by one: keys without `-`, values that are `-`-separated lists of strings without
`-` and `_`. -/
theorem C78_split_params (items : List (Str × List Str)) (hne : items ≠ [])
    (h : ∀ kv ∈ items, '-' ∉ kv.1 ∧ kv.2 ≠ [] ∧ ∀ v ∈ kv.2, '-' ∉ v ∧ '_' ∉ v) :
    splitParamsU pyFloat (Str.join '_' (items.map fun kv => Str.formatItem (kv.1, Str.join '-' kv.2))) =
      items.foldlM (fun (d : PyDict (Item F) (PVal F)) kv => do
        let x ← readAs (kv.2.map (toItem pyFloat))
        pure (d.set (toItem pyFloat kv.1) x)) [] := by
  have hjoin : ∀ l : List Str, (∀ v ∈ l, '_' ∉ v) → '_' ∉ Str.join '-' l := by
    intro l
    induction l with
    | nil => intro _; simp [Str.join]
    | cons a l ih =>
      intro hl
      cases l with
      | nil => simpa [Str.join] using hl
      | cons b l =>
        rw [Str.join_cons (by simp)]
        simp only [List.mem_append, List.mem_cons, not_or]
        exact ⟨hl a (by simp), by decide, ih fun v hv => hl v (List.mem_cons_of_mem _ hv)⟩
  have hread : ∀ l : List (Item F), l ≠ [] → paramValue l = readAs l := by
    intro l hl
    match l, hl with
    | [_], _ => rfl
    | [.str [], .int _], _ => rfl
    | [.str [], .float _], _ => rfl
    | [.str [], .none], _ => rfl
    | [.str [], .str _], _ => rfl
    | [.str (_ :: _), _], _ => simp [paramValue, readAs]
    | [.int _, _], _ => simp [paramValue, readAs]
    | [.none, _], _ => simp [paramValue, readAs]
    | [.float _, _], _ => simp [paramValue, readAs]
    | _ :: _ :: _ :: _, _ => simp [paramValue, readAs]
  rw [splitParamsU, Str.split_join_flat _ (by simpa using hne)]
  clear hne
  generalize ([] : PyDict (Item F) (PVal F)) = d
  induction items generalizing d with
  | nil => simp [splitParamsULoop, pure_eq_ok]
  | cons kv items ih =>
    obtain ⟨h1, h2, h3⟩ := h kv (by simp)
    rw [List.map_cons, List.flatMap_cons, Str.formatItem]
    cases hs : Str.split '_' (kv.1 ++ '-' :: Str.join '-' kv.2) with
    | nil => exact absurd hs (Str.split_ne_nil _ _)
    | cons q qs =>
      have := loopU_key pyFloat h1 (hjoin kv.2 fun v hv => (h3 v hv).2)
        ((items.map fun kv => Str.formatItem (kv.1, Str.join '-' kv.2)).flatMap (Str.split '_')) d [] (by simp) q qs hs
      rw [List.nil_append, List.nil_append] at this
      have hsi : splitItems pyFloat (Str.join '-' kv.2) = kv.2.map (toItem pyFloat) := by
        rw [splitItems, Str.split_join h2 fun v hv => (h3 v hv).1]
      rw [this, hsi, hread _ (by simpa using h2), List.foldlM_cons]
      cases readAs (kv.2.map (toItem pyFloat)) with
      | error e => rfl
      | ok x => exact ih (fun r hr => h r (List.mem_cons_of_mem _ hr)) _

example : ∀ kv ∈ [("trace_rate".toList, ["a".toList, "b".toList]), ("n".toList, [[], "12".toList])],
    '-' ∉ kv.1 ∧ kv.2 ≠ [] ∧ ∀ v ∈ kv.2, '-' ∉ v ∧ '_' ∉ v := by decide +kernel

/-- C78. A string without `-` gives no parameters and no error, unlike `split_params` of helpers.py. -/
theorem C78_split_params_no_dash (s : Str) (h : '-' ∉ s) : splitParamsU pyFloat s = .ok [] := by
  have key : ∀ (ps : List Str) (p : Str), '-' ∉ p → (∀ q ∈ ps, '-' ∉ q) →
      splitParamsULoop pyFloat (p :: ps) [] = .ok [] := by
    intro ps
    induction ps with
    | nil => intro p hp _; exact loopU_stuck pyFloat hp []
    | cons q ps ih =>
      intro p hp hq
      rw [loopU_skip pyFloat hp]
      refine ih _ ?_ fun r hr => hq r (List.mem_cons_of_mem _ hr)
      simp only [List.mem_append, List.mem_cons, not_or]
      exact ⟨hp, by decide, hq q (by simp)⟩
  rw [splitParamsU]
  have hmem : ∀ p ∈ Str.split '_' s, '-' ∉ p := by
    intro p hp hm
    apply h
    clear h
    induction s generalizing p with
    | nil => simp only [Str.split, List.mem_singleton] at hp; simp [hp] at hm
    | cons x xs ih =>
      by_cases hx : x = '_'
      · subst hx
        rw [Str.split_cons_self, List.mem_cons] at hp
        rcases hp with rfl | hp
        · simp at hm
        · exact List.mem_cons_of_mem _ (ih p hp hm)
      · obtain ⟨q, qs, e1, e2⟩ := Str.split_cons_ne hx xs
        rw [e2, List.mem_cons] at hp
        rcases hp with rfl | hp
        · rcases List.mem_cons.1 hm with e | hm
          · rw [e]; simp
          · exact List.mem_cons_of_mem _ (ih q (by rw [e1]; simp) hm)
        · exact List.mem_cons_of_mem _ (ih p (by rw [e1]; exact List.mem_cons_of_mem _ hp) hm)
  cases hs : Str.split '_' s with
  | nil => exact absurd hs (Str.split_ne_nil _ _)
  | cons p ps =>
    rw [hs] at hmem
    exact key ps p (hmem p (by simp)) fun q hq => hmem q (List.mem_cons_of_mem _ hq)

omit [DecidableEq F] in
theorem toItem_ofNat (n : ℕ) : toItem pyFloat (Str.ofNat n) = .int n := by
  rw [toItem, if_pos]
  · congr 1; exact Nat.ofDigitChars_ten_toDigits
  · exact ⟨Str.ofNat_ne_nil n, List.all_eq_true.2 fun c hc => Str.isDigit_of_mem_ofNat hc⟩

/-- C78. A list of two numbers, as `join_params` writes it, raises TypeError; one number, a negative number and a list of
three numbers do not. -/
theorem C78_split_params_numbers (k : Str) (hk : '-' ∉ k) (hf : pyFloat [] = none) (a b c : ℕ) :
    splitParamsU pyFloat (k ++ '-' :: Str.ofNat a) = .ok [(toItem pyFloat k, .one (.int a))] ∧
    splitParamsU pyFloat (k ++ '-' :: '-' :: Str.ofNat a) = .ok [(toItem pyFloat k, .neg (.int a))] ∧
    splitParamsU pyFloat (k ++ '-' :: (Str.ofNat a ++ '-' :: Str.ofNat b)) = .error .typeError ∧
    splitParamsU pyFloat (k ++ '-' :: (Str.ofNat a ++ '-' :: (Str.ofNat b ++ '-' :: Str.ofNat c))) =
      .ok [(toItem pyFloat k, .many [.int a, .int b, .int c])] := by
  have hd : ∀ n, '-' ∉ Str.ofNat n ∧ '_' ∉ Str.ofNat n := fun n =>
    ⟨Str.not_mem_ofNat (by decide) n, Str.not_mem_ofNat (by decide) n⟩
  have he : toItem pyFloat [] = .str [] := by
    have : ¬ ([] : Str) = "None".toList := by decide
    simp only [toItem, ne_eq, not_true, false_and, if_false, if_neg this, hf]
  refine ⟨?_, ?_, ?_, ?_⟩
  · have := C78_split_params pyFloat [(k, [Str.ofNat a])] (by simp)
      (by simp only [List.mem_singleton, forall_eq]; exact ⟨hk, by simp, by simpa using hd a⟩)
    simpa [Str.join, Str.formatItem, toItem_ofNat, readAs, ok_bind, pure_eq_ok, PyDict.set] using this
  · have := C78_split_params pyFloat [(k, [[], Str.ofNat a])] (by simp)
      (by simp only [List.mem_singleton, forall_eq]; exact ⟨hk, by simp, by simpa using hd a⟩)
    simpa [Str.join, Str.formatItem, toItem_ofNat, he, readAs, ok_bind, pure_eq_ok, PyDict.set] using this
  · have := C78_split_params pyFloat [(k, [Str.ofNat a, Str.ofNat b])] (by simp)
      (by simp only [List.mem_singleton, forall_eq]; exact ⟨hk, by simp, by simpa using ⟨hd a, hd b⟩⟩)
    simpa [Str.join, Str.formatItem, toItem_ofNat, readAs, ok_bind, pure_eq_ok, error_bind] using this
  · have := C78_split_params pyFloat [(k, [Str.ofNat a, Str.ofNat b, Str.ofNat c])] (by simp)
      (by simp only [List.mem_singleton, forall_eq]; exact ⟨hk, by simp, by simpa using ⟨hd a, hd b, hd c⟩⟩)
    simpa [Str.join, Str.formatItem, toItem_ofNat, readAs, ok_bind, pure_eq_ok, PyDict.set] using this

end SplitParams

/-- C78. `split_modifiers` undoes the appending of a modifier, and appending anything else changes only the name. -/
theorem C78_split_modifiers (h m : Str) (ms : List Str) (hm : '_' ∉ m) :
    (m ∈ ms → splitModifiers (h ++ '_' :: m) (some ms) =
      ((splitModifiers h (some ms)).1, (splitModifiers h (some ms)).2 ++ [m])) ∧
    (m ∉ ms → splitModifiers (h ++ '_' :: m) (some ms) =
      ((splitModifiers h (some ms)).1 ++ '_' :: m, (splitModifiers h (some ms)).2)) := by
  rw [splitModifiers, splitModifiers, Str.split_append_cons, Str.split_of_not_mem hm]
  cases hs : Str.split '_' h with
  | nil => exact absurd hs (Str.split_ne_nil _ _)
  | cons p ps =>
    constructor
    · intro hmem
      simp [hmem, List.filter_append, List.filter_cons]
    · intro hmem
      have hj : ∀ (l : List Str) (a : Str), Str.join '_' (a :: (l ++ [m])) = Str.join '_' (a :: l) ++ '_' :: m := by
        intro l
        induction l with
        | nil => intro a; simp [Str.join]
        | cons b l ih =>
          intro a
          rw [List.cons_append, Str.join_cons (ps := b :: (l ++ [m])) (by simp), ih b, Str.join_cons (ps := b :: l) (by simp)]
          simp
      simp [hmem, List.filter_append, List.filter_cons, hj]

example : '_' ∉ "scaled".toList ∧ splitModifiers "light_scaled".toList (some ["scaled".toList]) =
    ("light".toList, ["scaled".toList]) := by decide +kernel

/-- C78. Without a set of modifiers everything after the first part is a modifier. -/
theorem C78_split_modifiers_all (p : Str) (ps : List Str) (h : ∀ x ∈ p :: ps, '_' ∉ x) :
    splitModifiers (Str.join '_' (p :: ps)) none = (p, ps) := by
  rw [splitModifiers, Str.split_join (by simp) h]

example : splitModifiers "light_scaled_x".toList none = ("light".toList, ["scaled".toList, "x".toList]) := by decide +kernel

/-- C78. The name that `split_modifiers` gives has no modifiers left, and name and modifiers together are the parts of the
string. -/
theorem C78_split_modifiers_name (s : Str) (ms : List Str) :
    splitModifiers (splitModifiers s (some ms)).1 (some ms) = ((splitModifiers s (some ms)).1, []) ∧
    (Str.split '_' (splitModifiers s (some ms)).1 ++ (splitModifiers s (some ms)).2).Perm (Str.split '_' s) ∧
    ∀ m ∈ (splitModifiers s (some ms)).2, m ∈ ms := by
  cases hs : Str.split '_' s with
  | nil => exact absurd hs (Str.split_ne_nil _ _)
  | cons p ps =>
    have hsplit : Str.split '_' (Str.join '_' (p :: ps.filter (· ∉ ms))) = p :: ps.filter (· ∉ ms) := by
      refine Str.split_join (by simp) fun q hq => ?_
      have : q ∈ Str.split '_' s := by
        rw [hs]
        rcases List.mem_cons.1 hq with rfl | hq
        · simp
        · exact List.mem_cons_of_mem _ (List.mem_of_mem_filter hq)
      exact Str.not_mem_of_mem_split this
    have h1 : splitModifiers s (some ms) = (Str.join '_' (p :: ps.filter (· ∉ ms)), ps.filter (· ∈ ms)) := by
      rw [splitModifiers, hs]
    rw [h1]
    refine ⟨?_, ?_, ?_⟩
    · simp only
      rw [splitModifiers, hsplit]
      simp [List.filter_filter]
    · simp only
      rw [hsplit, List.cons_append]
      refine List.Perm.cons _ ?_
      have := List.filter_append_perm (fun q => decide (q ∉ ms)) ps
      simpa using this
    · intro m hm
      simpa using List.of_mem_filter hm

namespace Params

theorem removeModifiers_aux (values : List Str) (ms : Option (List Str)) (fs : List Str) (hf : fs.Nodup) :
    (values.foldl (fun fs f =>
      let name := (splitModifiers f ms).1
      if name ∈ fs then fs else fs ++ [name]) fs).Nodup ∧
    ∀ n, n ∈ (values.foldl (fun fs f =>
      let name := (splitModifiers f ms).1
      if name ∈ fs then fs else fs ++ [name]) fs) ↔ n ∈ fs ∨ ∃ f ∈ values, (splitModifiers f ms).1 = n := by
  induction values generalizing fs with
  | nil => simp [hf]
  | cons v values ih =>
    simp only [List.foldl_cons]
    by_cases hv : (splitModifiers v ms).1 ∈ fs
    · rw [if_pos hv]
      obtain ⟨h1, h2⟩ := ih fs hf
      refine ⟨h1, fun n => ?_⟩
      rw [h2]
      simp only [List.mem_cons, exists_eq_or_imp]
      constructor
      · rintro (h | h)
        · exact Or.inl h
        · exact Or.inr (Or.inr h)
      · rintro (h | rfl | h)
        · exact Or.inl h
        · exact Or.inl hv
        · exact Or.inr h
    · rw [if_neg hv]
      obtain ⟨h1, h2⟩ := ih (fs ++ [(splitModifiers v ms).1]) (by
        rw [List.nodup_append]
        refine ⟨hf, by simp, ?_⟩
        rintro a ha b hb rfl
        rw [List.mem_singleton] at hb
        exact hv (hb ▸ ha))
      refine ⟨h1, fun n => ?_⟩
      rw [h2]
      simp only [List.mem_append, List.mem_singleton, List.mem_cons, exists_eq_or_imp, or_assoc, eq_comm (a := n),
        List.not_mem_nil, false_or]

theorem removeModifiers_absorb (values : List Str) (ms : Option (List Str)) (fs : List Str) (n : Str) (hn : n ∈ fs)
    (h : ∀ f ∈ values, (splitModifiers f ms).1 = n) :
    (values.foldl (fun fs f =>
      let name := (splitModifiers f ms).1
      if name ∈ fs then fs else fs ++ [name]) fs) = fs := by
  induction values with
  | nil => rfl
  | cons v values ih =>
    simp only [List.foldl_cons, h v (by simp), if_pos hn]
    exact ih fun f hf => h f (List.mem_cons_of_mem _ hf)

end Params

/-- C78. `remove_modifiers` gives each name once. -/
theorem C78_remove_modifiers (values : List Str) (ms : Option (List Str)) :
    (removeModifiers values ms).Nodup ∧
    ∀ n, n ∈ removeModifiers values ms ↔ ∃ f ∈ values, (splitModifiers f ms).1 = n := by
  obtain ⟨h1, h2⟩ := removeModifiers_aux values ms [] (by simp)
  exact ⟨h1, fun n => by rw [removeModifiers, h2]; simp⟩

/-- C78. Removing the modifiers that were added gives what removing them at first gives. -/
theorem C78_add_remove_modifiers (headers mods : List Str) (hm : ∀ m ∈ mods, '_' ∉ m) :
    removeModifiers (addModifiers headers mods true) (some mods) = removeModifiers headers (some mods) := by
  rw [removeModifiers, removeModifiers]
  suffices hs : ∀ fs : List Str, ((addModifiers headers mods true).foldl (fun fs f =>
      let name := (splitModifiers f (some mods)).1
      if name ∈ fs then fs else fs ++ [name]) fs) = headers.foldl (fun fs f =>
      let name := (splitModifiers f (some mods)).1
      if name ∈ fs then fs else fs ++ [name]) fs from hs []
  intro fs
  induction headers generalizing fs with
  | nil => rfl
  | cons h headers ih =>
    have : addModifiers (h :: headers) mods true = h :: ((mods.filter fun m => !decide (m <:+: h)).map fun m => h ++ '_' :: m) ++
        addModifiers headers mods true := by simp [addModifiers]
    rw [this, List.foldl_append, List.foldl_cons, List.foldl_cons, ih,
      removeModifiers_absorb ((mods.filter fun m => !decide (m <:+: h)).map fun m => h ++ '_' :: m) _ _ (splitModifiers h (some mods)).1]
    · simp only
      by_cases hh : (splitModifiers h (some mods)).1 ∈ fs
      · rw [if_pos hh]; exact hh
      · rw [if_neg hh]; simp
    · intro f hf
      obtain ⟨m, hmm, rfl⟩ := List.mem_map.1 hf
      have hmem := List.mem_of_mem_filter hmm
      rw [(C78_split_modifiers h m mods (hm m hmem)).1 hmem]

example : ∀ m ∈ ["trace".toList, "scaled".toList], '_' ∉ m := by decide +kernel

/-- C78. A modifier that occurs anywhere in the name is not added. -/
theorem C78_add_modifiers_substring :
    addModifiers ["trace_rate".toList] ["trace".toList, "scaled".toList] true =
      ["trace_rate".toList, "trace_rate_scaled".toList] := by decide +kernel

/-! ## C79: approximate equality -/

/-- C79. `all_approx` holds exactly for lists of the same length whose elements are near, in both versions. -/
theorem C79_all_approx (near : ℝ → ℝ → Prop) [∀ a b, Decidable (near a b)] (l1 l2 : List ℝ) :
    allApprox near l1 l2 = true ↔ List.Forall₂ near l1 l2 := by
  have key : ∀ l1 l2 : List ℝ, l1.length = l2.length → (allApproxLoop near l1 l2 = true ↔ List.Forall₂ near l1 l2) := by
    intro l1
    induction l1 with
    | nil =>
      intro l2 h
      cases l2 with
      | nil => simp [allApproxLoop]
      | cons b l2 => simp at h
    | cons a l1 ih =>
      intro l2 h
      cases l2 with
      | nil => simp at h
      | cons b l2 =>
        rw [allApproxLoop, List.forall₂_cons]
        by_cases hn : near a b
        · rw [if_pos hn, ih l2 (by simpa using h)]; simp [hn]
        · rw [if_neg hn]; simp [hn]
  rw [allApprox]
  by_cases h : l1.length = l2.length
  · rw [if_pos h, key l1 l2 h]
  · rw [if_neg h]
    constructor
    · intro hh; cases hh
    · intro hh; exact absurd hh.length_eq h

example : List.Forall₂ (fun a b : ℝ => approxH 0 a b 4 (some 1)) [1, 2] [1, 2.05] := by
  refine List.Forall₂.cons ?_ (List.Forall₂.cons ?_ List.Forall₂.nil) <;> norm_num [approxH, abs_of_neg]

/-- C79. The two versions of `approx` agree without precision; with a positive precision that of utilities.py also accepts
numbers ten apart, while that of helpers.py requires them to agree to the given decimals. -/
theorem C79_approx (spacing a b m : ℝ) (p : ℤ) (hp : 0 < p) :
    (approxH spacing a b m none ↔ approxU spacing a b m none) ∧
    (approxH spacing a b m (some p) ↔ |a - b| < 1 / 10 ^ p) ∧
    (approxU spacing a b m (some (-p)) ↔ |a - b| ≤ 1 / 10 ^ p) ∧
    (|a - b| ≤ 10 → approxU spacing a b m (some p)) ∧
    (approxH spacing a b m (some p) → approxU spacing a b m (some p)) := by
  have h0 : p ≠ 0 := ne_of_gt hp
  have hz : (10 : ℝ) ^ (-p) = 1 / 10 ^ p := by rw [zpow_neg, one_div]
  have h10 : (10 : ℝ) ≤ 10 ^ p := by
    calc (10 : ℝ) = 10 ^ (1 : ℤ) := by simp
      _ ≤ 10 ^ p := zpow_le_zpow_right₀ (by norm_num) hp
  have hU : |a - b| ≤ 10 → approxU spacing a b m (some p) := by
    intro h
    simp only [approxU, ne_eq, h0, not_false_iff, if_true]
    exact le_trans h h10
  have hH : approxH spacing a b m (some p) ↔ |a - b| < 1 / 10 ^ p := by
    simp only [approxH, ne_eq, h0, not_false_iff, if_true, hz]
  refine ⟨Iff.rfl, hH, ?_, hU, fun h => hU ?_⟩
  · have h0' : -p ≠ 0 := by omega
    simp only [approxU, ne_eq, h0', not_false_iff, if_true, hz]
  · have h1 := hH.1 h
    have h2 : (1 : ℝ) / 10 ^ p ≤ 1 := by
      rw [div_le_one (by positivity)]; linarith
    linarith

/-- C79. `approx(0, 5, precision=2)` of utilities.py holds; that of helpers.py does not. -/
theorem C79_approx_differ : approxU 0 0 5 4 (some 2) ∧ ¬ approxH 0 0 5 4 (some 2) := by
  refine ⟨(C79_approx 0 0 5 4 2 (by norm_num)).2.2.2.1 (by norm_num), ?_⟩
  rw [(C79_approx 0 0 5 4 2 (by norm_num)).2.1]
  norm_num

/-- C79. `dicts_exact_match` tests only whether the first dictionary is part of the second. -/
theorem C79_dicts_exact_match {K V : Type} [DecidableEq K] [DecidableEq V] (d1 d2 : PyDict K V) :
    (dictsExactMatch d1 d2 = true ↔ ∀ kv ∈ d1, kv ∈ d2) ∧ dictsExactMatch ([] : PyDict K V) d2 = true := by
  constructor
  · rw [dictsExactMatch, beq_iff_eq, List.length_eq_zero_iff, List.filter_eq_nil_iff]
    simp
  · rfl

/-- C79. `dicts_exact_match` is not symmetric. -/
theorem C79_dicts_exact_match_asymmetric :
    dictsExactMatch [(0, 1)] [(0, 1), (2, 3)] = true ∧ dictsExactMatch [(0, 1), (2, 3)] [(0, 1)] = false := by decide

end Verif
