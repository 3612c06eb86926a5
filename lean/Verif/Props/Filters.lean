import Verif.Model.Filters
import Verif.Proofs.Strings
import Verif.Model.Logs

/-!
# C104: headers and filters of `FileEnvironment`
-/

namespace Verif

open Str Filters

namespace Filters

/-! ## Specification -/

/-- The names of filters that work. -/
def Known (f : Str) : Prop := f = [] ∨ f = "rollmean".toList ∨ f = "scaled".toList ∨ f = "unitvect".toList

instance (f : Str) : Decidable (Known f) := inferInstanceAs (Decidable (_ ∨ _))

/-- The exception for a name that does not work. -/
def errorOf (f : Str) : PyErr :=
  if f = "trace".toList then .notImplementedError else if f = "return".toList then .nameError else .valueError

/-- The filters asked for under the name `o` apply to the column `h`: `o` is the name of the column, or the part of it before the first hyphen if the
column is not asked for by its own name. -/
def Owner (asked : List Str) (h o : Str) : Prop :=
  o ∈ asked ∧ (h = o ∨ (h ∉ asked ∧ o = h.takeWhile (· ≠ '-')))

/-- A column is asked for. -/
def Asked (asked : List Str) (h : Str) : Prop := h ∈ asked ∨ h.takeWhile (· ≠ '-') ∈ asked

instance (asked : List Str) (h : Str) : Decidable (Asked asked h) := inferInstanceAs (Decidable (_ ∨ _))

/-- The array with 1 at every class that occurs among the labels; the class -1 is the last one, and so on. -/
def IsUnit (numClasses : ℕ) (c v : Col) : Prop :=
  (∀ x ∈ c, ∃ k : ℤ, x = k ∧ -(numClasses : ℤ) ≤ k ∧ k < numClasses) ∧ v.length = numClasses ∧
  ∀ i : ℕ, i < numClasses → v[i]? = some (if (∃ x ∈ c, x = i ∨ x = (i : ℚ) - numClasses) then 1 else 0)

/-- The filters `names` turn the column `c` of `rows` values into `c'`, where `'scaled'` uses the range of the header `hdr`. -/
inductive Filtered (roll : Option ℤ → Col → Py Col) (o : Opts) (hdr : Str) (rows : ℕ) : List Str → Col → Col → Prop
  | nil {c} : Filtered roll o hdr rows [] c c
  | skip {f ns c c'} : f = [] → Filtered roll o hdr rows ns c c' → Filtered roll o hdr rows (f :: ns) c c'
  | roll {f ns c v c'} : f = "rollmean".toList → roll o.window c = .ok v → v.length = rows → Filtered roll o hdr rows ns v c' →
      Filtered roll o hdr rows (f :: ns) c c'
  | scaled {f ns c c' rs lo hi} : f = "scaled".toList → o.ranges = some rs → PyDict.get? rs hdr = some (lo, hi) →
      Filtered roll o hdr rows ns (c.map fun x => (x - lo) / hi) c' → Filtered roll o hdr rows (f :: ns) c c'
  | unit {f ns c v c'} : f = "unitvect".toList → IsUnit o.numClasses c v → o.numClasses = rows → Filtered roll o hdr rows ns v c' →
      Filtered roll o hdr rows (f :: ns) c c'

/-! ## Helper lemmas -/

/-- The function of a name that works. -/
def funcOf (f : Str) : Option Func :=
  if f = "rollmean".toList then some .rollmean else if f = "scaled".toList then some .scaled
  else if f = "unitvect".toList then some .unitvect else none

theorem makeFilter_known {f : Str} (h : Known f) : makeFilter f = .ok (funcOf f) := by
  rcases h with rfl | rfl | rfl | rfl <;> decide

theorem makeFilter_unknown {f : Str} (h : ¬ Known f) : makeFilter f = .error (errorOf f) := by
  simp only [Known, not_or] at h
  obtain ⟨h1, h2, h3, h4⟩ := h
  simp only [makeFilter, errorOf, if_neg h1, if_neg h2, if_neg h3, if_neg h4]
  split_ifs <;> rfl

theorem makeFilters_known : ∀ (fs : List Str) (acc : List Func), (∀ f ∈ fs, Known f) →
    makeFilters fs acc = .ok (acc ++ fs.filterMap funcOf)
  | [], acc, _ => by simp [makeFilters]
  | f :: fs, acc, h => by
    have hf := makeFilter_known (h f List.mem_cons_self)
    have ih := fun acc => makeFilters_known fs acc (fun g hg => h g (List.mem_cons_of_mem _ hg))
    rw [makeFilters, hf, ok_bind]
    cases e : funcOf f with
    | none => simp [ih, List.filterMap_cons, e]
    | some g => simp [ih, List.filterMap_cons, e]

theorem makeFilters_unknown : ∀ (fs : List Str) (acc : List Func) (b : Str), fs.find? (fun f => !decide (Known f)) = some b →
    makeFilters fs acc = .error (errorOf b)
  | [], _, _, h => by simp at h
  | f :: fs, acc, b, h => by
    by_cases hf : Known f
    · rw [List.find?_cons_of_neg (by simpa using hf)] at h
      rw [makeFilters, makeFilter_known hf, ok_bind]
      cases funcOf f with
      | none => exact makeFilters_unknown fs _ b h
      | some g => exact makeFilters_unknown fs _ b h
    · rw [List.find?_cons_of_pos (by simpa using hf)] at h
      obtain rfl := Option.some.inj h
      rw [makeFilters, makeFilter_unknown hf, error_bind]

theorem filterLoop_known : ∀ (kw : List (Str × List Str)) (ff : PyDict Str (List Func)) (hv : Option Str),
    (∀ p ∈ kw, ∀ f ∈ p.2, Known f) →
    filterLoop kw ff hv = .ok (kw.foldl (fun d p => PyDict.set d p.1 (p.2.filterMap funcOf)) ff, (kw.getLast?.map Prod.fst).or hv)
  | [], ff, hv, _ => by simp [filterLoop]
  | (h, fs) :: l, ff, hv, hk => by
    rw [filterLoop, makeFilters_known fs [] (hk (h, fs) List.mem_cons_self), ok_bind,
      filterLoop_known l _ _ (fun p hp => hk p (List.mem_cons_of_mem _ hp)), List.getLast?_cons]
    cases l.getLast? <;> simp

theorem filterLoop_unknown : ∀ (kw : List (Str × List Str)) (ff : PyDict Str (List Func)) (hv : Option Str) (b : Str),
    (kw.flatMap Prod.snd).find? (fun f => !decide (Known f)) = some b → filterLoop kw ff hv = .error (errorOf b)
  | [], _, _, _, h => by simp at h
  | (hd, fs) :: l, ff, hv, b, h => by
    rw [List.flatMap_cons, List.find?_append] at h
    cases e : fs.find? (fun f => !decide (Known f)) with
    | some b' =>
      rw [show (hd, fs).2 = fs from rfl, e] at h
      obtain rfl := Option.some.inj h
      rw [filterLoop, makeFilters_unknown fs [] b' e, error_bind]
    | none =>
      rw [show (hd, fs).2 = fs from rfl, e] at h
      have hk : ∀ f ∈ fs, Known f := by simpa using e
      rw [filterLoop, makeFilters_known fs [] hk, ok_bind]
      exact filterLoop_unknown l _ _ b h

theorem keys_foldl (kw : List (Str × List Str)) : ∀ (ff : PyDict Str (List Func)) (k : Str),
    k ∈ PyDict.keys (kw.foldl (fun d p => PyDict.set d p.1 (p.2.filterMap funcOf)) ff) ↔ k ∈ PyDict.keys ff ∨ k ∈ kw.map Prod.fst := by
  induction kw with
  | nil => simp
  | cons p kw ih =>
    intro ff k
    rw [List.foldl_cons, ih, PyDict.mem_keys_set]
    simp only [List.map_cons, List.mem_cons]
    tauto

theorem get?_foldl (kw : List (Str × List Str)) : ∀ (ff : PyDict Str (List Func)), (kw.map Prod.fst).Nodup →
    (∀ p ∈ kw, PyDict.get? (kw.foldl (fun d p => PyDict.set d p.1 (p.2.filterMap funcOf)) ff) p.1 = some (p.2.filterMap funcOf)) ∧
    (∀ k, k ∉ kw.map Prod.fst → PyDict.get? (kw.foldl (fun d p => PyDict.set d p.1 (p.2.filterMap funcOf)) ff) k = PyDict.get? ff k) := by
  induction kw with
  | nil => simp
  | cons q kw ih =>
    intro ff hn
    rw [List.map_cons, List.nodup_cons] at hn
    obtain ⟨h1, h2⟩ := ih (PyDict.set ff q.1 (q.2.filterMap funcOf)) hn.2
    refine ⟨fun p hp => ?_, fun k hk => ?_⟩
    · rcases List.mem_cons.1 hp with rfl | hp
      · rw [List.foldl_cons, h2 _ hn.1, PyDict.get?_set_self]
      · exact h1 p hp
    · rw [List.map_cons, List.mem_cons, not_or] at hk
      rw [List.foldl_cons, h2 _ hk.2, PyDict.get?_set_other _ _ hk.1]

theorem headD_split (h : Str) : (split '-' h).headD [] = h.takeWhile (· ≠ '-') := by
  induction h with
  | nil => rfl
  | cons c h ih =>
    by_cases e : c = '-'
    · subst e
      rw [split_cons_self]
      simp
    · obtain ⟨p, ps, h1, h2⟩ := split_cons_ne e h
      rw [h1] at ih
      rw [h2, List.takeWhile_cons_of_pos (by simpa using e), ← ih]
      rfl

theorem setHeaders_spec (asked : List Str) : ∀ (hs : List Str) (s : Headers),
    (setHeaders asked hs s).headers = s.headers ++ hs.filter (fun h => decide (Asked asked h)) ∧
    ∀ h, PyDict.get? (setHeaders asked hs s).mapping h =
      if h ∈ hs ∧ h ∉ asked ∧ h.takeWhile (· ≠ '-') ∈ asked then some (h.takeWhile (· ≠ '-')) else PyDict.get? s.mapping h
  | [], s => by simp [setHeaders]
  | h :: hs, s => by
    rw [setHeaders]
    by_cases h1 : h ∈ asked
    · rw [if_pos h1]
      obtain ⟨i1, i2⟩ := setHeaders_spec asked hs ⟨s.headers ++ [h], s.mapping⟩
      refine ⟨by rw [i1, List.filter_cons_of_pos (by simp [Asked, h1])]; simp, fun k => ?_⟩
      rw [i2]
      by_cases hk : k = h
      · subst hk
        simp [h1]
      · simp [hk]
    rw [if_neg h1, headD_split]
    dsimp only
    by_cases h2 : h.takeWhile (· ≠ '-') ∈ asked
    · rw [if_pos h2]
      obtain ⟨i1, i2⟩ := setHeaders_spec asked hs ⟨s.headers ++ [h], PyDict.set s.mapping h (h.takeWhile (· ≠ '-'))⟩
      refine ⟨by rw [i1, List.filter_cons_of_pos (by rw [decide_eq_true_iff]; exact Or.inr h2)]; simp, fun k => ?_⟩
      rw [i2]
      by_cases hk : k = h
      · subst hk
        rw [PyDict.get?_set_self, if_pos (⟨List.mem_cons_self, h1, h2⟩ : k ∈ k :: hs ∧ _)]
        split_ifs <;> rfl
      · rw [PyDict.get?_set_other _ _ hk]
        simp [hk]
    · rw [if_neg h2]
      obtain ⟨i1, i2⟩ := setHeaders_spec asked hs s
      refine ⟨by rw [i1, List.filter_cons_of_neg (by rw [decide_eq_true_iff]; exact fun h => h.elim h1 h2)], fun k => ?_⟩
      rw [i2]
      by_cases hk : k = h
      · subst hk
        rw [if_neg (fun h => h2 h.2.2), if_neg (fun h => h2 h.2.2)]
      · simp [hk]

theorem setOne_eq_ok {n : ℕ} {x v : Col} {label : ℚ} (hx : x.length = n) :
    setOne x label = .ok v ↔ ∃ k : ℤ, label = k ∧ -(n : ℤ) ≤ k ∧ k < n ∧ v = x.set (if 0 ≤ k then k else n + k).toNat 1 := by
  subst hx
  unfold setOne
  by_cases hd : label.den = 1
  · have hl : label = (label.num : ℚ) := ((Rat.den_eq_one_iff _).1 hd).symm
    rw [if_pos hd]
    generalize label.num = m at hl
    subst hl
    have huniq : ∀ k : ℤ, ((m : ℚ) = (k : ℚ)) ↔ m = k := fun k => Int.cast_inj
    simp only [huniq]
    constructor
    · intro h
      split_ifs at h with h1 h2
      · exact ⟨m, rfl, by omega, by omega, by rw [if_pos h1.1]; exact (Except.ok.inj h).symm⟩
      · exact ⟨m, rfl, by omega, by omega, by rw [if_neg (by omega)]; exact (Except.ok.inj h).symm⟩
    · rintro ⟨k, rfl, h1, h2, rfl⟩
      by_cases h0 : 0 ≤ m
      · rw [if_pos ⟨h0, h2⟩, if_pos h0]
      · rw [if_neg (fun h => h0 h.1), if_pos ⟨by omega, h1⟩, if_neg h0]
  · rw [if_neg hd]
    refine ⟨fun h => (by cases h), ?_⟩
    rintro ⟨k, rfl, -⟩
    exact absurd (Rat.den_intCast k) hd

theorem ite_or' {P Q : Prop} [Decidable P] [Decidable Q] [Decidable (Q ∨ P)] (a b : Option ℚ) :
    (if P then a else if Q then a else b) = if Q ∨ P then a else b := by
  by_cases hP : P <;> by_cases hQ : Q <;> simp [hP, hQ]

theorem foldlM_setOne (n : ℕ) : ∀ (c x v : Col), x.length = n →
    (c.foldlM setOne x = .ok v ↔ (∀ y ∈ c, ∃ k : ℤ, y = k ∧ -(n : ℤ) ≤ k ∧ k < n) ∧ v.length = n ∧
      ∀ i : ℕ, i < n → v[i]? = if (∃ y ∈ c, y = i ∨ y = (i : ℚ) - n) then some 1 else x[i]?)
  | [], x, v, hx => by
    simp only [List.foldlM_nil, pure_eq_ok, Except.ok.injEq, List.not_mem_nil, false_imp_iff, implies_true, false_and, exists_false,
      if_false, true_and]
    constructor
    · rintro rfl
      exact ⟨hx, fun _ _ => rfl⟩
    · rintro ⟨h1, h2⟩
      refine (List.ext_getElem? fun i => ?_).symm
      by_cases hi : i < n
      · exact h2 i hi
      · rw [List.getElem?_eq_none (by omega), List.getElem?_eq_none (by omega)]
  | y :: c, x, v, hx => by
    rw [List.foldlM_cons, bind_eq_ok]
    have hset : ∀ (k : ℤ), -(n : ℤ) ≤ k → k < n → ∀ i : ℕ, i < n →
        (x.set (if 0 ≤ k then k else n + k).toNat 1)[i]? =
          if ((k : ℚ) = i ∨ (k : ℚ) = (i : ℚ) - n) then some 1 else x[i]? := by
      intro k h1 h2 i hi
      rw [List.getElem?_set]
      have e1 : ((k : ℚ) = i ∨ (k : ℚ) = (i : ℚ) - n) ↔ (if 0 ≤ k then k else n + k).toNat = i := by
        have a : ((k : ℚ) = i) ↔ k = (i : ℤ) := by exact_mod_cast Iff.rfl
        have b : ((k : ℚ) = (i : ℚ) - n) ↔ k = (i : ℤ) - n := by exact_mod_cast Iff.rfl
        rw [a, b]
        split_ifs <;> omega
      by_cases h : (if 0 ≤ k then k else n + k).toNat = i
      · rw [if_pos h, if_pos (by omega), if_pos (e1.2 h)]
      · rw [if_neg h, if_neg (fun h' => h (e1.1 h'))]
    constructor
    · rintro ⟨x', h1, h2⟩
      obtain ⟨k, rfl, hk1, hk2, rfl⟩ := (setOne_eq_ok hx).1 h1
      obtain ⟨i1, i2, i3⟩ := (foldlM_setOne n c _ v (by simpa using hx)).1 h2
      refine ⟨?_, i2, fun i hi => ?_⟩
      · intro z hz
        rcases List.mem_cons.1 hz with rfl | hz
        · exact ⟨k, rfl, hk1, hk2⟩
        · exact i1 z hz
      · rw [i3 i hi, hset k hk1 hk2 i hi]
        simp only [List.exists_mem_cons_iff]
        exact ite_or' _ _
    · rintro ⟨i1, i2, i3⟩
      obtain ⟨k, rfl, hk1, hk2⟩ := i1 y List.mem_cons_self
      refine ⟨_, (setOne_eq_ok hx).2 ⟨k, rfl, hk1, hk2, rfl⟩, (foldlM_setOne n c _ v (by simpa using hx)).2
        ⟨fun z hz => i1 z (List.mem_cons_of_mem _ hz), i2, fun i hi => ?_⟩⟩
      rw [i3 i hi, hset k hk1 hk2 i hi]
      simp only [List.exists_mem_cons_iff]
      exact (ite_or' _ _).symm

theorem unitizer_eq_ok {n : ℕ} {c v : Col} : unitizer n c = .ok v ↔ IsUnit n c v := by
  rw [unitizer, foldlM_setOne n c _ v (by simp), IsUnit]
  have : ∀ i : ℕ, i < n → ((if (∃ y ∈ c, y = i ∨ y = (i : ℚ) - n) then some 1 else (List.replicate n (0 : ℚ))[i]?) =
      some (if (∃ y ∈ c, y = (i : ℚ) ∨ y = (i : ℚ) - n) then 1 else 0)) := by
    intro i hi
    rw [List.getElem?_replicate, if_pos hi]
    split_ifs <;> rfl
  constructor
  · rintro ⟨h1, h2, h3⟩
    exact ⟨h1, h2, fun i hi => (h3 i hi).trans (this i hi)⟩
  · rintro ⟨h1, h2, h3⟩
    exact ⟨h1, h2, fun i hi => (h3 i hi).trans (this i hi).symm⟩

theorem applyAll_iff (roll : Option ℤ → Col → Py Col) (o : Opts) (hdr : Str) (rows : ℕ) : ∀ (ns : List Str) (c c' : Col),
    (∀ f ∈ ns, Known f) → c.length = rows →
    (applyAll roll o (some hdr) rows (ns.filterMap funcOf) c = .ok c' ↔ Filtered roll o hdr rows ns c c')
  | [], c, c', _, _ => by
    simp only [List.filterMap_nil, applyAll, Except.ok.injEq]
    constructor
    · rintro rfl
      exact .nil
    · rintro ⟨⟩
      rfl
  | f :: ns, c, c', hk, hc => by
    have ih := fun c hc => applyAll_iff roll o hdr rows ns c c' (fun g hg => hk g (List.mem_cons_of_mem _ hg)) hc
    have hassign : ∀ v w : Col, assign rows v = .ok w ↔ v.length = rows ∧ w = v := by
      intro v w
      unfold assign
      split_ifs with h
      · simp [h, eq_comm]
      · simp [h]
    have hl : ∀ lo hi : ℚ, (c.map fun x => (x - lo) / hi).length = rows := fun _ _ => by simpa using hc
    constructor
    · intro h
      rcases hk f List.mem_cons_self with e | e | e | e
      · rw [List.filterMap_cons_none (by rw [e]; decide), ih c hc] at h
        exact .skip e h
      · rw [List.filterMap_cons_some (b := Func.rollmean) (by rw [e]; decide)] at h
        simp only [applyAll, call, bind_eq_ok, hassign] at h
        obtain ⟨v, h1, w, ⟨h2, rfl⟩, h3⟩ := h
        exact .roll e h1 h2 ((ih _ h2).1 h3)
      · rw [List.filterMap_cons_some (b := Func.scaled) (by rw [e]; decide)] at h
        simp only [applyAll, call, bind_eq_ok, hassign, pure_eq_ok, Except.ok.injEq] at h
        obtain ⟨v, ⟨⟨lo, hi⟩, h1, rfl⟩, w, ⟨h2, rfl⟩, h3⟩ := h
        cases e1 : o.ranges with
        | none => simp [rangeOf, e1] at h1
        | some rs =>
          simp only [rangeOf, e1, PyDict.getE] at h1
          cases e2 : PyDict.get? rs hdr with
          | none => simp [e2] at h1
          | some q =>
            rw [e2] at h1
            obtain rfl := Except.ok.inj h1
            exact .scaled e e1 e2 ((ih _ h2).1 h3)
      · rw [List.filterMap_cons_some (b := Func.unitvect) (by rw [e]; decide)] at h
        simp only [applyAll, call, bind_eq_ok, hassign, unitizer_eq_ok] at h
        obtain ⟨v, h1, w, ⟨h2, rfl⟩, h3⟩ := h
        exact .unit e h1 (h1.2.1.symm.trans h2) ((ih _ h2).1 h3)
    · intro h
      cases h with
      | skip e h =>
        rw [List.filterMap_cons_none (by rw [e]; decide), ih c hc]
        exact h
      | roll e h1 h2 h3 =>
        rw [List.filterMap_cons_some (b := Func.rollmean) (by rw [e]; decide)]
        simp only [applyAll, call, bind_eq_ok, hassign]
        exact ⟨_, h1, _, ⟨h2, rfl⟩, (ih _ h2).2 h3⟩
      | @scaled _ _ _ _ rs lo hi e h1 h2 h3 =>
        rw [List.filterMap_cons_some (b := Func.scaled) (by rw [e]; decide)]
        simp only [applyAll, call, bind_eq_ok, hassign, pure_eq_ok, Except.ok.injEq]
        exact ⟨_, ⟨(lo, hi), by simp only [rangeOf, h1, PyDict.getE, h2], rfl⟩, _, ⟨hl _ _, rfl⟩, (ih _ (hl _ _)).2 h3⟩
      | unit e h1 h2 h3 =>
        rw [List.filterMap_cons_some (b := Func.unitvect) (by rw [e]; decide)]
        simp only [applyAll, call, bind_eq_ok, hassign, unitizer_eq_ok]
        exact ⟨_, h1, _, ⟨h1.2.1.trans h2, rfl⟩, (ih _ (h1.2.1.trans h2)).2 h3⟩

theorem filterBlock_iff (roll : Option ℤ → Col → Py Col) (o : Opts) (hv : Option Str) (mapping : PyDict Str Str) (rows : ℕ)
    (ff : PyDict Str (List Func)) (raw : Str → Col) : ∀ (hs : List Str) (d : List (Str × Col)),
    (∀ h ∈ hs, (PyDict.get? mapping h).getD h ∈ PyDict.keys ff) →
    ((∃ ff', filterBlock roll o hv mapping rows (hs.map fun h => (h, raw h)) ff = .ok (d, ff')) ↔
      List.Forall₂ (fun h p => p.1 = h ∧ ∃ fs, PyDict.get? ff ((PyDict.get? mapping h).getD h) = some fs ∧
        applyAll roll o hv rows fs (raw h) = .ok p.2) hs d)
  | [], d, _ => by
    simp only [List.map_nil, filterBlock, Except.ok.injEq, Prod.mk.injEq, List.forall₂_nil_left_iff]
    constructor
    · rintro ⟨_, h, -⟩
      exact h.symm
    · rintro rfl
      exact ⟨_, rfl, rfl⟩
  | h :: hs, d, hm => by
    obtain ⟨fs, hfs⟩ := PyDict.get?_isSome.2 (hm h List.mem_cons_self)
    have ih := fun d => filterBlock_iff roll o hv mapping rows ff raw hs d (fun k hk => hm k (List.mem_cons_of_mem _ hk))
    have hl : lookup ff ((PyDict.get? mapping h).getD h) = (fs, ff) := by rw [lookup, hfs]
    simp only [List.map_cons, filterBlock, hl, bind_eq_ok, pure_eq_ok, Except.ok.injEq, Prod.mk.injEq, Prod.exists, List.forall₂_cons_left_iff]
    constructor
    · rintro ⟨ff', c', h1, d', ff'', h2, rfl, rfl⟩
      exact ⟨h, c', d', ⟨rfl, fs, hfs, h1⟩, (ih d').1 ⟨_, h2⟩, rfl⟩
    · rintro ⟨k, c', d', ⟨rfl, fs', h1, h2⟩, h3, rfl⟩
      obtain ⟨ff', h4⟩ := (ih d').2 h3
      rw [hfs] at h1
      obtain rfl := Option.some.inj h1
      exact ⟨ff', c', h2, d', ff', h4, rfl, rfl⟩

end Filters

/-- **C104 (names of filters).** The constructor accepts exactly `rollmean`, `scaled`, `unitvect` and nothing at all as filters.  The first other name
raises: `trace` NotImplementedError, `return` NameError because `gamma` is not defined, and any other name ValueError. -/
theorem C104_filter_names (kw : List (Str × List Str)) :
    match (kw.flatMap Prod.snd).find? (fun f => !decide (Known f)) with
    | some bad => getFileFilters kw = .error (errorOf bad)
    | none => ∃ r, getFileFilters kw = .ok r := by
  split
  · rename_i bad h
    exact filterLoop_unknown kw [] none bad h
  · rename_i h
    have hk : ∀ p ∈ kw, ∀ f ∈ p.2, Known f := by
      intro p hp f hf
      have := List.find?_eq_none.1 h f (List.mem_flatMap.2 ⟨p, hp, hf⟩)
      simpa using this
    exact ⟨_, filterLoop_known kw [] none hk⟩

/-- **C104 (filters of a block).** A block is read if and only if every column that is asked for can be filtered, and then consists of these columns in
the order of the file, each filtered by its own filters in the order given.  But `'scaled'` always uses the range of the header given last. -/
theorem C104_block (roll : Option ℤ → Col → Py Col) (o : Opts) (kw : List (Str × List Str)) (last : Str × List Str) (fileHeaders : List Str)
    (rows : ℕ) (raw : Str → Col) (d : List (Str × Col)) (hlast : kw.getLast? = some last) (hn : (kw.map Prod.fst).Nodup)
    (hk : ∀ p ∈ kw, ∀ f ∈ p.2, Known f) (hr : ∀ h ∈ fileHeaders, (raw h).length = rows) :
    readBlock roll o kw fileHeaders rows raw = .ok d ↔
      List.Forall₂ (fun h p => p.1 = h ∧ ∃ own names, Owner (kw.map Prod.fst) h own ∧ (own, names) ∈ kw ∧
        Filtered roll o last.1 rows names (raw h) p.2)
      (fileHeaders.filter fun h => decide (Asked (kw.map Prod.fst) h)) d := by
  set asked := kw.map Prod.fst with hasked
  set ff := kw.foldl (fun d p => PyDict.set d p.1 (p.2.filterMap funcOf)) [] with hff
  have hget : getFileFilters kw = .ok (ff, some last.1) := by
    rw [getFileFilters, filterLoop_known kw [] none hk, hlast]
    rfl
  have hkeys : ∀ k, k ∈ PyDict.keys ff ↔ k ∈ asked := fun k => by
    rw [hff, keys_foldl]
    simp [hasked]
  obtain ⟨hff1, -⟩ := get?_foldl kw [] hn
  obtain ⟨s1, s2⟩ := setHeaders_spec (PyDict.keys ff) fileHeaders ⟨[], []⟩
  set hd := setHeaders (PyDict.keys ff) fileHeaders ⟨[], []⟩ with hhd
  have hasked' : ∀ h, Asked (PyDict.keys ff) h ↔ Asked asked h := fun h => by simp only [Asked, hkeys]
  have hheads : hd.headers = fileHeaders.filter fun h => decide (Asked asked h) := by
    rw [s1, List.nil_append]
    exact List.filter_congr fun h _ => by simp only [hasked']
  -- the owner of a column
  have hown : ∀ h ∈ hd.headers, Owner asked h ((PyDict.get? hd.mapping h).getD h) ∧
      ∀ own, Owner asked h own → own = (PyDict.get? hd.mapping h).getD h := by
    intro h hh
    rw [hheads, List.mem_filter, decide_eq_true_iff] at hh
    rw [s2 h]
    simp only [hkeys, Owner]
    by_cases h1 : h ∈ asked
    · rw [if_neg (fun h => h.2.1 h1)]
      refine ⟨⟨h1, Or.inl rfl⟩, ?_⟩
      rintro own ⟨-, e | ⟨e, -⟩⟩
      · exact e.symm
      · exact absurd h1 e
    · have h2 := hh.2.resolve_left h1
      rw [if_pos ⟨hh.1, h1, h2⟩]
      refine ⟨⟨h2, Or.inr ⟨h1, rfl⟩⟩, ?_⟩
      rintro own ⟨e0, e | ⟨-, e⟩⟩
      · subst e
        exact absurd e0 h1
      · exact e
  have hmem : ∀ h ∈ hd.headers, (PyDict.get? hd.mapping h).getD h ∈ PyDict.keys ff := fun h hh => (hkeys _).2 (hown h hh).1.1
  have hiff := filterBlock_iff roll o (some last.1) hd.mapping rows ff raw hd.headers d hmem
  have hread : readBlock roll o kw fileHeaders rows raw = .ok d ↔
      ∃ ff', filterBlock roll o (some last.1) hd.mapping rows (hd.headers.map fun h => (h, raw h)) ff = .ok (d, ff') := by
    simp only [readBlock, hget, ok_bind, bind_eq_ok, pure_eq_ok, Except.ok.injEq, Prod.exists]
    constructor
    · rintro ⟨d', ff', h, rfl⟩
      exact ⟨ff', h⟩
    · rintro ⟨ff', h⟩
      exact ⟨d, ff', h, rfl⟩
  rw [hread, hiff, ← hheads]
  have hcol : ∀ h ∈ hd.headers, ∀ p : Str × Col,
      ((p.1 = h ∧ ∃ fs, PyDict.get? ff ((PyDict.get? hd.mapping h).getD h) = some fs ∧
        applyAll roll o (some last.1) rows fs (raw h) = .ok p.2) ↔
      (p.1 = h ∧ ∃ own names, Owner asked h own ∧ (own, names) ∈ kw ∧ Filtered roll o last.1 rows names (raw h) p.2)) := by
    intro h hh p
    obtain ⟨o1, o2⟩ := hown h hh
    have hlen : (raw h).length = rows := hr h (by rw [hheads] at hh; exact (List.mem_filter.1 hh).1)
    refine and_congr Iff.rfl ⟨?_, ?_⟩
    · rintro ⟨fs, h1, h2⟩
      obtain ⟨⟨own, names⟩, hq, hq'⟩ := List.mem_map.1 o1.1
      dsimp only at hq'
      rw [← hq', hff1 _ hq] at h1
      obtain rfl := Option.some.inj h1
      exact ⟨own, names, hq' ▸ o1, hq, (applyAll_iff roll o last.1 rows names _ _ (hk _ hq) hlen).1 h2⟩
    · rintro ⟨own, names, h1, h2, h3⟩
      refine ⟨names.filterMap funcOf, ?_, (applyAll_iff roll o last.1 rows names _ _ (hk _ h2) hlen).2 h3⟩
      rw [← o2 own h1]
      exact hff1 _ h2
  generalize hd.headers = hs at hcol
  clear hiff hread hmem hown hheads hhd
  constructor
  · intro h
    induction h with
    | nil => exact .nil
    | @cons a b l1 l2 h1 _ ih =>
      exact .cons ((hcol a List.mem_cons_self b).1 h1) (ih fun x hx => hcol x (List.mem_cons_of_mem _ hx))
  · intro h
    induction h with
    | nil => exact .nil
    | @cons a b l1 l2 h1 _ ih =>
      exact .cons ((hcol a List.mem_cons_self b).2 h1) (ih fun x hx => hcol x (List.mem_cons_of_mem _ hx))

/-- **C104 (column without filters).** A column for whose header no filter, or an empty list of filters, was given is not changed. -/
theorem C104_no_filter (roll : Option ℤ → Col → Py Col) (o : Opts) (hv : Option Str) (mapping : PyDict Str Str) (rows : ℕ) (d : List (Str × Col))
    (ff : PyDict Str (List Func))
    (h : ∀ p ∈ d, PyDict.get? ff ((PyDict.get? mapping p.1).getD p.1) = none ∨ PyDict.get? ff ((PyDict.get? mapping p.1).getD p.1) = some []) :
    ∃ ff', filterBlock roll o hv mapping rows d ff = .ok (d, ff') := by
  induction d generalizing ff with
  | nil => exact ⟨ff, rfl⟩
  | cons p d ih =>
    obtain ⟨h1, c⟩ := p
    rw [List.forall_mem_cons] at h
    have hl : ∃ ff', lookup ff ((PyDict.get? mapping h1).getD h1) = ([], ff') ∧
        ∀ k, PyDict.get? ff k = none ∨ PyDict.get? ff k = some [] → PyDict.get? ff' k = none ∨ PyDict.get? ff' k = some [] := by
      rcases h.1 with h2 | h2
      · refine ⟨PyDict.set ff _ [], by rw [lookup, h2], fun k hk => ?_⟩
        by_cases e : k = (PyDict.get? mapping h1).getD h1
        · rw [e, PyDict.get?_set_self]
          exact Or.inr rfl
        · rw [PyDict.get?_set_other _ _ e]
          exact hk
      · exact ⟨ff, by rw [lookup, h2], fun k hk => hk⟩
    obtain ⟨ff1, hl1, hl2⟩ := hl
    obtain ⟨ff2, h2⟩ := ih ff1 fun p hp => hl2 _ (h.2 p hp)
    exact ⟨ff2, by simp only [filterBlock, hl1, applyAll, ok_bind, h2, pure_eq_ok]⟩

/-- The full claim about scaling: every column is filtered with the range of its own header. -/
def Filters.OwnRanges (roll : Option ℤ → Col → Py Col) (o : Opts) (kw : List (Str × List Str)) (fileHeaders : List Str) (rows : ℕ)
    (raw : Str → Col) (d : List (Str × Col)) : Prop :=
  List.Forall₂ (fun h p => p.1 = h ∧ ∃ own names, Owner (kw.map Prod.fst) h own ∧ (own, names) ∈ kw ∧
      Filtered roll o own rows names (raw h) p.2)
    (fileHeaders.filter fun h => decide (Asked (kw.map Prod.fst) h)) d

theorem Filters.filtered_congr {roll : Option ℤ → Col → Py Col} {o : Opts} {rows : ℕ} {a b : Str} {names : List Str} {c c' : Col}
    (he : "scaled".toList ∈ names → ∀ rs, o.ranges = some rs → PyDict.get? rs a = PyDict.get? rs b)
    (h : Filtered roll o a rows names c c') : Filtered roll o b rows names c c' := by
  induction h with
  | nil => exact .nil
  | skip e _ ih => exact .skip e (ih fun hm => he (List.mem_cons_of_mem _ hm))
  | roll e h1 h2 _ ih => exact .roll e h1 h2 (ih fun hm => he (List.mem_cons_of_mem _ hm))
  | scaled e h1 h2 _ ih =>
    refine .scaled e h1 ?_ (ih fun hm => he (List.mem_cons_of_mem _ hm))
    rw [← he (by rw [e]; exact List.mem_cons_self) _ h1]
    exact h2
  | unit e h1 h2 _ ih => exact .unit e h1 h2 (ih fun hm => he (List.mem_cons_of_mem _ hm))

/-- **C104 (own ranges, partial).** If every header with the filter `'scaled'` has the same range as the header given last, then every column is
filtered with the range of its own header.  Without the condition this is false, see `C104_wrong_range`. -/
theorem C104_own_ranges_partial (roll : Option ℤ → Col → Py Col) (o : Opts) (kw : List (Str × List Str)) (last : Str × List Str)
    (fileHeaders : List Str) (rows : ℕ) (raw : Str → Col) (d : List (Str × Col)) (hlast : kw.getLast? = some last)
    (hn : (kw.map Prod.fst).Nodup) (hk : ∀ p ∈ kw, ∀ f ∈ p.2, Known f) (hr : ∀ h ∈ fileHeaders, (raw h).length = rows)
    (hsame : ∀ p ∈ kw, "scaled".toList ∈ p.2 → ∀ rs, o.ranges = some rs → PyDict.get? rs last.1 = PyDict.get? rs p.1) :
    readBlock roll o kw fileHeaders rows raw = .ok d ↔ OwnRanges roll o kw fileHeaders rows raw d := by
  rw [C104_block roll o kw last fileHeaders rows raw d hlast hn hk hr, OwnRanges]
  constructor
  · refine List.Forall₂.imp ?_
    rintro h p ⟨e, own, names, h1, h2, h3⟩
    exact ⟨e, own, names, h1, h2, filtered_congr (hsame _ h2) h3⟩
  · refine List.Forall₂.imp ?_
    rintro h p ⟨e, own, names, h1, h2, h3⟩
    exact ⟨e, own, names, h1, h2, filtered_congr (fun hm rs hrs => (hsame _ h2 hm rs hrs).symm) h3⟩

/-- **C104 (wrong range).** With two scaled headers the first is scaled with the range of the second: the value 5 of a column with the range (0, 10)
becomes 5/2 and not 1/2 if the range of the other column is (0, 2). -/
theorem C104_wrong_range : ∃ (o : Opts) (kw : List (Str × List Str)) (fileHeaders : List Str) (raw : Str → Col) (d : List (Str × Col)),
    (kw.map Prod.fst).Nodup ∧ (∀ p ∈ kw, ∀ f ∈ p.2, Known f) ∧ (∀ h ∈ fileHeaders, (raw h).length = 1) ∧
    (∀ roll, readBlock roll o kw fileHeaders 1 raw = .ok d) ∧ ∀ roll, ¬ OwnRanges roll o kw fileHeaders 1 raw d := by
  refine ⟨⟨none, some [("a".toList, (0, 10)), ("b".toList, (0, 2))], 0⟩,
    [("a".toList, ["scaled".toList]), ("b".toList, ["scaled".toList])], ["a".toList, "b".toList],
    (fun h => if h = "a".toList then [5] else [1]), [("a".toList, [5 / 2]), ("b".toList, [1 / 2])],
    by decide, by decide, by decide, fun roll => ?_, fun roll h => ?_⟩
  · have e1 : ∀ c : Col, applyAll roll ⟨none, some [("a".toList, (0, 10)), ("b".toList, (0, 2))], 0⟩ (some "b".toList) 1 [.scaled] c =
        (assign 1 (c.map fun x => (x - 0) / 2)) := by
      intro c
      simp only [applyAll, call]
      rw [show rangeOf ⟨none, some [("a".toList, (0, 10)), ("b".toList, (0, 2))], 0⟩ (some "b".toList) = .ok (0, 2) by decide]
      simp only [ok_bind, pure_eq_ok]
      cases assign 1 (c.map fun x => (x - 0) / 2) <;> rfl
    have e2 : getFileFilters [("a".toList, ["scaled".toList]), ("b".toList, ["scaled".toList])] =
        .ok ([("a".toList, [.scaled]), ("b".toList, [.scaled])], some "b".toList) := by decide
    rw [readBlock, e2]
    simp only [ok_bind]
    rw [show (setHeaders (PyDict.keys [("a".toList, [Func.scaled]), ("b".toList, [Func.scaled])]) ["a".toList, "b".toList] ⟨[], []⟩) =
      ⟨["a".toList, "b".toList], []⟩ from rfl]
    simp only [List.map_cons, List.map_nil, filterBlock]
    rw [show lookup [("a".toList, [Func.scaled]), ("b".toList, [Func.scaled])] ((PyDict.get? ([] : PyDict Str Str) "a".toList).getD "a".toList) =
      ([.scaled], [("a".toList, [.scaled]), ("b".toList, [.scaled])]) by decide]
    dsimp only
    rw [show lookup [("a".toList, [Func.scaled]), ("b".toList, [Func.scaled])] ((PyDict.get? ([] : PyDict Str Str) "b".toList).getD "b".toList) =
      ([.scaled], [("a".toList, [.scaled]), ("b".toList, [.scaled])]) by decide]
    dsimp only
    rw [e1, e1, if_pos trivial, if_neg (by decide)]
    simp only [List.map_cons, List.map_nil, assign, List.length_cons, List.length_nil, if_true, ok_bind, pure_eq_ok]
    norm_num
  · rw [OwnRanges, show (["a".toList, "b".toList].filter fun h => decide (Asked
      ([("a".toList, ["scaled".toList]), ("b".toList, ["scaled".toList])].map Prod.fst) h)) = ["a".toList, "b".toList] by decide] at h
    cases h with
    | cons h1 _ =>
      obtain ⟨-, own, names, ⟨ho, ho'⟩, hm, hf⟩ := h1
      have hown : own = "a".toList := by
        rcases ho' with e | ⟨e, -⟩
        · exact e.symm
        · exact absurd (by decide) e
      subst hown
      have hnames : names = ["scaled".toList] := by
        simp only [List.mem_cons, List.not_mem_nil, or_false, Prod.mk.injEq] at hm
        rcases hm with ⟨-, e⟩ | ⟨e, -⟩
        · exact e
        · exact absurd e (by decide)
      subst hnames
      cases hf with
      | skip e _ => exact absurd e (by decide)
      | roll e _ _ _ => exact absurd e (by decide)
      | unit e _ _ _ => exact absurd e (by decide)
      | scaled e h1 h2 h3 =>
        obtain rfl := Option.some.inj h1
        have h2' := (show PyDict.get? [("a".toList, ((0 : ℚ), (10 : ℚ))), ("b".toList, (0, 2))] "a".toList = some (0, 10) by decide).symm.trans h2
        simp only [Option.some.injEq, Prod.mk.injEq] at h2'
        obtain ⟨rfl, rfl⟩ := h2'
        rw [if_pos rfl] at h3
        have hnil : ∀ {c c' : Col}, Filtered roll ⟨none, some [("a".toList, (0, 10)), ("b".toList, (0, 2))], 0⟩ "a".toList 1 [] c c' → c = c' := by
          intro c c' h
          cases h
          rfl
        have := hnil h3
        norm_num at this

/-- **C104 (range).** A scaled value is 1 at the upper end of the range only if the range begins at 0: the filter divides by the upper end and not by
the length of the range. -/
theorem C104_scaled_end (roll : Option ℤ → Col → Py Col) (o : Opts) (hdr : Str) (rs : PyDict Str (ℚ × ℚ)) (lo hi : ℚ)
    (hr : o.ranges = some rs) (hg : PyDict.get? rs hdr = some (lo, hi)) (h : hi ≠ 0) :
    ∃ v, call roll o (some hdr) .scaled [lo, hi] = .ok [0, v] ∧ (v = 1 ↔ lo = 0) := by
  refine ⟨(hi - lo) / hi, by simp [call, rangeOf, hr, PyDict.getE, hg], ?_⟩
  rw [div_eq_one_iff_eq h]
  constructor
  · intro e
    linarith
  · rintro rfl
    simp

/-- **C104 (unit vectors).** The filter `'unitvect'` works on the whole column at once: unless the number of classes is the number of rows, reading a
block with such a column raises an exception. -/
theorem C104_unitvect (roll : Option ℤ → Col → Py Col) (o : Opts) (kw : List (Str × List Str)) (fileHeaders : List Str)
    (rows : ℕ) (raw : Str → Col) (hn : (kw.map Prod.fst).Nodup) (hk : ∀ p ∈ kw, ∀ f ∈ p.2, Known f)
    (hr : ∀ h ∈ fileHeaders, (raw h).length = rows) (p : Str × List Str) (hp : p ∈ kw) (hu : "unitvect".toList ∈ p.2) (hf : p.1 ∈ fileHeaders)
    (hne : o.numClasses ≠ rows) : ∃ e, readBlock roll o kw fileHeaders rows raw = .error e := by
  cases hb : readBlock roll o kw fileHeaders rows raw with
  | error e => exact ⟨e, rfl⟩
  | ok d =>
    exfalso
    cases hlast : kw.getLast? with
    | none => simp [List.getLast?_eq_none_iff.1 hlast] at hp
    | some last =>
      rw [C104_block roll o kw last fileHeaders rows raw d hlast hn hk hr] at hb
      have hmem : p.1 ∈ fileHeaders.filter fun h => decide (Asked (kw.map Prod.fst) h) :=
        List.mem_filter.2 ⟨hf, decide_eq_true (Or.inl (List.mem_map_of_mem hp))⟩
      have hex : ∀ {R : Str → Str × Col → Prop} {l : List Str} {d : List (Str × Col)} {a : Str}, List.Forall₂ R l d → a ∈ l → ∃ q, R a q := by
        intro R l d a h
        induction h with
        | nil => simp
        | cons h1 _ ih =>
          intro ha
          rcases List.mem_cons.1 ha with rfl | ha
          · exact ⟨_, h1⟩
          · exact ih ha
      obtain ⟨q, -, own, names, ⟨ho, ho'⟩, hm, hfil⟩ := hex hb hmem
      have hown : own = p.1 := by
        rcases ho' with e | ⟨e, -⟩
        · exact e.symm
        · exact absurd (List.mem_map_of_mem hp) e
      subst hown
      have hnames : names = p.2 := by
        have := List.inj_on_of_nodup_map hn hm hp rfl
        exact congrArg Prod.snd this
      subst hnames
      have key : ∀ {ns : List Str} {c c' : Col}, Filtered roll o last.1 rows ns c c' → "unitvect".toList ∈ ns → o.numClasses = rows := by
        intro ns c c' h
        induction h with
        | nil => simp
        | skip e _ ih => exact fun hm => ih ((List.mem_cons.1 hm).resolve_left (by rw [e]; decide))
        | roll e _ _ _ ih => exact fun hm => ih ((List.mem_cons.1 hm).resolve_left (by rw [e]; decide))
        | scaled e _ _ _ ih => exact fun hm => ih ((List.mem_cons.1 hm).resolve_left (by rw [e]; decide))
        | unit _ _ h _ _ => exact fun _ => h
      exact hne (key hfil hu)

/-- **C104 (unit vectors, kind of exception).** With one column of class labels the exception is ValueError if the number of classes is not the number of
rows, and IndexError if a label is not a class. -/
theorem C104_unitvect_kind (roll : Option ℤ → Col → Py Col) (o : Opts) (h : Str) (rows : ℕ) (raw : Str → Col) (labels : List ℕ)
    (hr : raw h = labels.map fun n : ℕ => (n : ℚ)) :
    (o.numClasses ≠ rows → (∀ n ∈ labels, n < o.numClasses) → readBlock roll o [(h, ["unitvect".toList])] [h] rows raw = .error .valueError) ∧
    ((∃ n ∈ labels, o.numClasses ≤ n) → readBlock roll o [(h, ["unitvect".toList])] [h] rows raw = .error .indexError) := by
  have e : readBlock roll o [(h, ["unitvect".toList])] [h] rows raw =
      (do let v ← unitizer o.numClasses (raw h); let c ← assign rows v; pure [(h, c)]) := by
    have e2 : getFileFilters [(h, ["unitvect".toList])] = .ok ([(h, [.unitvect])], some h) := rfl
    rw [readBlock, e2]
    simp only [ok_bind]
    have e3 : setHeaders (PyDict.keys [(h, [Func.unitvect])]) [h] ⟨[], []⟩ = ⟨[h], []⟩ := by simp [setHeaders, PyDict.keys]
    rw [e3]
    simp only [List.map_cons, List.map_nil, filterBlock]
    have e4 : lookup [(h, [Func.unitvect])] ((PyDict.get? ([] : PyDict Str Str) h).getD h) = ([.unitvect], [(h, [.unitvect])]) := by
      simp [lookup, PyDict.get?]
    rw [e4]
    simp only [applyAll, call]
    cases unitizer o.numClasses (raw h) with
    | error _ => rfl
    | ok v =>
      simp only [ok_bind]
      cases assign rows v <;> rfl
  have hset : ∀ (x : Col) (n : ℕ), setOne x n = if n < x.length then .ok (x.set n 1) else .error .indexError := by
    intro x n
    simp only [setOne, Rat.den_natCast, if_true, Rat.num_natCast, Int.toNat_natCast]
    by_cases hn : n < x.length
    · simp [hn]
    · have : ¬ ((n : ℤ) < 0 ∧ -(x.length : ℤ) ≤ n) := by omega
      simp [hn, this]
  have hok : ∀ (l : List ℕ) (x : Col), (∀ n ∈ l, n < x.length) → ∃ v, (l.map fun n : ℕ => (n : ℚ)).foldlM setOne x = .ok v ∧ v.length = x.length := by
    intro l
    induction l with
    | nil => exact fun x _ => ⟨x, rfl, rfl⟩
    | cons n l ih =>
      intro x hx
      rw [List.forall_mem_cons] at hx
      obtain ⟨v, hv, hl⟩ := ih (x.set n 1) (by simpa using hx.2)
      refine ⟨v, ?_, by simpa using hl⟩
      rw [List.map_cons, List.foldlM_cons, hset, if_pos hx.1]
      exact hv
  have hbad : ∀ (l : List ℕ) (x : Col), (∃ n ∈ l, x.length ≤ n) → (l.map fun n : ℕ => (n : ℚ)).foldlM setOne x = .error .indexError := by
    intro l
    induction l with
    | nil => rintro x ⟨n, hn, -⟩; simp at hn
    | cons n l ih =>
      rintro x ⟨m, hm, hl⟩
      rw [List.map_cons, List.foldlM_cons, hset]
      by_cases hn : n < x.length
      · rw [if_pos hn]
        rcases List.mem_cons.mp hm with rfl | hm
        · omega
        · exact ih _ ⟨m, hm, by simpa using hl⟩
      · rw [if_neg hn]
        rfl
  rw [e, hr, unitizer]
  refine ⟨fun hne hl => ?_, fun hl => ?_⟩
  · obtain ⟨v, hv, hlen⟩ := hok labels (List.replicate o.numClasses 0) (by simpa using hl)
    rw [hv]
    simp only [ok_bind, assign]
    rw [if_neg (by simpa [hlen] using hne)]
    rfl
  · rw [hbad labels (List.replicate o.numClasses 0) (by simpa using hl)]
    rfl

/-- **C104 (headers).** The columns of the environment are those that `LogReader.check_headers` returns for the headers asked for. -/
theorem C104_check_headers (w : Jobs.World) (path : Str) (asked fileHeaders : List Str) (ha : asked ≠ [])
    (hf : Logs.checkHeaders w path [] = .ok fileHeaders) :
    Logs.checkHeaders w path asked = .ok (setHeaders asked fileHeaders ⟨[], []⟩).headers := by
  rw [(setHeaders_spec asked fileHeaders ⟨[], []⟩).1]
  unfold Logs.checkHeaders at hf ⊢
  split at hf
  · cases hf
  · split at hf
    · obtain rfl := Except.ok.inj hf
      simp
    · simp only [bind_eq_ok, List.isEmpty_nil, if_true, pure_eq_ok, Except.ok.injEq] at hf
      obtain ⟨l, h1, rfl⟩ := hf
      simp only [h1, ok_bind, if_neg (show ¬ (asked.isEmpty = true) by simpa using ha), pure_eq_ok, Except.ok.injEq, List.nil_append]
      refine List.filter_congr fun h _ => ?_
      rw [headD_split]
      exact decide_eq_decide.2 or_comm

/-- A column asked for by the first part of its name, one by its own name, and one that is not asked for. -/
example : Owner ["emg".toList, "pos".toList] "emg-1".toList "emg".toList ∧ Owner ["emg".toList, "pos".toList] "pos".toList "pos".toList ∧
    ¬ Asked ["emg".toList, "pos".toList] "time".toList := by
  refine ⟨⟨by decide, Or.inr ⟨by decide, by decide⟩⟩, ⟨by decide, Or.inl rfl⟩, by decide⟩

/-- The classes 0, 2 and -1 of three. -/
example : unitizer 3 [0, 2, -1] = .ok [1, 0, 1] := by decide +kernel

end Verif
