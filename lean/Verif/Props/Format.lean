import Verif.Model.Format
import Verif.Proofs.Strings
import Verif.Proofs.StructuresParse
import Verif.Props.Strings

/-!
# C102 and C103: formatting of parameters and lists
-/

namespace Verif

open Str Structures Format

namespace Format

/-- `w` is `v` or occurs in it at some depth. -/
inductive Part (w : CVal) : CVal → Prop
  | refl : Part w w
  | list {l v} : v ∈ l → Part w v → Part w (.list l)
  | dict {d k v} : (k, v) ∈ d → Part w v → Part w (.dict d)

/-- Every key of every dictionary in `v` has the property `p`. -/
def Keys (p : Str → Prop) (v : CVal) : Prop := ∀ d, Part (.dict d) v → ∀ kv ∈ d, p kv.1

theorem CVal.ind {P : CVal → Prop} (hs : ∀ s, P (.scalar s)) (hl : ∀ l, (∀ v ∈ l, P v) → P (.list l))
    (hd : ∀ d, (∀ kv ∈ d, P kv.2) → P (.dict d)) (v : CVal) : P v :=
  CVal.rec (motive_1 := P) (motive_2 := fun l => ∀ v ∈ l, P v) (motive_3 := fun d => ∀ kv ∈ d, P kv.2) (motive_4 := fun kv => P kv.2)
    hs hl hd (by simp) (fun v l h1 h2 => by simpa using ⟨h1, h2⟩) (by simp) (fun kv d h1 h2 => by simpa using ⟨h1, by simpa using h2⟩)
    (fun _ _ h => h) v

theorem Keys.list {p : Str → Prop} {l : List CVal} (h : Keys p (.list l)) : ∀ v ∈ l, Keys p v :=
  fun _ hv d hd => h d (.list hv hd)

theorem Keys.dict {p : Str → Prop} {d : List (Str × CVal)} (h : Keys p (.dict d)) : (∀ kv ∈ d, p kv.1) ∧ ∀ kv ∈ d, Keys p kv.2 :=
  ⟨h d .refl, fun kv hkv e he => h e (.dict (k := kv.1) hkv he)⟩

theorem keys_list {p : Str → Prop} {l : List CVal} (h : ∀ v ∈ l, Keys p v) : Keys p (.list l) := by
  intro d hd
  cases hd with
  | list hv hp => exact h _ hv d hp

theorem keys_dict {p : Str → Prop} {d : List (Str × CVal)} (h1 : ∀ kv ∈ d, p kv.1) (h : ∀ kv ∈ d, Keys p kv.2) : Keys p (.dict d) := by
  intro e he
  cases he with
  | refl => exact h1
  | dict hv hp => exact h _ hv e hp

theorem keys_scalar (p : Str → Prop) (s : Str) : Keys p (.scalar s) := by
  intro d hd
  cases hd

theorem cleanList_ok {l : List CVal} {ps : List Str} : cleanList l = .ok ps ↔ List.Forall₂ (fun v s => cleanString v = .ok s) l ps := by
  induction l generalizing ps with
  | nil => simp [cleanList, pure_eq_ok]
  | cons v l ih =>
    simp only [cleanList, bind_eq_ok, pure_eq_ok, Except.ok.injEq, List.forall₂_cons_left_iff]
    constructor
    · rintro ⟨s, h1, qs, h2, rfl⟩; exact ⟨s, qs, h1, ih.1 h2, rfl⟩
    · rintro ⟨s, qs, h1, h2, rfl⟩; exact ⟨s, h1, qs, ih.2 h2, rfl⟩

theorem cleanDict_ok {d : List (Str × CVal)} {ps : List (Str × Str)} :
    cleanDict d = .ok ps ↔ List.Forall₂ (fun kv p => kv.1 ≠ [] ∧ p.1 = kv.1 ∧ cleanString kv.2 = .ok p.2) d ps := by
  induction d generalizing ps with
  | nil => simp [cleanDict, pure_eq_ok]
  | cons kv d ih =>
    obtain ⟨k, v⟩ := kv
    by_cases hk : k = []
    · simp [cleanDict, hk, List.forall₂_cons_left_iff]
    · simp only [cleanDict, if_neg hk, bind_eq_ok, pure_eq_ok, Except.ok.injEq, List.forall₂_cons_left_iff]
      constructor
      · rintro ⟨s, h1, qs, h2, rfl⟩; exact ⟨(k, s), qs, ⟨hk, rfl, h1⟩, ih.1 h2, rfl⟩
      · rintro ⟨⟨k', s⟩, qs, ⟨_, rfl, h1⟩, h2, rfl⟩; exact ⟨s, h1, qs, ih.2 h2, rfl⟩

theorem mem_join {c x : Char} {ps : List Str} (h : x ∈ join c ps) : x = c ∨ ∃ p ∈ ps, x ∈ p := by
  induction ps with
  | nil => simp [join] at h
  | cons p ps ih =>
    cases ps with
    | nil => exact Or.inr ⟨p, by simp, by simpa [join] using h⟩
    | cons q qs =>
      rw [join_cons (by simp)] at h
      simp only [List.mem_append, List.mem_cons] at h
      rcases h with h | h | h
      · exact Or.inr ⟨p, by simp, h⟩
      · exact Or.inl h
      · rcases ih h with h | ⟨r, h1, h2⟩
        · exact Or.inl h
        · exact Or.inr ⟨r, by simp [List.mem_cons.1 h1], h2⟩

end Format

/-- **C102 (exceptions).** `clean_string` raises if and only if some dictionary in the value has the empty key, and then TypeError. -/
theorem C102_clean_raises (v : CVal) :
    (Keys (· ≠ []) v → ∃ s, cleanString v = .ok s) ∧ (¬ Keys (· ≠ []) v → cleanString v = .error .typeError) := by
  induction v using CVal.ind with
  | hs s => exact ⟨fun _ => ⟨_, rfl⟩, fun h => absurd (keys_scalar _ s) h⟩
  | hl l ih =>
    have key : ((∀ v ∈ l, Keys (· ≠ []) v) → ∃ ps, cleanList l = .ok ps) ∧ ((¬ ∀ v ∈ l, Keys (· ≠ []) v) → cleanList l = .error .typeError) := by
      induction l with
      | nil => exact ⟨fun _ => ⟨_, rfl⟩, fun h => absurd (by simp) h⟩
      | cons v l ih2 =>
        obtain ⟨i1, i2⟩ := ih2 (fun w hw => ih w (by simp [hw]))
        obtain ⟨j1, j2⟩ := ih v (by simp)
        simp only [cleanList]
        by_cases hv : Keys (· ≠ []) v
        · obtain ⟨s, hs⟩ := j1 hv
          rw [hs]
          simp only [ok_bind]
          refine ⟨fun h => ?_, fun h => ?_⟩
          · obtain ⟨ps, hps⟩ := i1 (fun w hw => h w (by simp [hw]))
            exact ⟨s :: ps, by rw [hps]; rfl⟩
          · rw [i2 (fun h' => h (by simpa using ⟨hv, h'⟩))]; rfl
        · rw [j2 hv]
          exact ⟨fun h => absurd (h v (by simp)) hv, fun _ => rfl⟩
    refine ⟨fun h => ?_, fun h => ?_⟩
    · obtain ⟨ps, hps⟩ := key.1 h.list
      exact ⟨join '-' ps, by simp only [cleanString, hps, ok_bind]; rfl⟩
    · simp only [cleanString, key.2 (fun h' => h (keys_list h'))]; rfl
  | hd d ih =>
    have key : ((∀ kv ∈ d, kv.1 ≠ [] ∧ Keys (· ≠ []) kv.2) → ∃ ps, cleanDict d = .ok ps) ∧
        ((¬ ∀ kv ∈ d, kv.1 ≠ [] ∧ Keys (· ≠ []) kv.2) → cleanDict d = .error .typeError) := by
      induction d with
      | nil => exact ⟨fun _ => ⟨_, rfl⟩, fun h => absurd (by simp) h⟩
      | cons kv d ih2 =>
        obtain ⟨k, v⟩ := kv
        obtain ⟨i1, i2⟩ := ih2 (fun w hw => ih w (by simp [hw]))
        obtain ⟨j1, j2⟩ := ih (k, v) (by simp)
        simp only [cleanDict]
        by_cases hk : k = []
        · rw [if_pos hk]
          exact ⟨fun h => absurd hk (h (k, v) (by simp)).1, fun _ => rfl⟩
        rw [if_neg hk]
        by_cases hv : Keys (· ≠ []) v
        · obtain ⟨s, hs⟩ := j1 hv
          rw [hs]
          simp only [ok_bind]
          refine ⟨fun h => ?_, fun h => ?_⟩
          · obtain ⟨ps, hps⟩ := i1 (fun w hw => h w (by simp [hw]))
            exact ⟨(k, s) :: ps, by rw [hps]; rfl⟩
          · rw [i2 (fun h' => h (by
              intro kv hkv
              rcases List.mem_cons.1 hkv with rfl | hkv
              · exact ⟨hk, hv⟩
              · exact h' kv hkv))]
            rfl
        · rw [j2 hv]
          exact ⟨fun h => absurd (h (k, v) (by simp)).2 hv, fun _ => rfl⟩
    refine ⟨fun h => ?_, fun h => ?_⟩
    · obtain ⟨ps, hps⟩ := key.1 (fun kv hkv => ⟨h.dict.1 kv hkv, h.dict.2 kv hkv⟩)
      exact ⟨_, by simp only [cleanString, hps, ok_bind]; rfl⟩
    · simp only [cleanString, key.2 (fun h' => h (keys_dict (fun kv hkv => (h' kv hkv).1) (fun kv hkv => (h' kv hkv).2)))]; rfl

/-- **C102 (characters).** If the keys of all dictionaries consist of letters, digits, `_`, `.` and `-`, so does the result, which is therefore the name of a file and no path. -/
theorem C102_clean_characters (v : CVal) (s : Str) (hk : Keys (fun k => ∀ c ∈ k, keepH c = true) v) (h : cleanString v = .ok s) :
    (∀ c ∈ s, keepH c = true) ∧ '/' ∉ s := by
  have key : ∀ c ∈ s, keepH c = true := by
    induction v using CVal.ind generalizing s with
    | hs t =>
      simp only [cleanString, pure_eq_ok, Except.ok.injEq] at h
      subst h
      exact fun c hc => (List.mem_filter.1 hc).2
    | hl l ih =>
      simp only [cleanString, bind_eq_ok, pure_eq_ok, Except.ok.injEq, cleanList_ok] at h
      obtain ⟨ps, h1, rfl⟩ := h
      intro c hc
      rcases mem_join hc with rfl | ⟨p, hp, hc⟩
      · rfl
      · obtain ⟨v, hv, hvp⟩ : ∃ v ∈ l, cleanString v = .ok p := by
          have : ∀ {l : List CVal} {ps : List Str}, List.Forall₂ (fun v s => cleanString v = .ok s) l ps → p ∈ ps →
              ∃ v ∈ l, cleanString v = .ok p := by
            intro l ps hf hm
            induction hf with
            | nil => simp at hm
            | cons h1 _ ih2 =>
              rcases List.mem_cons.1 hm with rfl | hm
              · exact ⟨_, by simp, h1⟩
              · obtain ⟨v, h3, h4⟩ := ih2 hm
                exact ⟨v, by simp [h3], h4⟩
          exact this h1 hp
        exact ih v hv p (hk.list v hv) hvp c hc
    | hd d ih =>
      simp only [cleanString, bind_eq_ok, pure_eq_ok, Except.ok.injEq, cleanDict_ok] at h
      obtain ⟨ps, h1, rfl⟩ := h
      intro c hc
      rcases mem_join hc with rfl | ⟨p, hp, hc⟩
      · rfl
      · obtain ⟨⟨k, t⟩, hkt, rfl⟩ := List.mem_map.1 hp
        have hmem : (k, t) ∈ ps := (List.mergeSort_perm ps _).mem_iff.1 hkt
        obtain ⟨kv, hkv, e1, e2⟩ : ∃ kv ∈ d, k = kv.1 ∧ cleanString kv.2 = .ok t := by
          have : ∀ {d : List (Str × CVal)} {ps : List (Str × Str)},
              List.Forall₂ (fun kv p => kv.1 ≠ [] ∧ p.1 = kv.1 ∧ cleanString kv.2 = .ok p.2) d ps → (k, t) ∈ ps →
              ∃ kv ∈ d, k = kv.1 ∧ cleanString kv.2 = .ok t := by
            intro d ps hf hm
            induction hf with
            | nil => simp at hm
            | cons h1 _ ih2 =>
              rcases List.mem_cons.1 hm with rfl | hm
              · exact ⟨_, by simp, h1.2.1, h1.2.2⟩
              · obtain ⟨kv, h3, h4⟩ := ih2 hm
                exact ⟨kv, by simp [h3], h4⟩
          exact this h1 hmem
        simp only [formatItem, List.mem_append, List.mem_cons] at hc
        rcases hc with hc | rfl | hc
        · exact hk.dict.1 kv hkv c (e1 ▸ hc)
        · rfl
        · exact ih kv hkv t (hk.dict.2 kv hkv) e2 c hc
  exact ⟨key, fun h => absurd (key _ h) (by decide)⟩

/-- **C102 (idempotence).** Cleaning a result again changes nothing. -/
theorem C102_clean_idempotent (v : CVal) (s : Str) (hk : Keys (fun k => ∀ c ∈ k, keepH c = true) v) (h : cleanString v = .ok s) :
    cleanString (.scalar s) = .ok s := by
  simp only [cleanString, pure_eq_ok, Except.ok.injEq]
  exact List.filter_eq_self.2 (C102_clean_characters v s hk h).1

/-- **C102 (lists).** The items of a non-empty list of words without `-` can be read back. -/
theorem C102_clean_list (ws : List Str) (hne : ws ≠ []) (h : ∀ w ∈ ws, '-' ∉ w ∧ ∀ c ∈ w, keepH c = true) :
    ∃ s, cleanString (.list (ws.map .scalar)) = .ok s ∧ split '-' s = ws := by
  refine ⟨join '-' ws, ?_, split_join hne fun w hw => (h w hw).1⟩
  have : cleanList (ws.map .scalar) = .ok ws := by
    clear hne
    induction ws with
    | nil => rfl
    | cons w ws ih =>
      simp only [List.map_cons, cleanList, cleanString, pure_eq_ok, ok_bind, ih fun x hx => h x (by simp [hx]),
        List.filter_eq_self.2 (h w (by simp)).2]
  simp only [cleanString, this, ok_bind]
  rfl

/-- **C102 (dictionaries).** The result does not depend on the order in which the entries were inserted. -/
theorem C102_clean_order (d e : List (Str × CVal)) (hp : d.Perm e) (hd : (d.map Prod.fst).Nodup) :
    cleanString (.dict d) = cleanString (.dict e) := by
  by_cases hk : Keys (· ≠ []) (.dict d)
  · have hk2 : Keys (· ≠ []) (.dict e) :=
      keys_dict (fun kv h => hk.dict.1 kv (hp.mem_iff.2 h)) (fun kv h => hk.dict.2 kv (hp.mem_iff.2 h))
    obtain ⟨s, hs⟩ := (C102_clean_raises _).1 hk
    obtain ⟨t, ht⟩ := (C102_clean_raises _).1 hk2
    rw [hs, ht]
    simp only [cleanString, bind_eq_ok, pure_eq_ok, Except.ok.injEq, cleanDict_ok] at hs ht
    obtain ⟨ps, h1, rfl⟩ := hs
    obtain ⟨qs, h2, rfl⟩ := ht
    have fn : ∀ {d : List (Str × CVal)} {ps : List (Str × Str)},
        List.Forall₂ (fun kv p => kv.1 ≠ [] ∧ p.1 = kv.1 ∧ cleanString kv.2 = .ok p.2) d ps →
        ps = d.map fun kv => (kv.1, (cleanString kv.2).toOption.getD []) := by
      intro d ps hf
      induction hf with
      | nil => rfl
      | @cons kv p d ps h1 _ ih =>
        obtain ⟨_, h3, h4⟩ := h1
        rw [List.map_cons, ← ih, h4, ← h3]
        rfl
    have hpq : ps.Perm qs := by
      rw [fn h1, fn h2]
      exact hp.map _
    have hnd : (ps.map Prod.fst).Nodup := by
      rw [fn h1, List.map_map]
      exact hd
    have : sortPairs ps = sortPairs qs := by
      have tr : ∀ a b c : Str × Str, decide (a.1 ≤ b.1) = true → decide (b.1 ≤ c.1) = true → decide (a.1 ≤ c.1) = true := by
        intro a b c h1 h2
        simp only [decide_eq_true_eq] at *
        exact List.le_trans h1 h2
      have tot : ∀ a b : Str × Str, (decide (a.1 ≤ b.1) || decide (b.1 ≤ a.1)) = true := by
        intro a b
        simp only [Bool.or_eq_true, decide_eq_true_eq]
        exact List.le_total _ _
      refine List.Perm.eq_of_pairwise (le := fun a b : Str × Str => decide (a.1 ≤ b.1) = true) ?_
        (List.pairwise_mergeSort tr tot ps) (List.pairwise_mergeSort tr tot qs) ?_
      · intro a b ha hb h1 h2
        simp only [decide_eq_true_eq] at h1 h2
        have ha' := (List.mergeSort_perm ps _).mem_iff.1 ha
        have hb' := hpq.mem_iff.2 ((List.mergeSort_perm qs _).mem_iff.1 hb)
        exact List.inj_on_of_nodup_map hnd ha' hb' (List.le_antisymm h1 h2)
      · exact (List.mergeSort_perm ps _).trans (hpq.trans (List.mergeSort_perm qs _).symm)
    rw [this]
  · have hk2 : ¬ Keys (· ≠ []) (.dict e) := fun h =>
      hk (keys_dict (fun kv h' => h.dict.1 kv (hp.mem_iff.1 h')) (fun kv h' => h.dict.2 kv (hp.mem_iff.1 h')))
    rw [(C102_clean_raises _).2 hk, (C102_clean_raises _).2 hk2]

/-- **C102 (dictionaries of words).** `split_params` without evaluation reads a formatted dictionary of words back, if no key contains `-` and no value `_`; its entries come in the order of the keys. -/
theorem C102_clean_dict (items : List (Str × Str)) (hne : items ≠ []) (hd : (items.map Prod.fst).Nodup)
    (h : ∀ kv ∈ items, kv.1 ≠ [] ∧ '-' ∉ kv.1 ∧ '_' ∉ kv.2 ∧ ∀ c ∈ kv.2, keepH c = true) :
    ∃ (s : Str) (m : List (Str × Str)), cleanString (.dict (items.map fun kv => (kv.1, .scalar kv.2))) = .ok s ∧ m.Perm items ∧ (m.map Prod.fst).Pairwise (· ≤ ·) ∧
      splitParams s = .ok (m.map fun kv => (kv.1, some kv.2)) := by
  have h1 : cleanDict (items.map fun kv => (kv.1, CVal.scalar kv.2)) = .ok items := by
    clear hne hd
    induction items with
    | nil => rfl
    | cons kv items ih =>
      obtain ⟨k, v⟩ := kv
      obtain ⟨g1, -, -, g2⟩ := h (k, v) (by simp)
      simp only [List.map_cons, cleanDict, if_neg g1, cleanString, pure_eq_ok, ok_bind, ih fun x hx => h x (by simp [hx]),
        List.filter_eq_self.2 g2]
  have hp : (sortPairs items).Perm items := List.mergeSort_perm _ _
  refine ⟨join '_' ((sortPairs items).map formatItem), sortPairs items, ?_, hp, ?_, ?_⟩
  · simp only [cleanString, h1, ok_bind]; rfl
  · have tr : ∀ a b c : Str × Str, decide (a.1 ≤ b.1) = true → decide (b.1 ≤ c.1) = true → decide (a.1 ≤ c.1) = true := by
      intro a b c h1 h2
      simp only [decide_eq_true_eq] at *
      exact List.le_trans h1 h2
    have tot : ∀ a b : Str × Str, (decide (a.1 ≤ b.1) || decide (b.1 ≤ a.1)) = true := by
      intro a b
      simp only [Bool.or_eq_true, decide_eq_true_eq]
      exact List.le_total _ _
    have hs := List.pairwise_mergeSort tr tot items
    rw [List.pairwise_map]
    exact hs.imp fun h => by simpa using h
  · refine C72_split_params_roundtrip _ (fun e => hne ?_) (fun kv hkv => ?_) ((hp.map _).nodup_iff.2 hd)
    · have := hp.length_eq
      rw [e] at this
      exact List.length_eq_zero_iff.1 this.symm
    · obtain ⟨_, g1, g2, _⟩ := h kv (hp.mem_iff.1 hkv)
      exact ⟨g1, g2⟩

/-- **C102 (what is lost).** Nesting, and the difference between lists, strings and dictionaries, are not kept; keys are not cleaned. -/
theorem C102_clean_ambiguous :
    cleanString (.list [.list [.scalar "a".toList], .scalar "b".toList]) = .ok "a-b".toList ∧
    cleanString (.list [.scalar "a".toList, .scalar "b".toList]) = .ok "a-b".toList ∧
    cleanString (.scalar "a-b".toList) = .ok "a-b".toList ∧
    cleanString (.dict [("a".toList, .scalar "b".toList)]) = .ok "a-b".toList ∧
    cleanString (.dict [("../a".toList, .scalar "b".toList)]) = .ok "../a-b".toList := by
  refine ⟨rfl, rfl, rfl, ?_, ?_⟩
  · simp only [cleanString, cleanDict, sortPairs]
    decide +kernel
  · simp only [cleanString, cleanDict, sortPairs]
    decide +kernel

section
variable (reprOf strOf : CVal → Str) (dummy : CVal)

/-- **C102 (`format_param` raises).** It raises exactly if both parts are forced without a name, or if a value with an empty key is to be cleaned, and then TypeError. -/
theorem C102_format_param_raises (name : Option Str) (value : Option CVal) (code : Str) (force : Bool) (e : PyErr) :
    formatParam reprOf strOf dummy name value code force = .error e ↔
      e = .typeError ∧ ((force = true ∧ name.getD [] = []) ∨
        ((force = true ∨ ('n' ∉ code ∧ value ≠ none)) ∧ '-' ∈ code ∧ ¬ Keys (· ≠ []) (value.getD dummy))) := by
  have hc : ∀ (f : Str → Out), (cleanString (value.getD dummy)).map f = .error e ↔ e = .typeError ∧ ¬ Keys (· ≠ []) (value.getD dummy) := by
    intro f
    by_cases hk : Keys (· ≠ []) (value.getD dummy)
    · obtain ⟨s, hs⟩ := (C102_clean_raises _).1 hk
      simp [hs, hk, Except.map]
    · rw [(C102_clean_raises _).2 hk]
      simp [hk, Except.map, eq_comm]
  have harg : '-' ∈ code → code ≠ "arg".toList := by
    rintro h rfl
    revert h
    decide
  unfold formatParam
  cases force with
  | false =>
    by_cases h1 : 'n' ∈ code ∨ value.isNone = true
    · simp only [h1, and_self, if_true]
      have : ¬ ('n' ∉ code ∧ value ≠ none) := by
        rintro ⟨h2, h3⟩
        rcases h1 with h1 | h1
        · exact h2 h1
        · exact h3 (by simpa using h1)
      split_ifs <;> simp [pure_eq_ok, this]
    · have h2 : 'n' ∉ code ∧ value ≠ none := by
        push Not at h1
        exact ⟨h1.1, by intro h; simp [h] at h1⟩
      by_cases h3 : 'v' ∈ code ∨ name.getD [] = []
      · by_cases h4 : '-' ∈ code
        · simp only [h1, h3, h4, and_false, and_true, if_true, if_false, hc]
          simp [h2]
        · simp only [h1, h3, h4, and_false, and_true, if_true, if_false, pure_eq_ok]
          simp
      · have h5 : name.getD [] ≠ [] := fun h => h3 (Or.inr h)
        by_cases h4 : '-' ∈ code
        · have h6 : 'v' ∉ code := fun h => h3 (Or.inl h)
          simp only [h1, h6, h4, h5, harg h4, and_false, or_false, if_true, if_false, hc]
          simp [h2]
        · simp only [h1, h3, h4, h5, and_false, if_false, pure_eq_ok]
          split_ifs <;> simp
  | true =>
    simp only [Bool.true_eq_false, false_and, if_false, true_and, true_or]
    by_cases h5 : name.getD [] = []
    · rw [if_pos h5]
      change Except.error PyErr.typeError = Except.error e ↔ _
      simp [h5, eq_comm]
    · by_cases h4 : '-' ∈ code
      · simp only [h4, h5, harg h4, if_true, if_false, hc, false_or, true_and]
      · simp only [h4, h5, if_false]
        split_ifs <;> simp [pure_eq_ok]

/-- **C102 (names and values).** With the code `=`, `:` or a blank a name without that character can be read off the result, and so can the
representation of the value, or with a blank its text. -/
theorem C102_format_param_equals (c : Char) (hc : c ∈ ['=', ':', ' ']) (n n' : Str) (v v' : CVal) (hn : n ≠ []) (hn' : n' ≠ [])
    (he : c ∉ n) (he' : c ∉ n') (force : Bool)
    (h : formatParam reprOf strOf dummy (some n) (some v) [c] force = formatParam reprOf strOf dummy (some n') (some v') [c] force) :
    n = n' ∧ if c = ' ' then strOf v = strOf v' else reprOf v = reprOf v' := by
  have key : ∀ (m : Str) (w : CVal), m ≠ [] → formatParam reprOf strOf dummy (some m) (some w) [c] force =
      .ok (.str (m ++ c :: if c = ' ' then strOf w else reprOf w)) := by
    intro m w hm
    unfold formatParam
    simp only [List.mem_cons, List.not_mem_nil, or_false] at hc
    rcases hc with rfl | rfl | rfl <;> simp [hm, pure_eq_ok]
  rw [key n v hn, key n' v' hn', Except.ok.injEq, Out.str.injEq] at h
  have : ∀ (a b r d : Str), c ∉ a → c ∉ b → a ++ c :: r = b ++ c :: d → a = b ∧ r = d := by
    intro a
    induction a with
    | nil =>
      intro b r d _ hb h
      cases b with
      | nil => simpa using h
      | cons x b => simp only [List.nil_append, List.cons_append, List.cons.injEq] at h; exact absurd (by simp [h.1]) hb
    | cons x a ih =>
      intro b r d ha hb h
      cases b with
      | nil => simp only [List.nil_append, List.cons_append, List.cons.injEq] at h; exact absurd (by simp [← h.1]) ha
      | cons y b =>
        simp only [List.cons_append, List.cons.injEq] at h
        obtain ⟨h1, h2⟩ := ih b r d (fun h => ha (by simp [h])) (fun h => hb (by simp [h])) h.2
        exact ⟨by rw [h.1, h1], h2⟩
  obtain ⟨h1, h2⟩ := this n n' _ _ he he' h
  refine ⟨h1, ?_⟩
  split_ifs at h2 ⊢ <;> exact h2

/-- **C102 (command-line arguments).** With the code `arg` there is one argument for the name and one for every item of a list, or one for another value; without a value
the result is a string and no list. -/
theorem C102_format_param_arg (n : Str) (hn : n ≠ []) (force : Bool) :
    (∀ l, formatParam reprOf strOf dummy (some n) (some (.list l)) "arg".toList force = .ok (.args (("--".toList ++ n) :: l.map strOf))) ∧
    (∀ s, formatParam reprOf strOf dummy (some n) (some (.scalar s)) "arg".toList force = .ok (.args ["--".toList ++ n, strOf (.scalar s)])) ∧
    formatParam reprOf strOf dummy (some n) none "arg".toList false = .ok (.str ("--".toList ++ n)) := by
  refine ⟨fun l => ?_, fun s => ?_, ?_⟩ <;> unfold formatParam <;> simp [hn, pure_eq_ok]

end

/-- **C102 (`format_join`).** With the default code the parts, if none contains `_`, can be read back; with `=` or `:` they are separated by a comma and a blank, with a blank by a blank. With the code `/`, and every other that has a `/` but no `_`, `=` or `:`, it raises
TypeError whatever the parts. -/
theorem C102_format_join (parts : List Str) :
    (parts ≠ [] → (∀ p ∈ parts, '_' ∉ p) → ∃ s, formatJoin parts ['_'] = .ok s ∧ split '_' s = parts) ∧
    (∀ code, '/' ∈ code → '_' ∉ code → '=' ∉ code → ':' ∉ code → formatJoin parts code = .error .typeError) ∧
    formatJoin parts [] = .ok parts.flatten ∧
    (∀ c ∈ ['=', ':'], parts ≠ [] → (∀ p ∈ parts, ',' ∉ p) → ∃ s, formatJoin parts [c] = .ok s ∧
      split ',' s = parts.head?.toList ++ parts.tail.map (' ' :: ·)) ∧
    (parts ≠ [] → (∀ p ∈ parts, ' ' ∉ p) → ∃ s, formatJoin parts [' '] = .ok s ∧ split ' ' s = parts) := by
  have key : ∀ (c : Char) (ps : List Str), joinWith [c] ps = join c ps := by
    intro c ps
    induction ps with
    | nil => rfl
    | cons p ps ih =>
      cases ps with
      | nil => rfl
      | cons q qs => rw [join_cons (by simp), joinWith, ih]; simp
  have key2 : ∀ ps : List Str, joinWith [] ps = ps.flatten := by
    intro ps
    induction ps with
    | nil => rfl
    | cons p ps ih =>
      cases ps with
      | nil => simp [joinWith]
      | cons q qs => rw [joinWith, ih]; simp
  refine ⟨fun hne h => ⟨join '_' parts, by simp [formatJoin, key, pure_eq_ok], split_join hne h⟩, fun code h1 h2 h3 h4 => ?_, ?_, ?_, ?_⟩
  · have : code ≠ [] := by rintro rfl; simp at h1
    simp only [formatJoin, h1, h2, h3, h4, this, or_self, if_false, if_true]
    rfl
  · simp [formatJoin, key2, pure_eq_ok]
  · intro c hc hne h
    have hform : formatJoin parts [c] = .ok (joinWith [',', ' '] parts) := by
      simp only [List.mem_cons, List.not_mem_nil, or_false] at hc
      rcases hc with rfl | rfl <;> simp [formatJoin, pure_eq_ok]
    refine ⟨_, hform, ?_⟩
    obtain ⟨p, ps, rfl⟩ := List.exists_cons_of_ne_nil hne
    have hj : joinWith [',', ' '] (p :: ps) = join ',' (p :: ps.map (' ' :: ·)) := by
      clear hne h hform
      induction ps generalizing p with
      | nil => rfl
      | cons q qs ih =>
        have h1 : ∀ t : List Str, join ',' ((' ' :: q) :: t) = ' ' :: join ',' (q :: t) := by
          intro t
          by_cases ht : t = []
          · subst ht; rfl
          · rw [join_cons ht, join_cons ht]; rfl
        have h2 : join ',' (p :: (' ' :: q) :: qs.map (' ' :: ·)) = p ++ ',' :: join ',' ((' ' :: q) :: qs.map (' ' :: ·)) :=
          join_cons (by simp)
        rw [joinWith, ih q, List.map_cons, h2, h1]
        simp
    rw [hj, split_join (by simp)]
    · simp
    · intro q hq
      simp only [List.mem_cons, List.mem_map] at hq
      rcases hq with rfl | ⟨q, hq, rfl⟩
      · exact h _ (by simp)
      · simpa using h q (by simp [hq])
  · exact fun hne h => ⟨join ' ' parts, by simp [formatJoin, key, pure_eq_ok], split_join hne h⟩

/-- A nested value without empty keys whose keys are clean. -/
example : Keys (fun k => ∀ c ∈ k, keepH c = true) (.dict [("a".toList, .scalar "1".toList), ("b".toList, .list [.scalar "2".toList, .scalar "3".toList])]) ∧
    Keys (· ≠ []) (.dict [("a".toList, .scalar "1".toList), ("b".toList, .list [.scalar "2".toList, .scalar "3".toList])]) := by
  constructor <;> refine keys_dict (by decide) ?_ <;> simp only [List.mem_cons, List.not_mem_nil, or_false] <;>
    rintro kv (rfl | rfl) <;> first | exact keys_scalar _ _ | (refine keys_list ?_; simp only [List.mem_cons, List.not_mem_nil, or_false]; rintro v (rfl | rfl) <;> exact keys_scalar _ _)

example : ∃ (s : Str) (m : List (Str × Str)), cleanString (.dict ([("b_c".toList, "x".toList), ("a".toList, "1".toList)].map fun kv => (kv.1, .scalar kv.2))) = .ok s ∧
    m.Perm [("b_c".toList, "x".toList), ("a".toList, "1".toList)] ∧ (m.map Prod.fst).Pairwise (· ≤ ·) ∧
      splitParams s = .ok (m.map fun kv => (kv.1, some kv.2)) :=
  C102_clean_dict _ (by simp) (by decide) (by decide)

/-! ### C103 -/

/-- **C103 (elements).** A loop over the result runs through what the argument holds: nothing for `None`, the string or other value itself, or the elements; but for something that
can be iterated over only once this needs `copy=True`. -/
theorem C103_listify_elements {α : Type} (copy : Bool) :
    (listify (α := α) .none copy).elems = [] ∧
    (∀ s, (listify (α := α) (.str s) copy).elems = [.str s]) ∧
    (∀ x : α, (listify (.scalar x) copy).elems = [.scalar x]) ∧
    (∀ l : List α, (listify (.list l) copy).elems = l.map .scalar ∧ (listify (.seq l) copy).elems = l.map .scalar) ∧
    (∀ l : List α, (listify (.iter l) true).elems = l.map .scalar) := by
  refine ⟨rfl, fun _ => rfl, fun _ => rfl, fun l => ⟨rfl, ?_⟩, fun _ => rfl⟩
  cases copy <;> rfl

/-- **C103 (the code violates it).** A generator is used up by the call: without `copy` the result is always empty. -/
theorem C103_listify_generator {α : Type} (l : List α) : (listify (.iter l) false).elems = [] := rfl

/-- **C103 (copies).** With `copy=True` the result is a new list, except for a list, which is returned itself: changing the result changes the argument. -/
theorem C103_listify_copy {α : Type} (v : Obj α) :
    (∃ l, listify v true = .new l) ∨ ∃ l, v = .list l ∧ listify v true = .same v := by
  cases v with
  | list l => exact Or.inr ⟨l, rfl, rfl⟩
  | none => exact Or.inl ⟨_, rfl⟩
  | str s => exact Or.inl ⟨_, rfl⟩
  | seq l => exact Or.inl ⟨_, rfl⟩
  | iter l => exact Or.inl ⟨_, rfl⟩
  | scalar x => exact Or.inl ⟨_, rfl⟩

example : (listify (.iter [1, 2, 3]) true).elems = [.scalar 1, .scalar 2, .scalar 3] ∧ (listify (.iter [1, 2, 3]) false).elems = [] := ⟨rfl, rfl⟩

end Verif
