import Verif.Model.LogData
import Verif.Proofs.Logs

/-!
# Lemmas on log data
-/

namespace Verif

namespace LogData

open Str Jobs Structures Logs

theorem clean_clean (s : Str) : clean (clean s) = clean s := by simp [clean]

theorem getIndices_get {hs : List Str} (h : hs.Nodup) (k : Str) (i : ℕ) : (getIndices hs).get? k = some i ↔ hs[i]? = some k := by
  have key : ∀ (hs : List Str) (n : ℕ) (d : PyDict Str ℕ), hs.Nodup → ∀ k i,
      ((hs.zipIdx n).foldl (fun (d : PyDict Str ℕ) hi => d.set hi.1 hi.2) d).get? k = some i ↔
        (∃ j, i = n + j ∧ hs[j]? = some k) ∨ (k ∉ hs ∧ d.get? k = some i) := by
    intro hs
    induction hs with
    | nil => simp
    | cons a hs ih =>
      intro n d h k i
      have h := List.nodup_cons.1 h
      rw [List.zipIdx_cons, List.foldl_cons, ih _ _ h.2]
      constructor
      · rintro (⟨j, rfl, hj⟩ | ⟨h1, h2⟩)
        · exact .inl ⟨j + 1, by omega, by simpa using hj⟩
        · by_cases e : k = a
          · subst e
            rw [PyDict.get?_set_self, Option.some.injEq] at h2
            exact .inl ⟨0, h2.symm, rfl⟩
          · rw [PyDict.get?_set_other _ _ e] at h2
            exact .inr ⟨by simp [e, h1], h2⟩
      · rintro (⟨j, rfl, hj⟩ | ⟨h1, h2⟩)
        · cases j with
          | zero =>
            rw [List.getElem?_cons_zero, Option.some.injEq] at hj
            subst hj
            exact .inr ⟨h.1, PyDict.get?_set_self _ _ _⟩
          | succ j => exact .inl ⟨j, by omega, by simpa using hj⟩
        · rw [List.mem_cons, not_or] at h1
          exact .inr ⟨h1.2, by rw [PyDict.get?_set_other _ _ h1.1]; exact h2⟩
  rw [getIndices, key hs 0 [] h k i]
  simp [PyDict.get?]

/-- The columns after the cleaned names were added. -/
theorem addClean_get {ks : List Str} (hnd : ks.Nodup) (hinj : ∀ a ∈ ks, ∀ b ∈ ks, clean a = clean b → a = b) :
    ∃ ind, addClean (getIndices ks) ks = .ok ind ∧
      ∀ k i, ind.get? k = some i ↔ ∃ h, ks[i]? = some h ∧ (k = h ∨ k = clean h) := by
  have hidx : ∀ (h : Str) (i j : ℕ), ks[i]? = some h → ks[j]? = some h → i = j := by
    intro h i j hi hj
    obtain ⟨hi1, hi2⟩ := List.getElem?_eq_some_iff.1 hi
    obtain ⟨hj1, hj2⟩ := List.getElem?_eq_some_iff.1 hj
    exact (List.Nodup.getElem_inj_iff hnd).1 (hi2.trans hj2.symm)
  have key : ∀ (hs : List Str) (ind : PyDict Str ℕ), (∀ h ∈ hs, h ∈ ks) → (∀ (i : ℕ) (h : Str), ks[i]? = some h → ind.get? h = some i) →
      (∀ k i, ind.get? k = some i → ∃ h, ks[i]? = some h ∧ (k = h ∨ k = clean h)) →
      ∃ ind', addClean ind hs = .ok ind' ∧ (∀ k i, ind.get? k = some i → ind'.get? k = some i) ∧
        (∀ h ∈ hs, ∀ i : ℕ, ks[i]? = some h → ind'.get? (clean h) = some i) ∧
        (∀ k i, ind'.get? k = some i → ∃ h, ks[i]? = some h ∧ (k = h ∨ k = clean h)) := by
    intro hs
    induction hs with
    | nil => exact fun ind _ _ h2 => ⟨ind, rfl, fun _ _ h => h, by simp, h2⟩
    | cons a hs ih =>
      intro ind hsub h1 h2
      obtain ⟨n, hn⟩ := List.mem_iff_getElem?.1 (hsub a List.mem_cons_self)
      have ha := h1 n a hn
      have hmono : ∀ k i, ind.get? k = some i → (ind.set (clean a) n).get? k = some i := by
        intro k i hk
        by_cases e : k = clean a
        · subst e
          rw [PyDict.get?_set_self]
          obtain ⟨h, hh, e⟩ := h2 _ _ hk
          have : h = a := by
            refine hinj h (List.mem_of_getElem? hh) a (hsub a List.mem_cons_self) ?_
            rcases e with e | e
            · rw [← e, clean_clean]
            · exact e.symm
          subst this
          rw [hidx h n i hn hh]
        · rw [PyDict.get?_set_other _ _ e]
          exact hk
      obtain ⟨ind', h3, h4, h5, h6⟩ := ih (ind.set (clean a) n) (fun h hh => hsub h (List.mem_cons_of_mem _ hh))
        (fun i h hi => hmono _ _ (h1 i h hi)) (by
          intro k i hk
          by_cases e : k = clean a
          · subst e
            rw [PyDict.get?_set_self, Option.some.injEq] at hk
            subst hk
            exact ⟨a, hn, .inr rfl⟩
          · rw [PyDict.get?_set_other _ _ e] at hk
            exact h2 k i hk)
      refine ⟨ind', by simp only [addClean, PyDict.getE, ha, ok_bind, h3], fun k i hk => h4 _ _ (hmono _ _ hk), ?_, h6⟩
      intro h hh i hi
      rcases List.mem_cons.1 hh with rfl | hh
      · rw [hidx h i n hi hn]
        exact h4 _ _ (PyDict.get?_set_self _ _ _)
      · exact h5 h hh i hi
  obtain ⟨ind, h1, h2, h3, h4⟩ := key ks (getIndices ks) (fun _ h => h) (fun i h hi => (getIndices_get hnd h i).2 hi)
    (fun k i h => ⟨k, (getIndices_get hnd k i).1 h, .inl rfl⟩)
  refine ⟨ind, h1, fun k i => ⟨h4 k i, ?_⟩⟩
  rintro ⟨h, hh, rfl | rfl⟩
  · exact h2 _ _ ((getIndices_get hnd _ _).2 hh)
  · exact h3 h (List.mem_of_getElem? hh) i hh

theorem appendRow_spec {ind : PyDict Str ℕ} {pos : Str → ℕ} {content : List Str} {valid : List Str} (hnd : valid.Nodup)
    {data : PyDict Str (List Str)} (hind : ∀ k ∈ valid, ind.get? k = some (pos k) ∧ pos k < content.length)
    (hdata : ∀ k ∈ valid, k ∈ data.keys) :
    ∃ data', appendRow ind content data valid = .ok data' ∧ data'.keys = data.keys ∧
      (∀ k ∈ valid, ∀ old, data.get? k = some old → data'.get? k = some (old ++ [content.getD (pos k) []])) ∧
      ∀ k, k ∉ valid → data'.get? k = data.get? k := by
  induction valid generalizing data with
  | nil => exact ⟨data, rfl, rfl, by simp, fun _ _ => rfl⟩
  | cons a valid ih =>
    have hnd := List.nodup_cons.1 hnd
    obtain ⟨old, ho⟩ := PyDict.get?_isSome.2 (hdata a List.mem_cons_self)
    obtain ⟨hi, hlt⟩ := hind a List.mem_cons_self
    have hget : pyGet content (pos a) = .ok (content.getD (pos a) []) := by
      rw [pyGet, List.getElem?_eq_getElem hlt, List.getD_eq_getElem?_getD, List.getElem?_eq_getElem hlt]
      rfl
    obtain ⟨data', h1, h2, h3, h4⟩ := ih hnd.2 (data := data.set a (old ++ [content.getD (pos a) []]))
      (fun k hk => hind k (List.mem_cons_of_mem _ hk)) (fun k hk => by
        rw [PyDict.keys_set_of_mem _ (hdata a List.mem_cons_self)]
        exact hdata k (List.mem_cons_of_mem _ hk))
    refine ⟨data', ?_, ?_, ?_, ?_⟩
    · simp only [appendRow, PyDict.getE, hi, ho, ok_bind, hget, h1]
    · rw [h2, PyDict.keys_set_of_mem _ (hdata a List.mem_cons_self)]
    · intro k hk old' ho'
      rcases List.mem_cons.1 hk with rfl | hk
      · rw [h4 _ hnd.1, PyDict.get?_set_self]
        rw [ho'] at ho
        cases ho
        rfl
      · have : k ≠ a := fun e => hnd.1 (e ▸ hk)
        exact h3 k hk old' (by rw [PyDict.get?_set_other _ _ this]; exact ho')
    · intro k hk
      rw [List.mem_cons, not_or] at hk
      rw [h4 k hk.2, PyDict.get?_set_other _ _ hk.1]

theorem appendRows_spec {ind : PyDict Str ℕ} {pos : Str → ℕ} {valid : List Str} (hnd : valid.Nodup) (lines : List Str)
    {data : PyDict Str (List Str)} (hind : ∀ k ∈ valid, ind.get? k = some (pos k))
    (hlen : ∀ l ∈ lines, ∀ k ∈ valid, pos k < (words l).length) (hdata : ∀ k ∈ valid, k ∈ data.keys) :
    ∃ data', appendRows ind valid data lines = .ok data' ∧ data'.keys = data.keys ∧
      (∀ k ∈ valid, ∀ old, data.get? k = some old →
        data'.get? k = some (old ++ lines.map fun l => (words l).getD (pos k) [])) ∧
      ∀ k, k ∉ valid → data'.get? k = data.get? k := by
  induction lines generalizing data with
  | nil => exact ⟨data, rfl, rfl, by simp, fun _ _ => rfl⟩
  | cons l lines ih =>
    obtain ⟨d1, h1, h2, h3, h4⟩ := appendRow_spec hnd (content := words l) (data := data)
      (fun k hk => ⟨hind k hk, hlen l List.mem_cons_self k hk⟩) hdata
    obtain ⟨d2, g1, g2, g3, g4⟩ := ih (data := d1) (fun l hl => hlen l (List.mem_cons_of_mem _ hl)) (by rw [h2]; exact hdata)
    refine ⟨d2, by simp only [appendRows, h1, ok_bind, g1], by rw [g2, h2], ?_, fun k hk => by rw [g4 k hk, h4 k hk]⟩
    intro k hk old ho
    rw [g3 k hk _ (h3 k hk old ho)]
    simp

theorem init_spec (valid : List Str) (hnd : valid.Nodup) (d : PyDict Str (List Str)) (hd : ∀ k ∈ valid, k ∉ d.keys) :
    let d' := valid.foldl (fun (d : PyDict Str (List Str)) k => d.set k []) d
    d'.keys = d.keys ++ valid ∧ (∀ k ∈ valid, d'.get? k = some []) ∧ ∀ k, k ∉ valid → d'.get? k = d.get? k := by
  induction valid generalizing d with
  | nil => simp
  | cons a valid ih =>
    have hnd := List.nodup_cons.1 hnd
    have ha := hd a List.mem_cons_self
    obtain ⟨h1, h2, h3⟩ := ih hnd.2 (d.set a []) (by
      intro k hk
      rw [PyDict.keys_set_of_not_mem _ ha, List.mem_append, List.mem_singleton, not_or]
      exact ⟨hd k (List.mem_cons_of_mem _ hk), fun e => hnd.1 (e ▸ hk)⟩)
    refine ⟨?_, ?_, ?_⟩
    · rw [List.foldl_cons, h1, PyDict.keys_set_of_not_mem _ ha]
      simp
    · intro k hk
      rcases List.mem_cons.1 hk with rfl | hk
      · rw [List.foldl_cons, h3 _ hnd.1]
        exact PyDict.get?_set_self _ _ _
      · exact h2 k hk
    · intro k hk
      rw [List.mem_cons, not_or] at hk
      rw [List.foldl_cons, h3 k hk.2, PyDict.get?_set_other _ _ hk.1]

theorem scanNotes_spec (cs : List Str) (header : Str) (rest : List Str) (hh : header.head? ≠ some '#') (hb : header ≠ ['\n'])
    (h : Option (List Str)) (acc : List Str) (n : ℕ) :
    scanNotes (cs.map (fun c => '#' :: c) ++ header :: rest) h acc n =
      (some (words header), acc ++ cs.map (fun c => strip (c.drop 1)), n + cs.length + 1) := by
  induction cs generalizing h acc n with
  | nil => simp [scanNotes, hh, hb]
  | cons c cs ih =>
    rw [List.map_cons, List.cons_append, scanNotes, if_neg (by simp), if_pos List.head?_cons, ih]
    simp only [List.drop_succ_cons, List.map_cons, List.append_assoc, List.singleton_append, List.length_cons]
    congr 2
    omega

theorem headerListLoop_spec (cs : List Str) (header : Str) (rest : List Str) (hh : header.head? ≠ some '#') (hb : words header ≠ []) :
    headerListLoop (cs.map (fun c => '#' :: c) ++ header :: rest) = words header := by
  induction cs with
  | nil => simp [headerListLoop, hh, hb]
  | cons c cs ih => rw [List.map_cons, List.cons_append, headerListLoop, if_pos (.inl List.head?_cons), ih]

theorem get?_map {α β : Type} (d : PyDict Str α) (f : Str → α → β) (k : Str) :
    PyDict.get? (d.map fun kv => (kv.1, f kv.1 kv.2)) k = (d.get? k).map (f k) := by
  induction d with
  | nil => rfl
  | cons x d ih =>
    obtain ⟨a, v⟩ := x
    by_cases e : a = k
    · subst e
      simp [PyDict.get?]
    · simp only [List.map_cons, PyDict.get?, e, if_false]
      exact ih

end LogData

end Verif
