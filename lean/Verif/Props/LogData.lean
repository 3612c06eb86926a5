import Verif.Proofs.LogData
import Mathlib.Data.List.Sort

/-!
# C92: log data
-/

namespace Verif

open Str Jobs Structures Logs LogData

/-- The `i`th entries of the rows. -/
def C92_column (rows : List (List Str)) (i : ℕ) : List Str := rows.map fun r => r.getD i []

/-- A file with comments, a line of headers and rows, in which no two headers look the same once they are cleaned. -/
structure C92_File (w : World) (p : Str) (comments headers : List Str) (rows : List (List Str)) : Prop where
  file : w.files p = some (textOf (comments.map (fun c => '#' :: c) ++ lineOf headers :: rows.map lineOf))
  comment : ∀ c ∈ comments, '\n' ∉ c
  header : ∀ h ∈ headers, Word h
  row : ∀ r ∈ rows, r.length = headers.length ∧ ∀ v ∈ r, Word v
  nonempty : headers ≠ []
  first : ∀ h ∈ headers.head?, h.head? ≠ some '#'
  nodup : headers.Nodup
  clean : ∀ a ∈ headers, ∀ b ∈ headers, clean a = clean b → a = b

/-- The name `k` stands for the column `i`. -/
def C92_Names (headers : List Str) (k : Str) (i : ℕ) : Prop := ∃ h, headers[i]? = some h ∧ (k = h ∨ k = clean h)

namespace LogData

variable {F : Type} (fl : Str → Option F)

theorem _root_.Verif.C92_File.lines {w : World} {p : Str} {comments headers : List Str} {rows : List (List Str)}
    (h : C92_File w p comments headers rows) : ∃ c, w.files p = some c ∧
      readlines c = (comments.map (· ++ ['\n'])).map (fun c => '#' :: c) ++
        (lineOf headers ++ ['\n']) :: (rows.map lineOf).map (· ++ ['\n']) ∧
      (lineOf headers ++ ['\n']).head? ≠ some '#' ∧ lineOf headers ++ ['\n'] ≠ ['\n'] ∧ words (lineOf headers ++ ['\n']) = headers := by
  refine ⟨_, h.file, ?_, ?_, ?_, words_line h.header⟩
  · rw [readlines_textOf]
    · simp
    · intro l hl
      rcases List.mem_append.1 hl with hl | hl
      · obtain ⟨c, hc, rfl⟩ := List.mem_map.1 hl
        simp [h.comment c hc]
      · rcases List.mem_cons.1 hl with rfl | hl
        · exact lineOf_newline h.header
        · obtain ⟨r, hr, rfl⟩ := List.mem_map.1 hl
          exact lineOf_newline (h.row r hr).2
  · obtain ⟨a, as, e⟩ := List.exists_cons_of_ne_nil h.nonempty
    have h1 := h.first a (by rw [e]; rfl)
    have h2 := h.header a (by rw [e]; exact List.mem_cons_self)
    rw [e, List.head?_append, lineOf_head as h2.1]
    obtain ⟨c, t, rfl⟩ := List.exists_cons_of_ne_nil h2.1
    simpa using h1
  · intro e
    have := words_line h.header
    rw [e] at this
    exact h.nonempty this.symm

/-- The loops of `get_log_data`. -/
theorem core {w : World} {p : Str} {comments headers : List Str} {rows : List (List Str)}
    (h : C92_File w p comments headers rows) (S : List Str) (hS : S.Nodup) (hc : "comments".toList ∉ S) :
    ∃ c ind data, w.files p = some c ∧
      scanNotes (readlines c) none [] 0 = (some headers, comments.map (fun c => strip ((c ++ ['\n']).drop 1)), comments.length + 1) ∧
      addClean (getIndices headers) headers = .ok ind ∧
      (∀ k i, ind.get? k = some i ↔ C92_Names headers k i) ∧
      appendRows ind (S.filter fun k => decide (k ∈ ind.keys))
        ((S.filter fun k => decide (k ∈ ind.keys)).foldl (fun (d : PyDict Str (List Str)) k => d.set k [])
          [("comments".toList, comments.map fun c => strip ((c ++ ['\n']).drop 1))])
        ((readlines c).drop (comments.length + 1)) = .ok data ∧
      data.keys = "comments".toList :: S.filter (fun k => decide (k ∈ ind.keys)) ∧
      ∀ k ∈ S.filter (fun k => decide (k ∈ ind.keys)), ∀ i, C92_Names headers k i → data.get? k = some (C92_column rows i) := by
  obtain ⟨c, h1, h2, h3, h4, h5⟩ := h.lines
  obtain ⟨ind, h6, h7⟩ := addClean_get h.nodup h.clean
  have hvd : (S.filter fun k => decide (k ∈ ind.keys)).Nodup := hS.filter _
  obtain ⟨i1, i2, i3⟩ := init_spec (S.filter fun k => decide (k ∈ ind.keys)) hvd
    [("comments".toList, comments.map fun c => strip ((c ++ ['\n']).drop 1))] (by
      intro k hk hk'
      rw [PyDict.keys_cons, PyDict.keys_nil, List.mem_singleton] at hk'
      subst hk'
      exact hc (List.mem_filter.1 hk).1)
  have hpos : ∀ k ∈ S.filter (fun k => decide (k ∈ ind.keys)), ind.get? k = some ((ind.get? k).getD 0) := by
    intro k hk
    have := (List.mem_filter.1 hk).2
    rw [decide_eq_true_iff] at this
    obtain ⟨i, hi⟩ := PyDict.get?_isSome.2 this
    rw [hi]
    rfl
  have hdrop : (readlines c).drop (comments.length + 1) = (rows.map lineOf).map (· ++ ['\n']) := by
    rw [h2, List.drop_append, List.drop_of_length_le (by simp)]
    simp
  have hwords : ∀ r ∈ rows, words (lineOf r ++ ['\n']) = r := fun r hr => words_line (h.row r hr).2
  obtain ⟨data, a1, a2, a3, -⟩ := appendRows_spec hvd ((readlines c).drop (comments.length + 1)) (ind := ind)
    (pos := fun k => (ind.get? k).getD 0) hpos (by
      intro l hl k hk
      rw [hdrop] at hl
      obtain ⟨l', hl', rfl⟩ := List.mem_map.1 hl
      obtain ⟨r, hr, rfl⟩ := List.mem_map.1 hl'
      rw [hwords r hr, (h.row r hr).1]
      obtain ⟨x, hx, -⟩ := (h7 k _).1 (hpos k hk)
      exact (List.getElem?_eq_some_iff.1 hx).1) (by
      intro k hk
      rw [i1]
      exact List.mem_append_right _ hk)
  refine ⟨c, ind, data, h1, ?_, h6, h7, a1, ?_, ?_⟩
  · rw [h2, scanNotes_spec _ _ _ h3 h4, h5]
    simp
  · rw [a2, i1]
    rfl
  · intro k hk i hi
    rw [a3 k hk [] (i2 k hk), List.nil_append, hdrop]
    have hki := hpos k hk
    rw [(h7 k i).2 hi] at hki ⊢
    rw [List.map_map, List.map_map, C92_column]
    congr 1
    apply List.map_congr_left
    intro r hr
    simp only [Function.comp_apply, hwords r hr, Option.getD_some]

end LogData

/-- The names of a subset which stand for columns, two or more: a table with these names, and for each the values of the
column.  They are converted to numbers if all of them are numbers, and stay as they are if not. -/
theorem C92_table {F : Type} (fl : Str → Option F) (w : World) (p : Str) (comments headers : List Str) (rows : List (List Str))
    (h : C92_File w p comments headers rows) (S : List Str) (hS : S.Nodup) (hc : "comments".toList ∉ S)
    (k1 k2 : Str) (i1 i2 : ℕ) (h1 : k1 ∈ S) (h2 : k2 ∈ S) (hne : k1 ≠ k2) (hn1 : C92_Names headers k1 i1) (hn2 : C92_Names headers k2 i2) :
    ∃ d, getLogData fl w p (some S) false = .ok (.table d) ∧ (∀ k, k ∈ d.keys ↔ k ∈ S ∧ ∃ i, C92_Names headers k i) ∧
      ∀ k ∈ S, ∀ i, C92_Names headers k i →
        (∀ xs, (C92_column rows i).mapM fl = some xs → d.get? k = some (.numbers xs)) ∧
        ((C92_column rows i).mapM fl = none → d.get? k = some (.texts (C92_column rows i))) := by
  obtain ⟨c, ind, data, e1, e2, e3, e4, e5, e6, e7⟩ := core h S hS hc
  have hvalid : ∀ k, k ∈ S.filter (fun k => decide (k ∈ ind.keys)) ↔ k ∈ S ∧ ∃ i, C92_Names headers k i := by
    intro k
    rw [List.mem_filter, decide_eq_true_iff, ← PyDict.get?_isSome]
    simp only [e4]
  have hcne : ∀ k ∈ S.filter (fun k => decide (k ∈ ind.keys)), "comments".toList ≠ k :=
    fun k hk e => hc (e ▸ (List.mem_filter.1 hk).1)
  obtain ⟨l, hl⟩ : ∃ l, data = ("comments".toList, l) :: data.tail := by
    cases data with
    | nil => cases e6
    | cons x data =>
      obtain ⟨a, l⟩ := x
      rw [PyDict.keys_cons] at e6
      exact ⟨l, by rw [(List.cons.inj e6).1]; rfl⟩
  have herase : data.erase "comments".toList = data.tail := by
    conv_lhs => rw [hl]
    rw [PyDict.erase, if_pos rfl]
  have htail : PyDict.keys data.tail = S.filter (fun k => decide (k ∈ ind.keys)) := by
    rw [hl, PyDict.keys_cons] at e6
    exact (List.cons.inj e6).2
  have hres : getLogData fl w p (some S) false = .ok (.table (data.tail.map fun kv =>
      (kv.1, if kv.1 ∈ S.filter (fun k => decide (k ∈ ind.keys)) then convert fl kv.2 else .texts kv.2))) := by
    rw [getLogData, e1]
    simp only [Option.getD_some, fromLines]
    rw [e2]
    simp only [e3, ok_bind, e5]
    split
    · rename_i k hk
      have m1 := (hvalid k1).2 ⟨h1, i1, hn1⟩
      have m2 := (hvalid k2).2 ⟨h2, i2, hn2⟩
      rw [hk, List.mem_singleton] at m1 m2
      exact absurd (m1.trans m2.symm) hne
    · simp only [Bool.false_eq_true, if_false, herase, pure_eq_ok]
  have hget : ∀ k ∈ S, ∀ i, C92_Names headers k i → PyDict.get? data.tail k = some (C92_column rows i) := by
    intro k hk i hi
    have hv := (hvalid k).2 ⟨hk, i, hi⟩
    have := e7 k hv i hi
    rw [hl, PyDict.get?, if_neg (hcne k hv)] at this
    exact this
  refine ⟨_, hres, ?_, ?_⟩
  · intro k
    rw [← hvalid, ← htail]
    simp only [PyDict.keys, List.map_map]
    rfl
  · intro k hk i hi
    have hv := (hvalid k).2 ⟨hk, i, hi⟩
    have e : PyDict.get? (data.tail.map fun kv =>
        (kv.1, if kv.1 ∈ S.filter (fun k => decide (k ∈ ind.keys)) then convert fl kv.2 else .texts kv.2)) k =
        some (convert fl (C92_column rows i)) := by
      rw [get?_map data.tail fun k v => if k ∈ S.filter (fun k => decide (k ∈ ind.keys)) then convert fl v else .texts v,
        hget k hk i hi, Option.map_some, if_pos hv]
    rw [e]
    unfold convert
    refine ⟨fun xs hxs => ?_, fun hxs => ?_⟩
    · rw [hxs]
    · rw [hxs]

/-- Only one name stands for a column: an array of the numbers, or ValueError. -/
theorem C92_array {F : Type} (fl : Str → Option F) (w : World) (p : Str) (comments headers : List Str) (rows : List (List Str))
    (h : C92_File w p comments headers rows) (S : List Str) (hS : S.Nodup) (hc : "comments".toList ∉ S)
    (k : Str) (i : ℕ) (hk : k ∈ S) (hn : C92_Names headers k i) (hone : ∀ k' ∈ S, ∀ i', C92_Names headers k' i' → k' = k) :
    (∀ xs, (C92_column rows i).mapM fl = some xs → getLogData fl w p (some S) false = .ok (.array xs)) ∧
    ((C92_column rows i).mapM fl = none → getLogData fl w p (some S) false = .error .valueError) := by
  obtain ⟨c, ind, data, e1, e2, e3, e4, e5, e6, e7⟩ := core h S hS hc
  have hvalid : ∀ k, k ∈ S.filter (fun k => decide (k ∈ ind.keys)) ↔ k ∈ S ∧ ∃ i, C92_Names headers k i := by
    intro k
    rw [List.mem_filter, decide_eq_true_iff, ← PyDict.get?_isSome]
    simp only [e4]
  have hv := (hvalid k).2 ⟨hk, i, hn⟩
  have hsing : S.filter (fun k => decide (k ∈ ind.keys)) = [k] := by
    have hnd : (S.filter fun k => decide (k ∈ ind.keys)).Nodup := hS.filter _
    have hall : ∀ k' ∈ S.filter (fun k => decide (k ∈ ind.keys)), k' = k := by
      intro k' hk'
      obtain ⟨a, i', b⟩ := (hvalid k').1 hk'
      exact hone k' a i' b
    revert hv hnd hall
    generalize S.filter (fun k => decide (k ∈ ind.keys)) = V
    intro hv hnd hall
    match V with
    | [] => simp at hv
    | [a] => rw [hall a (by simp)]
    | a :: b :: V =>
      have := hall a (by simp)
      have := hall b (by simp)
      simp_all
  have hget := e7 k hv i hn
  have hres : getLogData fl w p (some S) false =
      (match (C92_column rows i).mapM fl with
        | some x => pure (.array x)
        | none => .error .valueError) := by
    rw [hsing] at e5
    rw [getLogData, e1]
    simp only [Option.getD_some, fromLines]
    rw [e2]
    simp only [e3, ok_bind, hsing, e5, PyDict.getE, hget]
    rfl
  refine ⟨fun xs hxs => ?_, fun hxs => ?_⟩
  · rw [hres, hxs]
    rfl
  · rw [hres, hxs]

/-- Without a subset all headers are asked for. -/
theorem C92_default {F : Type} (fl : Str → Option F) (w : World) (p : Str) (comments headers : List Str) (rows : List (List Str))
    (h : C92_File w p comments headers rows) (keep : Bool) :
    ∃ S, S.Perm headers ∧ S.Pairwise (· ≤ ·) ∧ getHeaderList w p true = some S ∧ getHeaderList w p false = some headers ∧
      getLogData fl w p none keep = getLogData fl w p (some S) keep := by
  obtain ⟨c, h1, h2, h3, h4, h5⟩ := h.lines
  have hl : headerListLoop (readlines c) = headers := by
    rw [h2, headerListLoop_spec _ _ _ h3 (by rw [h5]; exact h.nonempty), h5]
  refine ⟨sortStr headers, List.mergeSort_perm _ _, ?_, ?_, ?_, ?_⟩
  · have := List.pairwise_mergeSort (le := fun a b : Str => decide (a ≤ b))
      (fun a b c h1 h2 => by
        rw [decide_eq_true_iff] at h1 h2 ⊢
        exact List.le_trans h1 h2)
      (fun a b => by
        rw [Bool.or_eq_true, decide_eq_true_iff, decide_eq_true_iff]
        exact List.le_total a b) headers
    exact this.imp fun h => by simpa using h
  · rw [getHeaderList, h1]
    simp only [hl, if_true]
  · rw [getHeaderList, h1]
    simp only [hl, Bool.false_eq_true, if_false]
  · rw [getLogData, getLogData, h1]
    simp only [hl, Option.getD_none, Option.getD_some]

end Verif
