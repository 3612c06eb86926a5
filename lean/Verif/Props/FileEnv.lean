import Verif.Proofs.FileEnv

/-!
# C58: the file environment
-/

namespace Verif

open FileEnv

variable {D R : Type}

theorem numLines_eq (n : ℤ) : numLines n = if n ≤ 0 then none else some n := by
  rw [numLines]
  by_cases h : n ≤ 0
  · rw [if_pos h, if_neg (by omega)]
  · rw [if_neg h, if_pos (by omega)]

/-- **C58 (step by step).** If every directory of the protocol has rows and no step count is negative, then the calls of
`update()` on an environment that is not in use return the rows of the blocks in protocol order, each block cut or repeated
to its step count, then one `None`, and then everything again. -/
theorem C58_updates (load : D → Option ℤ → Py (List R)) (protocol : List (EnvDir D)) (rows : EnvDir D → List R)
    (hl : ∀ e ∈ protocol, load e.dirname (if e.steps ≤ 0 then none else some e.steps) = .ok (rows e)) (hr : ∀ e ∈ protocol, rows e ≠ [])
    (hm : ∀ e ∈ protocol, 0 ≤ e.steps) (s : FileEnv D R) (hs : s.dirIter = none) (n : ℕ) :
    ∃ s', updates load protocol n s =
      .ok (cycle n ((protocol.flatMap fun e => presented e.steps (rows e)).map some ++ [none]), s') :=
  updates_cycle n s ⟨hs⟩ (by simpa only [numLines_eq] using hl) hr hm

/-- **C58 (all at once).** Under the same conditions `get_all_data()` returns exactly these rows, from any state of the
environment, and leaves it unused.  The loop ends after one round per block and two more. -/
theorem C58_getAllData (load : D → Option ℤ → Py (List R)) (protocol : List (EnvDir D)) (rows : EnvDir D → List R)
    (hne : protocol ≠ []) (hl : ∀ e ∈ protocol, load e.dirname (if e.steps ≤ 0 then none else some e.steps) = .ok (rows e))
    (hr : ∀ e ∈ protocol, rows e ≠ []) (hm : ∀ e ∈ protocol, 0 ≤ e.steps) (s : FileEnv D R) (fuel : ℕ)
    (hf : protocol.length + 2 ≤ fuel) :
    ∃ s', getAllData load protocol fuel s =
      .ok (some (protocol.flatMap (fun e => presented e.steps (rows e)), s')) ∧ s'.dirIter = none := by
  obtain ⟨s', h1, h2⟩ := getAllData_eq s hne (by simpa only [numLines_eq] using hl) hr hm fuel hf
  exact ⟨s', h1, h2.dirs⟩

/-- **C58 (agreement).** The updates up to the first `None` are the rows of `get_all_data()`; and a `get_all_data()` in the
middle of the updates makes them start from the first row. -/
theorem C58_agree (load : D → Option ℤ → Py (List R)) (protocol : List (EnvDir D)) (rows : EnvDir D → List R)
    (hne : protocol ≠ []) (hl : ∀ e ∈ protocol, load e.dirname (if e.steps ≤ 0 then none else some e.steps) = .ok (rows e))
    (hr : ∀ e ∈ protocol, rows e ≠ []) (hm : ∀ e ∈ protocol, 0 ≤ e.steps) (s : FileEnv D R) (fuel : ℕ)
    (all : List R) (s' : FileEnv D R) (h : getAllData load protocol fuel s = .ok (some (all, s')))
    (hf : protocol.length + 2 ≤ fuel) :
    ∃ s'', updates load protocol (all.length + 1) s' = .ok (all.map some ++ [none], s'') := by
  replace hl : ∀ e ∈ protocol, load e.dirname (numLines e.steps) = .ok (rows e) := by simpa only [numLines_eq] using hl
  obtain ⟨t, h1, h2⟩ := getAllData_eq s hne hl hr hm fuel hf
  rw [h1] at h
  simp only [Except.ok.injEq, Option.some.injEq, Prod.mk.injEq] at h
  obtain ⟨rfl, rfl⟩ := h
  obtain ⟨s'', h3, -⟩ := updates_round t h2 hl hr hm
  refine ⟨s'', ?_⟩
  rw [cycleRound, List.length_append, List.length_map, List.length_singleton] at h3
  exact h3

/-- Two directories, the first one repeated to five rows and the second as it is. -/
example : (([⟨"a", 5⟩, ⟨"b", 0⟩] : List (EnvDir String)).flatMap fun e =>
    presented e.steps (if e.dirname = "a" then [1, 2] else [7, 8, 9])) = [1, 2, 1, 2, 1, 7, 8, 9] := by decide

/-- The conditions are met by a file of two rows asked for five and a file of three rows. -/
example : ∀ e ∈ ([⟨"a", 5⟩, ⟨"b", 0⟩] : List (EnvDir String)),
    (fun (d : String) (_ : Option ℤ) => (Except.ok (if d = "a" then [1, 2] else [7, 8, 9]) : Py (List ℕ))) e.dirname
      (if e.steps ≤ 0 then none else some e.steps) = .ok (if e.dirname = "a" then [1, 2] else [7, 8, 9]) ∧ 0 ≤ e.steps := by
  intro e he
  simp only [List.mem_cons, List.not_mem_nil, or_false] at he
  rcases he with rfl | rfl <;> simp

/-- **C58 (negative step count).** With a negative step count, as `Protocol.from_list` allows, the two ways of reading
disagree: `get_all_data()` returns the whole file and the updates only its first row. -/
theorem C58_negative (load : D → Option ℤ → Py (List R)) (d : D) (steps : ℤ) (hneg : steps < 0) (r : R) (rs : List R)
    (hl : load d none = .ok (r :: rs)) (s : FileEnv D R) (hs : s.dirIter = none) (fuel : ℕ) (hf : 3 ≤ fuel) :
    (∃ s', getAllData load [⟨d, steps⟩] fuel s = .ok (some (r :: rs, s'))) ∧
    ∃ s', updates load [⟨d, steps⟩] 2 s = .ok ([some r, none], s') := by
  have hn : numLines steps = none := by rw [numLines, if_neg (by omega)]
  constructor
  · obtain ⟨fuel, rfl⟩ : ∃ f, fuel = f + 3 := ⟨fuel - 3, by omega⟩
    have h1 : ¬ steps = 0 := by omega
    have h2 : ¬ 0 < steps := by omega
    have h3 : steps ≤ 0 := by omega
    refine ⟨⟨none, steps, -1, -1, none⟩, ?_⟩
    simp only [getAllData, chunkLoop, start, reset, updateDataBlock, keeps, hn, hl, ok_bind, pure_eq_ok, getDataBlock,
      Bool.false_eq_true, if_false, h3, true_or, if_true]
    simp only [gt_iff_lt, h2, decide_false, Bool.false_and, Bool.or_false, ok_bind,
      beq_eq_false_iff_ne.mpr h1, Bool.false_eq_true, if_false, Option.map_some, concat, List.filterMap_cons, id,
      List.filterMap_nil, List.flatten_cons, List.flatten_nil, List.append_nil]
  · have h1 : ¬ steps = 0 := by omega
    have h2 : ¬ 0 < steps := by omega
    refine ⟨⟨none, steps, 0, 0, none⟩, ?_⟩
    simp only [updates, update, updateDataBlock, hs, start, reset, keeps, Bool.false_eq_true, if_false, hn, hl, ok_bind,
      pure_eq_ok, getData, List.length_cons, Nat.add_eq_zero_iff, one_ne_zero, and_false, Int.zero_emod, Int.toNat_zero,
      List.getElem?_cons_zero]
    simp only [gt_iff_lt, h2, decide_false, Bool.false_and, Bool.or_false, beq_eq_false_iff_ne.mpr h1,
      Bool.false_eq_true, if_false, ok_bind]
    rfl

/-- **C58 (empty file).** A directory without rows makes `update()` raise ZeroDivisionError. -/
theorem C58_no_rows (load : D → Option ℤ → Py (List R)) (e : EnvDir D) (es : List (EnvDir D))
    (hl : load e.dirname (if e.steps ≤ 0 then none else some e.steps) = .ok []) (s : FileEnv D R) (hs : s.dirIter = none) :
    update load (e :: es) s = .error .zeroDivisionError := by
  replace hl : load e.dirname (numLines e.steps) = .ok [] := by simpa only [numLines_eq] using hl
  simp only [update, updateDataBlock, hs, start, reset, keeps, Bool.false_eq_true, if_false, hl, ok_bind, pure_eq_ok,
    getData, List.length_nil, if_true, error_bind]

/-- **C58 (empty protocol).** Without entries `get_all_data()` raises ValueError. -/
theorem C58_no_entries (load : D → Option ℤ → Py (List R)) (s : FileEnv D R) (fuel : ℕ) (hf : 2 ≤ fuel) :
    getAllData load [] fuel s = .error .valueError := by
  obtain ⟨fuel, rfl⟩ : ∃ f, fuel = f + 2 := ⟨fuel - 2, by omega⟩
  simp only [getAllData, chunkLoop, start, reset, updateDataBlock, keeps, Bool.false_eq_true, if_false, ok_bind,
    getDataBlock, pure_eq_ok, Option.map_some, concat, List.filterMap_cons, id, List.filterMap_nil, error_bind]

/-- One call: the global counter starts at the first row of a round and is back at zero after the `None` that ends it. -/
private theorem step_update (load : D → Option ℤ → Py (List R)) (protocol : List (EnvDir D)) (s s' : FileEnv D R) (r : Option R)
    (h : update load protocol s = .ok (r, s')) :
    s'.step = (if r.isSome then (if s.dirIter = none then 0 else s.step) + 1 else 0) ∧ (s'.dirIter = none → s'.step = 0) := by
  have key : ∀ t : FileEnv D R, t.dirIter ≠ none →
      (if keeps t then .ok t else match t.dirIter with
        | none => .error .typeError
        | some [] => .ok (reset t)
        | some (e :: es) => do
          let rows ← load e.dirname (numLines e.steps)
          pure { t with dirIter := some es, currentMax := e.steps, localStep := 0, data := some rows } : Py (FileEnv D R)) >>=
        (fun t => getData t >>= fun r => pure (r, { t with step := t.step + 1, localStep := t.localStep + 1 })) = .ok (r, s') →
      s'.step = (if r.isSome then t.step + 1 else 0) ∧ (s'.dirIter = none → s'.step = 0) := by
    intro t ht hu
    have some_of : ∀ u : FileEnv D R, u.data ≠ none → u.dirIter ≠ none → u.step = t.step →
        (getData u >>= fun r => pure (r, { u with step := u.step + 1, localStep := u.localStep + 1 })) = .ok (r, s') →
        s'.step = (if r.isSome then t.step + 1 else 0) ∧ (s'.dirIter = none → s'.step = 0) := by
      intro u hd hi hs hg
      simp only [bind_eq_ok, pure_eq_ok, Except.ok.injEq, Prod.mk.injEq] at hg
      obtain ⟨r', hg, rfl, rfl⟩ := hg
      have : r'.isSome = true := by
        unfold getData at hg
        cases hdat : u.data with
        | none => exact absurd hdat hd
        | some d =>
          rw [hdat] at hg
          simp only at hg
          split at hg
          · cases hg
          · split at hg
            · cases hg
            · cases hg
              rfl
      simp only [this, if_true, hs, true_and]
      exact fun h => absurd h hi
    by_cases hk : keeps t = true
    · rw [if_pos hk, ok_bind] at hu
      refine some_of t ?_ ht rfl hu
      intro hd
      simp [keeps, hd] at hk
    · rw [if_neg hk] at hu
      match hdi : t.dirIter, hu with
      | none, _ => exact absurd hdi ht
      | some [], hu =>
        simp only [ok_bind, getData, reset, pure_eq_ok, Except.ok.injEq, Prod.mk.injEq] at hu
        obtain ⟨rfl, rfl⟩ := hu
        simp
      | some (e :: es), hu =>
        simp only [bind_eq_ok] at hu
        obtain ⟨t', ⟨rows, _, h2⟩, h3⟩ := hu
        simp only [pure_eq_ok, Except.ok.injEq] at h2
        subst h2
        exact some_of { t with dirIter := some es, currentMax := e.steps, localStep := 0, data := some rows } (by simp) (by simp)
          rfl (by simpa only [bind_eq_ok] using h3)
  by_cases hd : s.dirIter = none
  · rw [if_pos hd]
    refine key (start protocol s) (by simp [start]) ?_
    rw [← h]
    simp only [update, updateDataBlock, hd]
    rfl
  · rw [if_neg hd]
    refine key s hd ?_
    rw [← h]
    obtain ⟨l, hl⟩ := Option.ne_none_iff_exists'.mp hd
    simp only [update, updateDataBlock, hl]
    rfl

/-- **C58 (counter).** The attribute `step` counts the rows that `update()` has returned since the environment was started or
since the last `None`, whatever the protocol and the files. -/
theorem C58_step (load : D → Option ℤ → Py (List R)) (protocol : List (EnvDir D)) (n : ℕ) (s s' : FileEnv D R)
    (l : List (Option R)) (hn : n ≠ 0) (h : updates load protocol n s = .ok (l, s')) :
    s'.step = l.foldl (fun k r => if r.isSome then k + 1 else 0) (if s.dirIter = none then 0 else s.step) := by
  induction n generalizing s l with
  | zero => exact absurd rfl hn
  | succ n ih =>
    simp only [updates, bind_eq_ok, pure_eq_ok, Except.ok.injEq, Prod.mk.injEq, Prod.exists] at h
    obtain ⟨r, t, hr, rs, t2, hrs, rfl, rfl⟩ := h
    obtain ⟨h1, h2⟩ := step_update load protocol s t r hr
    rw [List.foldl_cons, ← h1]
    cases n with
    | zero =>
      simp only [updates, pure_eq_ok, Except.ok.injEq, Prod.mk.injEq] at hrs
      obtain ⟨rfl, rfl⟩ := hrs
      rfl
    | succ n =>
      rw [ih t rs (by omega) hrs]
      congr 1
      split
      · exact (h2 ‹_›).symm
      · rfl

/-- Two rows, the end, and one more row: the counter is at 1. -/
example : [some 'a', some 'b', none, some 'a'].foldl (fun (k : ℤ) r => if r.isSome then k + 1 else 0) 0 = 1 := by decide

end Verif
