import Verif.Model.FileEnv
import Verif.Spec.Cycle

/-! Lemmas about `FileEnvironment`. -/

namespace Verif

theorem getElem?_flatten_replicate {α : Type} (l : List α) (n i : ℕ) (h : i < n * l.length) :
    ((List.replicate n l).flatten)[i]? = l[i % l.length]? := by
  induction n generalizing i with
  | zero => simp at h
  | succ n ih =>
    rw [List.replicate_succ, List.flatten_cons]
    by_cases hi : i < l.length
    · rw [List.getElem?_append_left hi, Nat.mod_eq_of_lt hi]
    · rw [List.getElem?_append_right (by omega), ih _ (by rw [Nat.succ_mul] at h; omega)]
      rw [Nat.mod_eq_sub_mod (by omega : i ≥ l.length)]

theorem length_flatten_replicate {α : Type} (l : List α) (n : ℕ) : ((List.replicate n l).flatten).length = n * l.length := by
  simp

theorem getElem?_cycle {α : Type} (l : List α) (hl : l ≠ []) (n i : ℕ) (h : i < n) :
    (cycle n l)[i]? = l[i % l.length]? := by
  have : 1 ≤ l.length := List.length_pos_of_ne_nil hl
  rw [cycle, List.getElem?_take_of_lt h, getElem?_flatten_replicate]
  calc i < n := h
    _ = n * 1 := by omega
    _ ≤ n * l.length := Nat.mul_le_mul_left _ this

theorem length_cycle {α : Type} (l : List α) (hl : l ≠ []) (n : ℕ) : (cycle n l).length = n := by
  have : 1 ≤ l.length := List.length_pos_of_ne_nil hl
  rw [cycle, List.length_take, length_flatten_replicate, min_eq_left]
  calc n = n * 1 := by omega
    _ ≤ n * l.length := Nat.mul_le_mul_left _ this

/-- Whole repetitions and a rest. -/
theorem cycle_eq {α : Type} (l : List α) (hl : l ≠ []) (n : ℕ) :
    (List.replicate (n / l.length) l).flatten ++ l.take (n % l.length) = cycle n l := by
  have h1 : 1 ≤ l.length := List.length_pos_of_ne_nil hl
  apply List.ext_getElem?
  intro i
  by_cases hi : i < n
  · rw [getElem?_cycle l hl n i hi]
    by_cases hq : i < n / l.length * l.length
    · rw [List.getElem?_append_left (by simpa using hq), getElem?_flatten_replicate _ _ _ hq]
    · have hdm := Nat.div_add_mod n l.length
      rw [Nat.mul_comm] at hdm
      have hlt : i - n / l.length * l.length < l.length := by
        have := Nat.mod_lt n h1
        omega
      rw [List.getElem?_append_right (by simpa using hq), length_flatten_replicate,
        List.getElem?_take_of_lt (by omega)]
      congr 1
      conv_rhs => rw [show i = (i - n / l.length * l.length) + n / l.length * l.length by omega]
      rw [Nat.add_mul_mod_self_right, Nat.mod_eq_of_lt hlt]
  · rw [List.getElem?_eq_none, List.getElem?_eq_none]
    · rw [length_cycle l hl]; omega
    · rw [List.length_append, length_flatten_replicate, List.length_take]
      have hdm := Nat.div_add_mod n l.length
      rw [Nat.mul_comm] at hdm
      omega

theorem length_presented {α : Type} (m : ℤ) (l : List α) (hl : l ≠ []) :
    (presented m l).length = if m = 0 then l.length else m.toNat := by
  unfold presented
  split_ifs
  · rfl
  · exact length_cycle l hl _

theorem getElem?_presented {α : Type} (m : ℤ) (l : List α) (hl : l ≠ []) (i : ℕ) (h : i < (presented m l).length) :
    (presented m l)[i]? = l[i % l.length]? := by
  unfold presented at h ⊢
  split_ifs at h ⊢
  · rw [Nat.mod_eq_of_lt h]
  · rw [length_cycle l hl] at h
    exact getElem?_cycle l hl _ _ h

namespace FileEnv

variable {D R : Type} {load : D → Option ℤ → Py (List R)} {protocol : List (EnvDir D)}

theorem updates_add (a b : ℕ) (s : FileEnv D R) (x y : List (Option R)) (s1 s2 : FileEnv D R)
    (h1 : updates load protocol a s = .ok (x, s1)) (h2 : updates load protocol b s1 = .ok (y, s2)) :
    updates load protocol (a + b) s = .ok (x ++ y, s2) := by
  induction a generalizing s x with
  | zero =>
    simp only [updates, pure_eq_ok, Except.ok.injEq, Prod.mk.injEq] at h1
    obtain ⟨rfl, rfl⟩ := h1
    rw [Nat.zero_add]
    simpa using h2
  | succ a ih =>
    simp only [updates, bind_eq_ok, pure_eq_ok, Except.ok.injEq, Prod.mk.injEq, Prod.exists] at h1
    obtain ⟨r, t, hr, rs, t2, hrs, rfl, rfl⟩ := h1
    have := ih t rs hrs
    rw [show a + 1 + b = (a + b) + 1 by omega]
    simp only [updates, hr, ok_bind, this, pure_eq_ok, List.cons_append]

theorem updates_take (a b : ℕ) (s : FileEnv D R) (x : List (Option R)) (s2 : FileEnv D R) (hab : a ≤ b)
    (h : updates load protocol b s = .ok (x, s2)) : ∃ s1, updates load protocol a s = .ok (x.take a, s1) := by
  induction a generalizing s b x with
  | zero => exact ⟨s, by simp [updates]⟩
  | succ a ih =>
    obtain ⟨b, rfl⟩ : ∃ c, b = c + 1 := ⟨b - 1, by omega⟩
    simp only [updates, bind_eq_ok, pure_eq_ok, Except.ok.injEq, Prod.mk.injEq, Prod.exists] at h
    obtain ⟨r, t, hr, rs, t2, hrs, rfl, rfl⟩ := h
    obtain ⟨s1, h1⟩ := ih b t rs (by omega) hrs
    exact ⟨s1, by simp only [updates, hr, ok_bind, h1, pure_eq_ok, List.take_succ_cons]⟩

theorem updates_length (n : ℕ) (s : FileEnv D R) (x : List (Option R)) (s2 : FileEnv D R)
    (h : updates load protocol n s = .ok (x, s2)) : x.length = n := by
  induction n generalizing s x with
  | zero =>
    simp only [updates, pure_eq_ok, Except.ok.injEq, Prod.mk.injEq] at h
    rw [← h.1]; rfl
  | succ n ih =>
    simp only [updates, bind_eq_ok, pure_eq_ok, Except.ok.injEq, Prod.mk.injEq, Prod.exists] at h
    obtain ⟨r, t, hr, rs, t2, hrs, rfl, rfl⟩ := h
    simp [ih t rs hrs]

/-- In the middle of a block. -/
structure Inside (es : List (EnvDir D)) (m : ℤ) (d : List R) (k : ℕ) (s : FileEnv D R) : Prop where
  dirs : s.dirIter = some es
  max : s.currentMax = m
  pos : s.localStep = k
  data : s.data = some d

/-- Between blocks. -/
structure Ready (es : List (EnvDir D)) (s : FileEnv D R) : Prop where
  dirs : s.dirIter = some es
  keep : keeps s = false

/-- Before the first or after the last block. -/
structure Idle (s : FileEnv D R) : Prop where
  dirs : s.dirIter = none

theorem keeps_inside {es : List (EnvDir D)} {m : ℤ} {d : List R} {k : ℕ} {s : FileEnv D R} (h : Inside es m d k s) (hm : 0 ≤ m)
    (hd : d ≠ []) : keeps s = decide (k < (presented m d).length) := by
  rw [length_presented m d hd]
  unfold keeps
  rw [h.data, h.max, h.pos]
  by_cases h0 : m = 0
  · simp [h0]
  · have : 0 < m := by omega
    simp [h0, this]

theorem update_inside {es : List (EnvDir D)} {m : ℤ} {d : List R} {k : ℕ} {s : FileEnv D R} (h : Inside es m d k s)
    (hm : 0 ≤ m) (hd : d ≠ []) (hk : k < (presented m d).length) :
    ∃ s', update load protocol s = .ok ((presented m d)[k]?, s') ∧ Inside es m d (k + 1) s' := by
  have hl : d.length ≠ 0 := by simpa using hd
  refine ⟨{ s with step := s.step + 1, localStep := s.localStep + 1 }, ?_, ?_⟩
  · have hu : updateDataBlock load protocol s = .ok s := by
      unfold updateDataBlock
      simp only [h.dirs, keeps_inside h hm hd, hk, decide_true, if_true]
    have hg : getData s = .ok ((presented m d)[k]?) := by
      rw [getElem?_presented m d hd k hk]
      simp only [getData, h.data, h.pos, if_neg hl]
      have : ((k : ℤ) % (d.length : ℤ)).toNat = k % d.length := by omega
      rw [this, List.getElem?_eq_getElem (Nat.mod_lt _ (by omega))]
    simp only [update, hu, ok_bind, hg, pure_eq_ok]
  · exact ⟨h.dirs, h.max, by simp [h.pos], h.data⟩

theorem updates_inside {es : List (EnvDir D)} {m : ℤ} {d : List R} (hm : 0 ≤ m) (hd : d ≠ []) (n k : ℕ) (s : FileEnv D R)
    (h : Inside es m d k s) (hk : k + n = (presented m d).length) :
    ∃ s', updates load protocol n s = .ok (((presented m d).drop k).map some, s') ∧ Ready es s' := by
  induction n generalizing k s with
  | zero =>
    refine ⟨s, ?_, h.dirs, ?_⟩
    · rw [List.drop_eq_nil_of_le (by omega)]
      rfl
    · rw [keeps_inside h hm hd]
      simp
      omega
  | succ n ih =>
    obtain ⟨s1, h1, h2⟩ := update_inside (load := load) (protocol := protocol) h hm hd (by omega)
    obtain ⟨s2, h3, h4⟩ := ih (k + 1) s1 h2 (by omega)
    refine ⟨s2, ?_, h4⟩
    have hlt : k < (presented m d).length := by omega
    simp only [updates, h1, ok_bind, h3, pure_eq_ok]
    rw [List.drop_eq_getElem_cons hlt, List.map_cons, List.getElem?_eq_getElem hlt]

theorem update_ready {e : EnvDir D} {es : List (EnvDir D)} {s : FileEnv D R} (h : Ready (e :: es) s) {rows : List R}
    (hl : load e.dirname (numLines e.steps) = .ok rows) :
    ∃ s', updateDataBlock load protocol s = .ok s' ∧ Inside es e.steps rows 0 s' := by
  refine ⟨{ s with dirIter := some es, currentMax := e.steps, localStep := 0, data := some rows }, ?_, ?_⟩
  · unfold updateDataBlock
    simp only [h.dirs, h.keep, hl, ok_bind, pure_eq_ok]
    rfl
  · exact ⟨rfl, rfl, rfl, rfl⟩

theorem update_of_block {s s' : FileEnv D R} (h : updateDataBlock load protocol s = .ok s')
    (h' : updateDataBlock load protocol s' = .ok s') : update load protocol s = update load protocol s' := by
  simp only [update, h, h', ok_bind]

theorem updates_ready {e : EnvDir D} {es : List (EnvDir D)} {s : FileEnv D R} (h : Ready (e :: es) s) {rows : List R}
    (hl : load e.dirname (numLines e.steps) = .ok rows) (hr : rows ≠ []) (hm : 0 ≤ e.steps) :
    ∃ s', updates load protocol (presented e.steps rows).length s = .ok ((presented e.steps rows).map some, s') ∧
      Ready es s' := by
  obtain ⟨s0, h0, hi⟩ := update_ready (protocol := protocol) h hl
  have hpos : 0 < (presented e.steps rows).length := by
    rw [length_presented _ _ hr]
    have := List.length_pos_of_ne_nil hr
    split_ifs <;> omega
  obtain ⟨s', h1, h2⟩ := updates_inside (load := load) (protocol := protocol) hm hr (presented e.steps rows).length 0 s0 hi (by omega)
  refine ⟨s', ?_, h2⟩
  rw [List.drop_zero] at h1
  rw [← h1]
  have hb : updateDataBlock load protocol s0 = .ok s0 := by
    unfold updateDataBlock
    simp only [hi.dirs, keeps_inside hi hm hr, hpos, decide_true, if_true]
  obtain ⟨n, hn⟩ : ∃ n, (presented e.steps rows).length = n + 1 := ⟨_, (Nat.succ_pred_eq_of_pos hpos).symm⟩
  rw [hn]
  simp only [updates, update_of_block h0 hb]

variable {rows : EnvDir D → List R}

theorem updates_blocks (es : List (EnvDir D)) (s : FileEnv D R) (h : Ready es s)
    (hl : ∀ e ∈ es, load e.dirname (numLines e.steps) = .ok (rows e)) (hr : ∀ e ∈ es, rows e ≠ [])
    (hm : ∀ e ∈ es, 0 ≤ e.steps) :
    ∃ s', updates load protocol (es.flatMap fun e => presented e.steps (rows e)).length s =
      .ok ((es.flatMap fun e => presented e.steps (rows e)).map some, s') ∧ Ready [] s' := by
  induction es generalizing s with
  | nil => exact ⟨s, rfl, h⟩
  | cons e es ih =>
    obtain ⟨s1, h1, h2⟩ := updates_ready (protocol := protocol) h (hl e (by simp)) (hr e (by simp)) (hm e (by simp))
    obtain ⟨s2, h3, h4⟩ := ih s1 h2 (fun x hx => hl x (by simp [hx])) (fun x hx => hr x (by simp [hx]))
      (fun x hx => hm x (by simp [hx]))
    refine ⟨s2, ?_, h4⟩
    rw [List.flatMap_cons, List.length_append, List.map_append]
    exact updates_add _ _ _ _ _ _ _ h1 h3

theorem update_end (s : FileEnv D R) (h : Ready [] s) : ∃ s', update load protocol s = .ok (none, s') ∧ Idle s' := by
  refine ⟨{ reset s with step := -1 + 1, localStep := -1 + 1 }, ?_, ⟨rfl⟩⟩
  have : updateDataBlock load protocol s = .ok (reset s) := by
    unfold updateDataBlock
    simp only [h.dirs, h.keep]
    rfl
  simp only [update, this, ok_bind, getData, reset, pure_eq_ok]

theorem ready_start (s : FileEnv D R) : Ready protocol (start protocol s) := ⟨rfl, rfl⟩

theorem update_idle (s : FileEnv D R) (h : Idle s) :
    update load protocol s = update load protocol (start protocol s) := by
  have : updateDataBlock load protocol s = updateDataBlock load protocol (start protocol s) := by
    unfold updateDataBlock
    rw [h.dirs]
    rfl
  simp only [update, this]

/-- The rows of a whole round and the `None` that ends it. -/
def cycleRound (rows : EnvDir D → List R) (es : List (EnvDir D)) : List (Option R) :=
  (es.flatMap fun e => presented e.steps (rows e)).map some ++ [none]

theorem updates_round (s : FileEnv D R) (h : Idle s)
    (hl : ∀ e ∈ protocol, load e.dirname (numLines e.steps) = .ok (rows e)) (hr : ∀ e ∈ protocol, rows e ≠ [])
    (hm : ∀ e ∈ protocol, 0 ≤ e.steps) :
    ∃ s', updates load protocol (cycleRound rows protocol).length s = .ok (cycleRound rows protocol, s') ∧ Idle s' := by
  obtain ⟨s1, h1, h2⟩ := updates_blocks (load := load) (protocol := protocol) protocol (start protocol s) (ready_start s) hl hr hm
  obtain ⟨s2, h3, h4⟩ := update_end (load := load) (protocol := protocol) s1 h2
  refine ⟨s2, ?_, h4⟩
  have h5 : updates load protocol 1 s1 = .ok ([none], s2) := by simp only [updates, h3, ok_bind, pure_eq_ok]
  have h6 := updates_add _ _ _ _ _ _ _ h1 h5
  rw [cycleRound, List.length_append, List.length_map, List.length_singleton, ← h6]
  simp only [updates, update_idle s h]

theorem updates_rounds (n : ℕ) (s : FileEnv D R) (h : Idle s)
    (hl : ∀ e ∈ protocol, load e.dirname (numLines e.steps) = .ok (rows e)) (hr : ∀ e ∈ protocol, rows e ≠ [])
    (hm : ∀ e ∈ protocol, 0 ≤ e.steps) :
    ∃ s', updates load protocol (n * (cycleRound rows protocol).length) s =
      .ok ((List.replicate n (cycleRound rows protocol)).flatten, s') := by
  induction n generalizing s with
  | zero => exact ⟨s, by simp [updates]⟩
  | succ n ih =>
    obtain ⟨s1, h1, h2⟩ := updates_round s h hl hr hm
    obtain ⟨s2, h3⟩ := ih s1 h2
    refine ⟨s2, ?_⟩
    rw [List.replicate_succ, List.flatten_cons, Nat.succ_mul, Nat.add_comm]
    exact updates_add _ _ _ _ _ _ _ h1 h3

theorem updates_cycle (n : ℕ) (s : FileEnv D R) (h : Idle s)
    (hl : ∀ e ∈ protocol, load e.dirname (numLines e.steps) = .ok (rows e)) (hr : ∀ e ∈ protocol, rows e ≠ [])
    (hm : ∀ e ∈ protocol, 0 ≤ e.steps) :
    ∃ s', updates load protocol n s = .ok (cycle n (cycleRound rows protocol), s') := by
  obtain ⟨s1, h1⟩ := updates_rounds n s h hl hr hm
  refine updates_take _ _ s _ s1 ?_ h1
  calc n = n * 1 := by omega
    _ ≤ _ := Nat.mul_le_mul_left _ (by simp [cycleRound])

/-! ### All the data at once -/

theorem getDataBlock_inside {es : List (EnvDir D)} {m : ℤ} {d : List R} {k : ℕ} {s : FileEnv D R} (h : Inside es m d k s)
    (hm : 0 ≤ m) (hd : d ≠ []) :
    ∃ s', getDataBlock s = .ok (some (presented m d), s') ∧ Ready es s' := by
  have hl : d.length ≠ 0 := by simpa using hd
  have hk : ∀ s' : FileEnv D R, Inside es m d (presented m d).length s' → Ready es s' := fun s' hs => by
    refine ⟨hs.dirs, ?_⟩
    rw [keeps_inside hs hm hd]
    simp
  by_cases h0 : m ≤ 0 ∨ m = d.length
  · refine ⟨{ s with localStep := d.length }, ?_, ?_⟩
    · simp only [getDataBlock, h.data, h.max, if_pos h0]
      rcases h0 with h0 | h0
      · have : m = 0 := by omega
        simp [presented, this]
      · have h1 : m ≠ 0 := by omega
        rw [presented, if_neg h1, ← cycle_eq d hd, h0]
        simp [Nat.div_self (Nat.pos_of_ne_zero hl)]
    · apply hk
      refine ⟨h.dirs, h.max, ?_, h.data⟩
      rw [length_presented m d hd]
      simp only
      split_ifs <;> omega
  · refine ⟨{ s with localStep := m }, ?_, ?_⟩
    · simp only [getDataBlock, h.data, h.max, if_neg h0, if_neg hl]
      have hm0 : m ≠ 0 := by omega
      have e1 : (m / (d.length : ℤ)).toNat = m.toNat / d.length := by
        obtain ⟨k, rfl⟩ := Int.eq_ofNat_of_zero_le hm
        norm_cast
      have e2 : (m % (d.length : ℤ)).toNat = m.toNat % d.length := by
        obtain ⟨k, rfl⟩ := Int.eq_ofNat_of_zero_le hm
        norm_cast
      rw [e1, e2, cycle_eq d hd, presented, if_neg hm0]
    · apply hk
      refine ⟨h.dirs, h.max, ?_, h.data⟩
      rw [length_presented m d hd]
      simp only
      split_ifs <;> omega

theorem chunkLoop_ready (es : List (EnvDir D)) (s : FileEnv D R) (h : Ready es s)
    (hl : ∀ e ∈ es, load e.dirname (numLines e.steps) = .ok (rows e)) (hr : ∀ e ∈ es, rows e ≠ [])
    (hm : ∀ e ∈ es, 0 ≤ e.steps) (fuel : ℕ) (hf : es.length + 2 ≤ fuel) :
    ∃ s', chunkLoop load protocol fuel s =
      .ok (some ((es.map fun e => some (presented e.steps (rows e))) ++ [none], s')) ∧ Idle s' := by
  induction es generalizing s fuel with
  | nil =>
    obtain ⟨fuel, rfl⟩ : ∃ f, fuel = f + 2 := ⟨fuel - 2, by simp at hf; omega⟩
    have : updateDataBlock load protocol s = .ok (reset s) := by
      unfold updateDataBlock
      simp only [h.dirs, h.keep]
      rfl
    refine ⟨reset (reset s), ?_, ⟨rfl⟩⟩
    rw [chunkLoop]
    simp only [h.dirs, this, ok_bind, getDataBlock]
    simp only [reset, chunkLoop, ok_bind, pure_eq_ok]
    rfl
  | cons e es ih =>
    obtain ⟨fuel, rfl⟩ : ∃ f, fuel = f + 1 := ⟨fuel - 1, by omega⟩
    obtain ⟨s0, h0, hi⟩ := update_ready (protocol := protocol) h (hl e (by simp))
    obtain ⟨s1, h1, h2⟩ := getDataBlock_inside hi (hm e (by simp)) (hr e (by simp))
    obtain ⟨s2, h3, h4⟩ := ih s1 h2 (fun x hx => hl x (by simp [hx])) (fun x hx => hr x (by simp [hx]))
      (fun x hx => hm x (by simp [hx])) fuel (by simp at hf; omega)
    refine ⟨s2, ?_, h4⟩
    rw [chunkLoop]
    simp only [h.dirs, h0, ok_bind, h1, h3, pure_eq_ok, Option.map_some, List.map_cons, List.cons_append]

theorem getAllData_eq (s : FileEnv D R) (hne : protocol ≠ [])
    (hl : ∀ e ∈ protocol, load e.dirname (numLines e.steps) = .ok (rows e)) (hr : ∀ e ∈ protocol, rows e ≠ [])
    (hm : ∀ e ∈ protocol, 0 ≤ e.steps) (fuel : ℕ) (hf : protocol.length + 2 ≤ fuel) :
    ∃ s', getAllData load protocol fuel s =
      .ok (some (protocol.flatMap (fun e => presented e.steps (rows e)), s')) ∧ Idle s' := by
  obtain ⟨s', h1, h2⟩ := chunkLoop_ready (load := load) (protocol := protocol) protocol (start protocol s) (ready_start s) hl hr hm fuel hf
  refine ⟨s', ?_, h2⟩
  simp only [getAllData, h1, ok_bind]
  obtain ⟨e, es, rfl⟩ := List.exists_cons_of_ne_nil hne
  have : ∀ l : List (List R), (l.map some ++ [none]).filterMap id = l := by
    intro l
    induction l with
    | nil => rfl
    | cons a l ih => simp
  have hm' : ((e :: es).map fun x => some (presented x.steps (rows x))) =
      ((e :: es).map fun x => presented x.steps (rows x)).map some := by
    rw [List.map_map]; rfl
  rw [hm', concat, this]
  simp only [List.map_cons, ok_bind, pure_eq_ok]
  rw [List.flatMap_def]
  rfl

end FileEnv

end Verif
