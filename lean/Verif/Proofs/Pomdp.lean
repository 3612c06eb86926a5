import Verif.Model.Pomdp
import Verif.Spec.Pomdp
import Mathlib.Algebra.Ring.Parity

/-! The environments of pomdp.py. -/

namespace Verif

namespace Pomdp

theorem Mode.move_p (m : Mode) (a : Bool) : (m.move a).p = m.p := by
  cases m <;> cases a <;> rfl

theorem Mode.foldl_p (m : Mode) (l : List Bool) : (l.foldl Mode.move m).p = m.p := by
  induction l generalizing m with
  | nil => rfl
  | cons a l ih => rw [List.foldl_cons, ih, Mode.move_p]

theorem direction_concat (d : Bool) (l : List Bool) (a : Bool) :
    direction d (l ++ [a]) = if !a then !direction d l else direction d l := by
  unfold direction
  rw [List.count_append]
  cases a with
  | true => simp
  | false =>
    simp only [List.count_singleton_self, Bool.not_false, if_true, Nat.even_add_one]
    by_cases h : Even (l.count false) <;> simp [h]

theorem distance_concat (d : Bool) (x : ℤ) (l : List Bool) (a : Bool) :
    distance d x (l ++ [a]) = distance d x l + if a then (if direction d (l ++ [a]) then 1 else -1) else 0 := by
  unfold distance
  rw [List.length_append, List.length_singleton, List.range_succ, List.map_append, List.sum_append, ← add_assoc]
  have h1 : ((List.range l.length).map fun j =>
      if (l ++ [a])[j]? = some true then (if direction d ((l ++ [a]).take (j + 1)) then (1 : ℤ) else -1) else 0) =
      (List.range l.length).map fun j =>
        if l[j]? = some true then (if direction d (l.take (j + 1)) then (1 : ℤ) else -1) else 0 := by
    apply List.map_congr_left
    intro j hj
    rw [List.mem_range] at hj
    rw [List.getElem?_append_left hj, List.take_append_of_le_length (by omega)]
  rw [h1]
  congr 1
  simp [List.take_of_length_le]

theorem foldl_hallway (p : ℝ) (d : Bool) (l : List Bool) :
    l.foldl Mode.move (.hallway p d) = .hallway p (direction d l) := by
  induction l using List.reverseRecOn with
  | nil => rfl
  | append_singleton l a ih => rw [List.foldl_append, ih, direction_concat]; rfl

theorem foldl_room (p : ℝ) (d : Bool) (x : ℤ) (l : List Bool) :
    l.foldl Mode.move (.room p d x) = .room p (direction d l) (distance d x l) := by
  induction l using List.reverseRecOn with
  | nil => simp [direction, distance]
  | append_singleton l a ih =>
    rw [List.foldl_append, ih, distance_concat, direction_concat]
    cases a <;> simp [Mode.move]

theorem outputs_eq (n : ℕ) (u : ℕ → ℝ) (m : Mode) :
    outputs (2 * n) u .start m = (List.range n).flatMap fun k =>
      [decide (u k < m.p), (((List.range (k + 1)).map fun j => decide (u j < m.p)).foldl Mode.move m).observation] := by
  induction n generalizing u m with
  | zero => rfl
  | succ n ih =>
    rw [show 2 * (n + 1) = 2 * n + 1 + 1 by ring, outputs, List.range_succ_eq_map, List.flatMap_cons, List.flatMap_map]
    simp only [resume, outputs]
    rw [ih, Mode.move_p]
    simp only [List.range_succ_eq_map (n := _ + 1), List.map_cons, List.map_map, List.foldl_cons, Function.comp_def,
      List.cons_append, List.nil_append, List.range_zero, zero_add]
    congr 1

/-! ### The switcher -/

theorem turn_at (q : ℝ) (modes : List ℕ) (s : Sw) (a : SPhase) : { s with at' := a }.turn q modes = s.turn q modes := by
  simp only [Sw.turn, Sw.choose]
  by_cases h : s.u 0 < q
  · rw [if_pos h, if_pos h]
    by_cases h' : modes.length = 0
    · rw [if_pos h', if_pos h']
    · rw [if_neg h', if_neg h']
      cases pyGet modes (s.c 0 % modes.length) <;> rfl
  · rw [if_neg h, if_neg h]
    rfl

section Switch

variable (q : ℝ) (modes : List ℕ) (objs : ℕ → Mode) (u : ℕ → ℝ) (c : ℕ → ℕ)

/-- How many choices have been made in the first `t` turns, apart from the first. -/
noncomputable def before (t : ℕ) : ℕ := (List.range t).countP fun j => u (2 * j) < q

theorem before_succ (t : ℕ) : before q u (t + 1) = before q u t + if u (2 * t) < q then 1 else 0 := by
  unfold before
  rw [List.range_succ, List.countP_append]
  simp [List.countP_cons]

variable (ref : ℕ → ℕ) (act : ℕ → Bool)

/-- The objects after `t` turns. -/
def world (t : ℕ) (r : ℕ) : Mode :=
  (((List.range t).filter fun j => ref j = r).map act).foldl Mode.move (objs r)

theorem world_succ (t r : ℕ) :
    world objs ref act (t + 1) r = if ref t = r then (world objs ref act t r).move (act t) else world objs ref act t r := by
  unfold world
  rw [List.range_succ, List.filter_append, List.map_append, List.foldl_append]
  by_cases h : ref t = r <;> simp [h]

/-- The state after `t` turns. -/
noncomputable def stateAt (t : ℕ) (cur : ℕ) : Sw :=
  ⟨world objs ref act t, cur, .start, .loop, fun i => u (2 * t + i), fun i => c (before q u t + 1 + i)⟩

variable {q modes objs u c ref act}

theorem turn_ok (hne : 0 < modes.length)
    (href : ∀ t, modes[c (before q u (t + 1)) % modes.length]? = some (ref t))
    (hact : ∀ t, act t = decide (u (2 * t + 1) < (objs (ref t)).p)) (t cur : ℕ)
    (hcur : modes[c (before q u t) % modes.length]? = some cur) :
    ∃ s, (stateAt q objs u c ref act t cur).turn q modes = .ok (act t, s) ∧
      s.next q modes = .ok ((world objs ref act (t + 1) (ref t)).observation, stateAt q objs u c ref act (t + 1) (ref t)) := by
  have hr := href t
  rw [before_succ] at hr
  have hp : ∀ r, (world objs ref act t r).p = (objs r).p := fun r => Mode.foldl_p _ _
  have hw : Function.update (Function.update (world objs ref act t) (ref t) (world objs ref act t (ref t))) (ref t)
      ((world objs ref act t (ref t)).move (act t)) = world objs ref act (t + 1) := by
    funext r
    rw [world_succ, Function.update_eq_self]
    by_cases h : r = ref t
    · subst h
      simp
    · rw [Function.update_of_ne h, if_neg (Ne.symm h)]
  have hu : (fun i => u (2 * t + (i + 1 + 1))) = fun i => u (2 * (t + 1) + i) := by
    funext i
    congr 1
    ring
  have ha := hact t
  by_cases h : u (2 * t) < q
  · rw [if_pos h] at hr
    have hg : pyGet modes (c (before q u t + 1 + 0) % modes.length) = .ok (ref t) := by
      rw [add_zero, pyGet, hr]
    have hc : (fun i => c (before q u t + 1 + (i + 1))) = fun i => c (before q u (t + 1) + 1 + i) := by
      funext i
      rw [before_succ, if_pos h]
      congr 1
      ring
    refine ⟨⟨Function.update (world objs ref act t) (ref t) (world objs ref act t (ref t)), ref t, .acted (act t), .between,
      fun i => u (2 * t + (i + 1 + 1)), fun i => c (before q u t + 1 + (i + 1))⟩, ?_, ?_⟩
    · simp only [Sw.turn, stateAt, add_zero, if_pos h, Sw.choose, if_neg hne.ne', ok_bind, pure_eq_ok]
      rw [show c (before q u t + 1) = c (before q u t + 1 + 0) from rfl, hg]
      simp only [ok_bind, Sw.send, resume, hp, ← ha]
    · simp only [Sw.next, Sw.send, resume, pure_eq_ok, Except.ok.injEq, Prod.mk.injEq, stateAt, Sw.mk.injEq]
      simp only [Function.update_self, and_true, true_and, hw, hu, hc]
      rw [world_succ, if_pos rfl]
  · rw [if_neg h] at hr
    have e : cur = ref t := by
      rw [add_zero, hcur, Option.some.injEq] at hr
      exact hr
    have hc : (fun i => c (before q u t + 1 + i)) = fun i => c (before q u (t + 1) + 1 + i) := by
      funext i
      rw [before_succ, if_neg h]
    subst e
    refine ⟨⟨Function.update (world objs ref act t) (ref t) (world objs ref act t (ref t)), ref t, .acted (act t), .between,
      fun i => u (2 * t + (i + 1 + 1)), fun i => c (before q u t + 1 + i)⟩, ?_, ?_⟩
    · simp only [Sw.turn, stateAt, add_zero, if_neg h, ok_bind, pure_eq_ok]
      simp only [Sw.send, resume, hp, ← ha]
    · simp only [Sw.next, Sw.send, resume, pure_eq_ok, Except.ok.injEq, Prod.mk.injEq, stateAt, Sw.mk.injEq]
      simp only [Function.update_self, and_true, true_and, hw, hu, hc]
      rw [world_succ, if_pos rfl]

theorem outputs_from (hne : 0 < modes.length)
    (href : ∀ t, modes[c (before q u (t + 1)) % modes.length]? = some (ref t))
    (hact : ∀ t, act t = decide (u (2 * t + 1) < (objs (ref t)).p)) (n t cur : ℕ)
    (hcur : modes[c (before q u t) % modes.length]? = some cur) :
    (stateAt q objs u c ref act t cur).outputs q modes (2 * n) =
      .ok ((List.range' t n).flatMap fun k => [act k, (world objs ref act (k + 1) (ref k)).observation]) := by
  induction n generalizing t cur with
  | zero => rfl
  | succ n ih =>
    obtain ⟨s, h1, h2⟩ := turn_ok hne href hact t cur hcur
    have h1' : (stateAt q objs u c ref act t cur).next q modes = .ok (act t, s) := h1
    rw [show 2 * (n + 1) = 2 * n + 1 + 1 by ring, Sw.outputs, h1']
    simp only [ok_bind, Sw.outputs, h2, ih (t + 1) (ref t) (href t), pure_eq_ok]
    rfl

end Switch

end Pomdp

end Verif
