import Verif.Proofs.Pomdp

/-!
# C87: the environments of pomdp.py

The values which the generators yield, as a function of the random numbers drawn.
-/

namespace Verif

open Pomdp

/-- The action of a mode in turn `k`, which draws one random number in a turn. -/
noncomputable def C87_act (p : ℝ) (u : ℕ → ℝ) (k : ℕ) : Bool := decide (u k < p)

/-- A hallway yields by turns an action and an observation.  The observation is the direction, which changes exactly with the
rotations, that is the actions `False`; a hallway has no state besides. -/
theorem C87_hallway (p : ℝ) (u : ℕ → ℝ) (n : ℕ) :
    outputs (2 * n) u .start (.newHallway p) =
      (List.range n).flatMap fun k => [C87_act p u k, direction true ((List.range (k + 1)).map (C87_act p u))] := by
  rw [outputs_eq]
  congr 1
  funext k
  rw [Mode.newHallway, foldl_hallway]
  rfl

/-- A room yields by turns an action and an observation.  The observation is whether one is at distance 0 and looks back. -/
theorem C87_room (p : ℝ) (u : ℕ → ℝ) (n : ℕ) :
    outputs (2 * n) u .start (.newRoom p) =
      (List.range n).flatMap fun k => [C87_act p u k,
        decide (distance true 0 ((List.range (k + 1)).map (C87_act p u)) = 0 ∧
          direction true ((List.range (k + 1)).map (C87_act p u)) = false)] := by
  rw [outputs_eq]
  congr 1
  funext k
  rw [Mode.newRoom, foldl_room]
  simp only [Mode.observation, Mode.p, Bool.decide_and]
  rfl

/-- A wall does not stop: after observation `True`, which is said of one in front of the wall, a step forward goes through it, to
distance -1, and the next observation is `False`. -/
theorem C87_room_wall (p : ℝ) (d : Bool) (x : ℤ) (acts : List Bool)
    (h : (acts.foldl Mode.move (.room p d x)).observation = true) :
    distance d x (acts ++ [true]) = -1 ∧ ((acts ++ [true]).foldl Mode.move (.room p d x)).observation = false := by
  rw [foldl_room] at h
  simp only [Mode.observation, Bool.and_eq_true, decide_eq_true_eq, beq_iff_eq] at h
  have h1 : direction d (acts ++ [true]) = false := by rw [direction_concat]; simpa using h.2
  have h2 : distance d x (acts ++ [true]) = -1 := by rw [distance_concat, h.1, h1]; rfl
  refine ⟨h2, ?_⟩
  rw [foldl_room, h2]
  rfl

/-- The index in `modes` which a `Switcher` uses in turn `t`: the one chosen last. -/
noncomputable def C87_index (q : ℝ) (u : ℕ → ℝ) (c : ℕ → ℕ) (len t : ℕ) : ℕ := c (switches q u t) % len

/-- A `Switcher` draws two numbers in a turn.  The first decides whether a mode is chosen anew, the second is for the action.
It yields the action of the mode chosen last, and the observation which that object makes after all the actions of its own turns
so far: a mode goes on where it was left, and is not changed by the turns of others. -/
theorem C87_switcher (q : ℝ) (modes : List ℕ) (objs : ℕ → Mode) (u : ℕ → ℝ) (c : ℕ → ℕ) (ref : ℕ → ℕ) (act : ℕ → Bool)
    (hne : modes ≠ [])
    (href : ∀ t, modes[C87_index q u c modes.length t]? = some (ref t))
    (hact : ∀ t, act t = decide (u (2 * t + 1) < (objs (ref t)).p)) (n : ℕ) :
    (Sw.new objs u c).outputs q modes (2 * n) = .ok ((List.range n).flatMap fun t =>
      [act t, ((((List.range (t + 1)).filter fun j => ref j = ref t).map act).foldl Mode.move (objs (ref t))).observation]) := by
  have hlen : 0 < modes.length := List.length_pos_of_ne_nil hne
  cases n with
  | zero => rfl
  | succ n =>
    obtain ⟨cur, hcur⟩ : ∃ cur, modes[c 0 % modes.length]? = some cur :=
      ⟨_, List.getElem?_eq_getElem (Nat.mod_lt _ hlen)⟩
    have h0 := outputs_from (q := q) (objs := objs) hlen href hact (n + 1) 0 cur (by simpa [before] using hcur)
    have hst : (Sw.new objs u c).next q modes = (stateAt q objs u c ref act 0 cur).next q modes := by
      have hc : (fun i => c (before q u 0 + 1 + i)) = fun i => c (i + 1) := by
        funext i
        simp [before, Nat.add_comm]
      have hu : (fun i => u (2 * 0 + i)) = u := by
        funext i
        simp
      have hw : world objs ref act 0 = objs := rfl
      simp only [Sw.next, Sw.new, Sw.choose, if_neg hlen.ne', stateAt, hc, hu, hw]
      rw [pyGet, hcur]
      exact turn_at q modes ⟨objs, cur, .start, .loop, u, fun i => c (i + 1)⟩ .start
    rw [show 2 * (n + 1) = 2 * n + 1 + 1 by ring, Sw.outputs, hst, List.range_eq_range']
    rw [show 2 * (n + 1) = 2 * n + 1 + 1 by ring, Sw.outputs] at h0
    rw [h0]
    rfl

/-- There always are such modes and actions. -/
theorem C87_switcher_total (q : ℝ) (modes : List ℕ) (objs : ℕ → Mode) (u : ℕ → ℝ) (c : ℕ → ℕ) (hne : modes ≠ []) :
    ∃ (ref : ℕ → ℕ) (act : ℕ → Bool), (∀ t, modes[C87_index q u c modes.length t]? = some (ref t)) ∧
      (∀ t, act t = decide (u (2 * t + 1) < (objs (ref t)).p)) ∧
      ∀ n, ∃ l, (Sw.new objs u c).outputs q modes (2 * n) = .ok l ∧ l.length = 2 * n := by
  have hlen : 0 < modes.length := List.length_pos_of_ne_nil hne
  have h : ∀ t, ∃ r, modes[C87_index q u c modes.length t]? = some r :=
    fun t => ⟨_, List.getElem?_eq_getElem (Nat.mod_lt _ hlen)⟩
  choose ref href using h
  refine ⟨ref, fun t => decide (u (2 * t + 1) < (objs (ref t)).p), href, fun t => rfl, fun n => ?_⟩
  rw [C87_switcher q modes objs u c ref _ hne href (fun t => rfl) n]
  refine ⟨_, rfl, ?_⟩
  rw [List.length_flatMap]
  simp [Nat.mul_comm]

/-- Without modes the first `next` raises. -/
theorem C87_switcher_empty (q : ℝ) (objs : ℕ → Mode) (u : ℕ → ℝ) (c : ℕ → ℕ) (n : ℕ) :
    (Sw.new objs u c).outputs q [] (n + 1) = .error .indexError := rfl

/-- With switching probability at most 0 and numbers from [0, 1) the mode never changes; with two modes, those of others are
never seen. -/
theorem C87_never_switch (q : ℝ) (modes : List ℕ) (objs : ℕ → Mode) (u : ℕ → ℝ) (c : ℕ → ℕ) (r : ℕ)
    (hr : modes[c 0 % modes.length]? = some r) (hq : q ≤ 0) (hu : ∀ i, 0 ≤ u i) (n : ℕ) :
    (Sw.new objs u c).outputs q modes (2 * n) = .ok (outputs (2 * n) (fun i => u (2 * i + 1)) .start (objs r)) := by
  have h0 : ∀ t, switches q u t = 0 := by
    intro t
    unfold switches
    rw [List.countP_eq_zero]
    intro j _
    have := hu (2 * j)
    simp only [decide_eq_true_eq, not_lt]
    linarith
  have hne : modes ≠ [] := by
    rintro rfl
    simp at hr
  rw [C87_switcher q modes objs u c (fun _ => r) _ hne (fun t => by rw [C87_index, h0]; exact hr) (fun t => rfl), outputs_eq]
  congr 2
  funext t
  simp

/-- Two rooms by turns, with `q` 1, each with its own state. -/
example : (Sw.new (fun _ => .newRoom (1 / 2)) (fun i => if i < 4 then 3 / 4 else 1 / 4) id).outputs 1 [0, 1] 8 =
    .ok [false, true, false, true, true, false, true, false] := by
  have e : ∀ t, switches 1 (fun i => if i < 4 then (3 / 4 : ℝ) else 1 / 4) t = t + 1 := by
    intro t
    unfold switches
    rw [List.countP_eq_length.mpr, List.length_range]
    intro j _
    simp only [decide_eq_true_eq]
    split_ifs <;> norm_num
  rw [show 8 = 2 * 4 from rfl, C87_switcher 1 [0, 1] _ _ _ (fun t => (t + 1) % 2) (fun t => decide (2 ≤ t)) (by simp)]
  · decide
  · intro t
    rw [C87_index, e]
    have : (t + 1) % 2 = 0 ∨ (t + 1) % 2 = 1 := by omega
    rcases this with h | h <;> simp [h]
  · intro t
    simp only [Mode.newRoom, Mode.p]
    by_cases h : 2 ≤ t
    · rw [if_neg (by omega)]
      norm_num [h]
    · rw [if_pos (by omega)]
      norm_num [h]

/-- Turn round, and one faces the wall; a step, and one has gone through it. -/
example : (([false] : List Bool).foldl Mode.move (.newRoom (1 / 2))).observation = true ∧
    ([false, true].foldl Mode.move (.newRoom (1 / 2))).observation = false := ⟨rfl, rfl⟩

end Verif
