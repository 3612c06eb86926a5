import Verif.Props.Actions

/-!
# C175: how deep a context tree has to be for the environments of pomdp.py
-/

namespace Verif

open Predictor (probOf)

open Pomdp

namespace Deep

/-- `k` steps forward at which nothing is seen. -/
def quiet (k : ℕ) : List Bool := (List.replicate k [true, false]).flatten

theorem quiet_succ (k : ℕ) : quiet (k + 1) = true :: false :: quiet k := by simp [quiet, List.replicate_succ]

theorem quiet_add (k l : ℕ) : quiet (k + l) = quiet k ++ quiet l := by
  simp [quiet, ← List.replicate_append_replicate]

theorem length_quiet (k : ℕ) : (quiet k).length = 2 * k := by
  induction k with
  | zero => rfl
  | succ k ih => rw [quiet_succ]; simp [ih]; ring

theorem away {p : ℝ} (k r : ℕ) : ∀ (u : ℕ → ℝ) (x : ℤ), (∀ i < k, u i < p) →
    outputs (2 * k + r) u .start (.room p true x) = quiet k ++ outputs r (fun i => u (i + k)) .start (.room p true (x + k)) := by
  induction k with
  | zero => intro u x _; simp [quiet]
  | succ k ih =>
    intro u x hu
    rw [show 2 * (k + 1) + r = 2 * k + r + 1 + 1 by ring, outputs, quiet_succ]
    simp only [resume, outputs, Mode.p, Mode.move, Mode.observation, hu 0 (by omega), decide_true, Bool.not_true, Bool.false_eq_true,
      if_false, if_true]
    rw [ih (fun i => u (i + 1)) (x + 1) fun i hi => hu (i + 1) (by omega)]
    simp [add_assoc, add_comm, add_left_comm]

theorem back {p : ℝ} (k r : ℕ) : ∀ (u : ℕ → ℝ) (x : ℤ), (k : ℤ) < x → (∀ i < k, u i < p) →
    outputs (2 * k + r) u .start (.room p false x) = quiet k ++ outputs r (fun i => u (i + k)) .start (.room p false (x - k)) := by
  induction k with
  | zero => intro u x _ _; simp [quiet]
  | succ k ih =>
    intro u x hx hu
    push_cast at hx
    rw [show 2 * (k + 1) + r = 2 * k + r + 1 + 1 by ring, outputs, quiet_succ]
    simp only [resume, outputs, Mode.p, Mode.move, Mode.observation, hu 0 (by omega), decide_true, Bool.not_true, Bool.false_eq_true,
      if_false]
    rw [ih (fun i => u (i + 1)) (x + -1) (by omega) fun i hi => hu (i + 1) (by omega)]
    have h1 : x + -1 ≠ 0 := by omega
    have h2 : x + -1 - (k : ℤ) = x - ((k : ℤ) + 1) := by ring
    simp [h1, h2, add_assoc, add_comm, add_left_comm]

theorem turn {p : ℝ} (r : ℕ) (u : ℕ → ℝ) (x : ℤ) (hx : 0 < x) (hu : ¬ u 0 < p) :
    outputs (r + 2) u .start (.room p true x) = [false, false] ++ outputs r (fun i => u (i + 1)) .start (.room p false x) := by
  have h1 : x ≠ 0 := by omega
  simp [outputs, resume, Mode.p, Mode.move, Mode.observation, hu, h1]

theorem arrive {p : ℝ} (u : ℕ → ℝ) (hu : u 0 < p) : outputs 2 u .start (.room p false 1) = [true, true] := by
  simp [outputs, resume, Mode.p, Mode.move, Mode.observation, hu]

/-- What is observed after a walk to the end and back. -/
theorem walk {p : ℝ} (u : ℕ → ℝ) (k : ℕ) (h1 : ∀ i, i ≠ k + 1 → u i < p) (h2 : ¬ u (k + 1) < p) :
    outputs (2 * (2 * k + 3)) u .start (.newRoom p) = (quiet (k + 1) ++ [false, false] ++ quiet k ++ [true]) ++ [true] := by
  rw [show 2 * (2 * k + 3) = 2 * (k + 1) + (2 * k + 2 + 2) by ring, Mode.newRoom, away (k + 1) _ u 0 fun i hi => h1 i (by omega),
    turn _ _ _ (by omega) (by simpa using h2), back k 2 _ _ (by omega) (fun i hi => h1 _ (by omega))]
  rw [show (0 : ℤ) + ((k + 1 : ℕ) : ℤ) - (k : ℤ) = 1 by push_cast; ring, arrive (fun i => u (i + k + 1 + (k + 1))) (h1 _ (by omega))]
  simp

/-- What is observed on a walk without end. -/
theorem straight {p : ℝ} (u : ℕ → ℝ) (k : ℕ) (h1 : ∀ i, u i < p) :
    outputs (2 * (2 * k + 3)) u .start (.newRoom p) = (quiet (k + 1) ++ [true, false] ++ quiet k ++ [true]) ++ [false] := by
  have := away (p := p) (2 * k + 3) 0 u 0 fun i _ => h1 i
  rw [add_zero, outputs, List.append_nil] at this
  rw [Mode.newRoom, this, show 2 * k + 3 = (k + 1) + (1 + (k + 1)) by ring, quiet_add (k + 1), quiet_add 1, quiet_add k 1]
  simp [quiet]

theorem context_eq_of_suffix {d : ℕ} (hd : d ≠ 0) (l l' c : List Bool) (hl : d ≤ c.length) :
    CTW.mkcontext d false (l ++ c) = CTW.mkcontext d false (l' ++ c) := by
  have key : ∀ l : List Bool, CTW.mkcontext d false (l ++ c) = c.drop (c.length - d) := by
    intro l
    rw [mkcontext_eq_recent hd, recent, List.length_append, ← List.append_assoc,
      show l.length + c.length = (List.replicate d false ++ l).length + (c.length - d) by simp; omega, List.drop_append]
    simp
  rw [key, key]

theorem sum_one {d : ℕ} (hd : 1 ≤ d) (xs : List (Obs Bool)) (hw : ∀ o ∈ xs, 0 ≤ o.weight) (h h' : List Bool)
    (hc : CTW.mkcontext d false h = CTW.mkcontext d false h') :
    ∃ r t, (KNode.predictor d).run KNode.new xs = .ok (r, t) ∧
      probOf ((KNode.predictor d).update t true h 1) + probOf ((KNode.predictor d).update t false h' 1) = 1 := by
  obtain ⟨r, t, h1, h2⟩ := (Actions.knode_lawful hd).run_ok (Actions.kgood_new d) (xs := xs)
    fun o ho => ⟨by cases o.sym <;> simp, hw o ho⟩
  refine ⟨r, t, h1, ?_⟩
  have e : (KNode.predictor d).update t false h' 1 = (KNode.predictor d).update t false h 1 := by
    change KNode.update _ _ (CTW.mkcontext d false h').reverse _ = KNode.update _ _ (CTW.mkcontext d false h).reverse _
    rw [hc]
  have := (Actions.knode_lawful hd).sum_probOf h2 (zero_le_one) h
  rw [e]
  simpa [add_comm] using this

end Deep

open Deep

/-- **C175 (a room needs unbounded memory).** For every `d` and every probability of going forward strictly between zero and one there are
two courses of a `Room`, both possible, in which the last `d` symbols before an observation are the same, actions and observations, and
the observation is different: someone who walks `k` steps away and comes back has to count to `k`. -/
theorem C175_room (p : ℝ) (h0 : 0 < p) (h1 : p < 1) (d : ℕ) :
    ∃ (n : ℕ) (u u' : ℕ → ℝ) (l l' c : List Bool), (∀ i, 0 ≤ u i ∧ u i < 1) ∧ (∀ i, 0 ≤ u' i ∧ u' i < 1) ∧ d ≤ c.length ∧
      outputs (2 * n) u .start (.newRoom p) = l ++ c ++ [true] ∧ outputs (2 * n) u' .start (.newRoom p) = l' ++ c ++ [false] := by
  refine ⟨2 * d + 3, fun i => if i = d + 1 then p else 0, fun _ => 0, quiet (d + 1) ++ [false, false], quiet (d + 1) ++ [true, false],
    quiet d ++ [true], ?_, ?_, ?_, ?_, ?_⟩
  · intro i
    dsimp only
    split_ifs <;> constructor <;> linarith
  · intro i
    constructor <;> norm_num
  · simp [length_quiet]
    omega
  · rw [walk _ d (fun i hi => by simp [hi, h0]) (by simp)]
    simp
  · rw [straight _ d fun i => h0]
    simp

/-- **C175 (no depth is enough for a room).** Hence a `CTW_KT` of any depth, whatever it has been trained with, predicts the same in the two
courses; the probabilities that it gives to what is really observed sum to one, so that it gives at most 1/2 to one of them. -/
theorem C175_room_CTW (p : ℝ) (h0 : 0 < p) (h1 : p < 1) (d : ℕ) (hd : 1 ≤ d) :
    ∃ (n : ℕ) (u u' : ℕ → ℝ) (h h' : List Bool), (∀ i, 0 ≤ u i ∧ u i < 1) ∧ (∀ i, 0 ≤ u' i ∧ u' i < 1) ∧
      outputs (2 * n) u .start (.newRoom p) = h ++ [true] ∧ outputs (2 * n) u' .start (.newRoom p) = h' ++ [false] ∧
      ∀ xs : List (Obs Bool), (∀ o ∈ xs, 0 ≤ o.weight) → ∃ r t, (KNode.predictor d).run KNode.new xs = .ok (r, t) ∧
        probOf ((KNode.predictor d).update t true h 1) + probOf ((KNode.predictor d).update t false h' 1) = 1 := by
  obtain ⟨n, u, u', l, l', c, hu, hu', hc, e1, e2⟩ := C175_room p h0 h1 d
  exact ⟨n, u, u', l ++ c, l' ++ c, hu, hu', e1, e2, fun xs hx =>
    sum_one hd xs hx _ _ (context_eq_of_suffix (by omega) l l' c hc)⟩

/-- **C175 (depth one is not enough for a hallway).** The last symbol alone, the action, does not tell the observation of a `Hallway`.  With
the two last symbols it does (C173). -/
theorem C175_hallway (p : ℝ) (h0 : 0 < p) (h1 : p < 1) :
    ∃ (n : ℕ) (u u' : ℕ → ℝ) (h h' : List Bool), (∀ i, 0 ≤ u i ∧ u i < 1) ∧ (∀ i, 0 ≤ u' i ∧ u' i < 1) ∧
      outputs (2 * n) u .start (.newHallway p) = h ++ [true] ∧ outputs (2 * n) u' .start (.newHallway p) = h' ++ [false] ∧
      ∀ xs : List (Obs Bool), (∀ o ∈ xs, 0 ≤ o.weight) → ∃ r t, (KNode.predictor 1).run KNode.new xs = .ok (r, t) ∧
        probOf ((KNode.predictor 1).update t true h 1) + probOf ((KNode.predictor 1).update t false h' 1) = 1 := by
  refine ⟨2, fun _ => 0, fun i => if i = 0 then p else 0, [true, true] ++ [true], [false, false] ++ [true], ?_, ?_, ?_, ?_, ?_⟩
  · intro i
    constructor <;> norm_num
  · intro i
    dsimp only
    split_ifs <;> constructor <;> linarith
  · simp [outputs, resume, Mode.newHallway, Mode.p, Mode.move, Mode.observation, h0]
  · simp [outputs, resume, Mode.newHallway, Mode.p, Mode.move, Mode.observation, h0]
  · exact fun xs hx => sum_one le_rfl xs hx _ _ (context_eq_of_suffix (by omega) _ _ _ (by simp))

/-- The hypotheses of the theorems, for the default probability of going forward. -/
example : (0 : ℝ) < 0.95 ∧ (0.95 : ℝ) < 1 := by norm_num

end Verif
