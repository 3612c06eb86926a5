import Verif.Proofs.CoinFlip
import Mathlib.MeasureTheory.Measure.Lebesgue.Basic

/-!
# C57: the coin flip environment
-/

namespace Verif

open Coin

/-- **C57 (every flip).** Whatever was done with the object before, `get_data(n)` returns for each step `t < n` the flip
of the `t`-th uniform number of the seeded stream against the probability in force at `t`, going through the list of
probabilities cyclically and moving on at each changepoint reached. -/
theorem C57_getData (stream : ℕ → ℕ → ℝ) (c : CoinSpec) (h : c.probabilities ≠ []) (s : Coin) (rng : ℕ → ℝ) (n : ℕ) :
    ∃ s' rng', getData stream c s rng n =
      .ok ((List.range n).map (fun t => flipAt c.probabilities (c.changepoints.getD []) t (stream c.seed t)), s', rng') :=
  getData_eq stream h s rng n

/-- **C57 (calls).** Calling a new object `n` times gives the same flips as `get_data(n)`. -/
theorem C57_calls (stream : ℕ → ℕ → ℝ) (c : CoinSpec) (h : c.probabilities ≠ []) (rng : ℕ → ℝ) (n : ℕ) :
    ∃ s' rng', calls stream c n reset rng =
      .ok ((List.range n).map (fun t => flipAt c.probabilities (c.changepoints.getD []) t (stream c.seed t)), s', rng') := by
  cases n with
  | zero => exact ⟨reset, rng, rfl⟩
  | succ n =>
    obtain ⟨s', rng', h1, -⟩ := calls_first stream h n reset (by decide) rng
    exact ⟨s', rng', by rw [h1, flips_eq]⟩

/-- **C57 (reproducible).** Two requests for data agree where both have data, from any two states. -/
theorem C57_prefix (stream : ℕ → ℕ → ℝ) (c : CoinSpec) (s₁ s₂ : Coin) (rng₁ rng₂ : ℕ → ℝ) (n m : ℕ) (hnm : n ≤ m)
    (x y : List ℕ) (r₁ r₂ : Coin × (ℕ → ℝ)) (hx : getData stream c s₁ rng₁ n = .ok (x, r₁))
    (hy : getData stream c s₂ rng₂ m = .ok (y, r₂)) : x = y.take n := by
  have h : c.probabilities ≠ [] := by
    intro h
    have : enter stream c = .error .zeroDivisionError := by
      simp only [enter, updateProbability, reset, iterChanges_eq]
      cases c.changepoints.getD [] with
      | nil => simp [items_nil, h]
      | cons a b => simp [items_cons, h]
    simp [getData, this] at hx
  obtain ⟨a, b, h1⟩ := getData_eq stream h s₁ rng₁ n
  obtain ⟨a', b', h2⟩ := getData_eq stream h s₂ rng₂ m
  rw [h1] at hx
  rw [h2] at hy
  simp only [Except.ok.injEq, Prod.mk.injEq] at hx hy
  rw [← hx.1, ← hy.1, ← List.map_take, List.take_range, min_eq_left hnm]

/-- **C57 (ordered changepoints).** If the changepoints are increasing and not negative, the probability at step `t` is
the one whose index is the number of changepoints up to `t`. -/
theorem C57_ordered (ps : List ℝ) (cps : List ℤ) (hs : cps.Pairwise (· < ·)) (h0 : ∀ c ∈ cps, 0 ≤ c) (t : ℕ) (u : ℝ) :
    flipAt ps cps t u =
      if u ≥ ps.getD (cps.countP (fun c => decide (c ≤ (t : ℤ))) % ps.length) 0 then 1 else 0 := by
  rw [flipAt, switches_sorted]
  rw [List.pairwise_cons]
  exact ⟨fun c hc => by have := h0 c hc; omega, hs⟩

/-- The changepoints of the docstring are ordered. -/
example : [(16 : ℤ), 32, 64].Pairwise (· < ·) ∧ ∀ c ∈ [(16 : ℤ), 32, 64], 0 ≤ c := by decide

/-- **C57 (unordered changepoints).** A changepoint that is not later than the one before it stops all later changes,
for every list that follows. -/
theorem C57_stuck (ps : List ℝ) (l₁ : List ℤ) (c d : ℤ) (l₂ : List ℤ) (hd : d ≤ c) (t : ℕ) (u : ℝ) :
    flipAt ps (l₁ ++ c :: d :: l₂) t u = flipAt ps (l₁ ++ [c]) t u := by
  have key : ∀ (l : List ℤ) (p : ℤ), switches p (l ++ c :: d :: l₂) t = switches p (l ++ [c]) t := by
    intro l
    induction l with
    | nil =>
      intro p
      have : ¬ (c < d ∧ d ≤ (t : ℤ)) := by omega
      simp [switches, this]
    | cons a l ih => intro p; simp [switches, ih]
  rw [flipAt, flipAt, key]

/-- With changepoints 2, 2, 5 the coin stays with the second probability for ever. -/
example : flipAt [1/4, 3/4, 0] [2, 2, 5] 100 (1/2) = 0 := by
  rw [flipAt, show switches (-1) [2, 2, 5] (100 : ℕ) = 1 by decide]
  norm_num

/-- **C57 (which probability).** For a uniform number in the unit interval the flip is one with probability `1 - p`, `p`
being the probability in force: the parameter is the probability of zero, not "of 1" as the class documentation says. -/
theorem C57_probability_of_one (ps : List ℝ) (cps : List ℤ) (t : ℕ) (hp : ∀ p ∈ ps, 0 ≤ p ∧ p ≤ 1) :
    MeasureTheory.volume {u : ℝ | u ∈ Set.Ico 0 1 ∧ flipAt ps cps t u = 1} =
      ENNReal.ofReal (1 - ps.getD (switches (-1) cps t % ps.length) 0) := by
  set p := ps.getD (switches (-1) cps t % ps.length) 0 with hpd
  have h01 : 0 ≤ p ∧ p ≤ 1 := by
    rw [hpd, List.getD_eq_getElem?_getD]
    cases h : ps[switches (-1) cps t % ps.length]? with
    | none => simp
    | some q => exact hp q (List.mem_of_getElem? h)
  have : {u : ℝ | u ∈ Set.Ico 0 1 ∧ flipAt ps cps t u = 1} = Set.Ico p 1 := by
    ext u
    simp only [Set.mem_setOf_eq, Set.mem_Ico, flipAt, ← hpd]
    constructor
    · rintro ⟨h1, h2⟩
      by_cases h : u ≥ p
      · exact ⟨h, h1.2⟩
      · rw [if_neg h] at h2; omega
    · rintro ⟨h1, h2⟩
      exact ⟨⟨h01.1.trans h1, h2⟩, if_pos h1⟩
  rw [this, Real.volume_Ico]

/-- The hypothesis holds for the docstring's probabilities. -/
example : ∀ p ∈ [(0.2 : ℝ), 0.8], 0 ≤ p ∧ p ≤ 1 := by
  intro p hp
  simp only [List.mem_cons, List.not_mem_nil, or_false] at hp
  rcases hp with rfl | rfl <;> norm_num

/-- **C57 (iteration).** Iterating over a coin gives a single flip. -/
theorem C57_iteration (stream : ℕ → ℕ → ℝ) (c : CoinSpec) (h : c.probabilities ≠ []) (s : Coin) (rng : ℕ → ℝ) :
    ∃ s' rng', iterAll stream c s rng =
      .ok ([flipAt c.probabilities (c.changepoints.getD []) 0 (stream c.seed 0)], s', rng') := by
  obtain ⟨j', l', hu, hsw, hj⟩ := step_st h (-1) (by omega) 0 (c.changepoints.getD [])
  have hcall := call_st stream (st c.probabilities (-1) 0 (c.changepoints.getD [])) (stream c.seed) (-1) 0
    (c.changepoints.getD []) (stream c.seed)
    (by rw [st_timestep, if_pos (by omega)]; exact enter_eq stream h) hu
  refine ⟨exit (st c.probabilities (-1 + 1) j' l'), fun i => stream c.seed (i + 1), ?_⟩
  simp only [iterAll, enter_eq stream h, ok_bind, hcall, pure_eq_ok]
  have : j' = switches (-1) (c.changepoints.getD []) ((0 : ℕ) : ℤ) := by simpa using hj
  rw [this]
  rfl

/-- **C57 (no probabilities).** With an empty list of probabilities every request fails. -/
theorem C57_empty (stream : ℕ → ℕ → ℝ) (c : CoinSpec) (h : c.probabilities = []) (s : Coin) (rng : ℕ → ℝ) (n : ℕ) :
    getData stream c s rng n = .error .zeroDivisionError := by
  have : enter stream c = .error .zeroDivisionError := by
    simp only [enter, updateProbability, reset, iterChanges_eq]
    cases c.changepoints.getD [] with
    | nil => simp [items_nil, h]
    | cons a b => simp [items_cons, h]
  simp [getData, this]

end Verif
