import Verif.Model.CoinFlip
import Verif.Spec.CoinFlip

/-! Lemmas about `CoinFlip`. -/

namespace Verif

namespace Coin

/-- The items of the context generator from the `j`-th on. -/
def items (j : ℕ) (l : List ℤ) : List (ℕ × ℤ) := (l.zipIdx j).map (fun p => (p.2, p.1)) ++ [(j + l.length, -1)]

theorem items_nil (j : ℕ) : items j [] = [(j, -1)] := by simp [items]

theorem items_cons (j : ℕ) (c : ℤ) (cs : List ℤ) : items j (c :: cs) = (j, c) :: items (j + 1) cs := by
  simp [items, List.zipIdx_cons]
  omega

theorem iterChanges_eq (c : CoinSpec) : iterChanges c = items 0 (c.changepoints.getD []) := by
  unfold iterChanges items
  cases c.changepoints <;> simp

/-- The state after `j` changes, at time `t`, with changepoints `l` to come. -/
noncomputable def st (ps : List ℝ) (t : ℤ) (j : ℕ) : List ℤ → Coin
  | [] => ⟨t, j, -1, some [], some (ps.getD (j % ps.length) 0)⟩
  | c :: cs => ⟨t, j, c, some (items (j + 1) cs), some (ps.getD (j % ps.length) 0)⟩

theorem st_timestep (ps : List ℝ) (t : ℤ) (j : ℕ) (l : List ℤ) : (st ps t j l).timestep = t := by cases l <;> rfl

theorem st_prob (ps : List ℝ) (t : ℤ) (j : ℕ) (l : List ℤ) :
    (st ps t j l).prob = some (ps.getD (j % ps.length) 0) := by cases l <;> rfl

variable {c : CoinSpec}

theorem getElem?_mod {ps : List ℝ} (h : ps ≠ []) (j : ℕ) :
    ps[j % ps.length]? = some (ps.getD (j % ps.length) 0) := by
  have hlt : j % ps.length < ps.length := Nat.mod_lt _ (List.length_pos_of_ne_nil h)
  rw [List.getD_eq_getElem?_getD, List.getElem?_eq_getElem hlt, Option.getD_some]

theorem enter_eq (stream : ℕ → ℕ → ℝ) (h : c.probabilities ≠ []) :
    enter stream c = .ok (st c.probabilities (-1) 0 (c.changepoints.getD []), stream c.seed) := by
  have hl : c.probabilities.length ≠ 0 := by simpa using h
  have h1 : (-1 : ℤ) < 0 := by omega
  simp only [enter, updateProbability, reset, iterChanges_eq, h1, if_true]
  cases hc : c.changepoints.getD [] with
  | nil => simp only [items_nil, if_neg hl, getElem?_mod h, ok_bind, pure_eq_ok, st]
  | cons x xs => simp only [items_cons, if_neg hl, getElem?_mod h, ok_bind, pure_eq_ok, st]

theorem update_st (h : c.probabilities ≠ []) (t : ℤ) (ht : -1 ≤ t) (j : ℕ) (l : List ℤ) :
    updateProbability c { st c.probabilities t j l with timestep := t + 1 } =
      .ok (match l with
        | [] => st c.probabilities (t + 1) j []
        | x :: xs => if t + 1 = x then st c.probabilities (t + 1) (j + 1) xs else st c.probabilities (t + 1) j (x :: xs)) := by
  have hl : c.probabilities.length ≠ 0 := by simpa using h
  have ht' : ¬ t + 1 < 0 := by omega
  cases l with
  | nil =>
    simp only [updateProbability, st, ht', if_false]
    rw [if_neg (by omega)]
  | cons x xs =>
    simp only [updateProbability, st, ht', if_false]
    by_cases hx : t + 1 = x
    · rw [if_pos hx, if_pos hx]
      cases xs with
      | nil => simp only [items_nil, if_neg hl, getElem?_mod h, st]
      | cons y ys => simp only [items_cons, if_neg hl, getElem?_mod h, st]
    · rw [if_neg hx, if_neg hx]

theorem switches_step (t u : ℤ) (x : ℤ) (xs : List ℤ) (hu : t + 1 ≤ u) :
    switches t (x :: xs) u = if t + 1 = x then 1 + switches (t + 1) xs u else switches (t + 1) (x :: xs) u := by
  by_cases hx : t + 1 = x
  · subst hx
    rw [if_pos rfl, switches, if_pos (by omega)]
  · rw [if_neg hx, switches, switches]
    by_cases h1 : t < x ∧ x ≤ u
    · rw [if_pos h1, if_pos (by omega)]
    · rw [if_neg h1, if_neg (by omega)]

/-- The flips from a state on. -/
noncomputable def flips (ps : List ℝ) (t : ℤ) (j : ℕ) (l : List ℤ) (rng : ℕ → ℝ) (n : ℕ) : List ℕ :=
  (List.range n).map fun i : ℕ => parseProb (rng i) (ps.getD ((j + switches t l (t + 1 + i)) % ps.length) 0)

/-- One step of the count. -/
theorem switches_next (t : ℤ) (j : ℕ) (l : List ℤ) (ps : List ℝ) : ∃ j' l', (match l with
    | [] => st ps (t + 1) j []
    | x :: xs => if t + 1 = x then st ps (t + 1) (j + 1) xs else st ps (t + 1) j (x :: xs)) =
      st ps (t + 1) j' l' ∧ ∀ u, t + 1 ≤ u → j + switches t l u = j' + switches (t + 1) l' u := by
  cases l with
  | nil => exact ⟨j, [], rfl, fun u _ => rfl⟩
  | cons x xs =>
    by_cases hx : t + 1 = x
    · refine ⟨j + 1, xs, by simp only [if_pos hx], fun u hu => ?_⟩
      rw [switches_step t u x xs hu, if_pos hx]
      omega
    · refine ⟨j, x :: xs, by simp only [if_neg hx], fun u hu => ?_⟩
      rw [switches_step t u x xs hu, if_neg hx]

theorem switches_self (t : ℤ) (l : List ℤ) : switches t l t = 0 := by
  cases l with
  | nil => rfl
  | cons y ys => rw [switches, if_neg (by omega)]

/-- A flip from a state that is entered. -/
theorem step_st (h : c.probabilities ≠ []) (t : ℤ) (ht : -1 ≤ t) (j : ℕ) (l : List ℤ) :
    ∃ j' l', updateProbability c { st c.probabilities t j l with timestep := (st c.probabilities t j l).timestep + 1 } =
        .ok (st c.probabilities (t + 1) j' l') ∧
      (∀ u, t + 1 ≤ u → j + switches t l u = j' + switches (t + 1) l' u) ∧ j' = j + switches t l (t + 1) := by
  obtain ⟨j', l', hst, hsw⟩ := switches_next t j l c.probabilities
  refine ⟨j', l', ?_, hsw, ?_⟩
  · have hu := update_st h t ht j l
    rw [hst] at hu
    rw [st_timestep]
    exact hu
  · have := hsw (t + 1) le_rfl
    rw [switches_self] at this
    omega

theorem flips_succ (ps : List ℝ) (t : ℤ) (j j' : ℕ) (l l' : List ℤ) (rng : ℕ → ℝ) (n : ℕ)
    (hsw : ∀ u, t + 1 ≤ u → j + switches t l u = j' + switches (t + 1) l' u) :
    flips ps t j l rng (n + 1) =
      parseProb (rng 0) (ps.getD (j' % ps.length) 0) :: flips ps (t + 1) j' l' (fun i => rng (i + 1)) n := by
  unfold flips
  rw [List.range_succ_eq_map, List.map_cons, List.map_map]
  congr 1
  · rw [hsw _ (by omega)]
    simp only [Nat.cast_zero, add_zero, switches_self]
  · apply List.map_congr_left
    intro i _
    simp only [Function.comp]
    rw [hsw _ (by omega)]
    have : t + 1 + ((i.succ : ℕ) : ℤ) = t + 1 + 1 + (i : ℤ) := by push_cast; omega
    rw [this]

theorem call_st (stream : ℕ → ℕ → ℝ) (s : Coin) (rng : ℕ → ℝ) (t : ℤ) (j : ℕ) (l : List ℤ)
    (rng0 : ℕ → ℝ) (he : (if s.timestep < 0 then enter stream c else pure (s, rng)) = .ok (st c.probabilities t j l, rng0))
    {j' : ℕ} {l' : List ℤ}
    (hu : updateProbability c { st c.probabilities t j l with timestep := (st c.probabilities t j l).timestep + 1 } =
        .ok (st c.probabilities (t + 1) j' l')) :
    call stream c s rng = .ok (parseProb (rng0 0) (c.probabilities.getD (j' % c.probabilities.length) 0),
      st c.probabilities (t + 1) j' l', fun i => rng0 (i + 1)) := by
  unfold call
  rw [he]
  simp only [ok_bind]
  have hu' := hu
  simp only at hu'
  rw [hu']
  simp only [ok_bind, st_prob, pure_eq_ok]

theorem calls_st (stream : ℕ → ℕ → ℝ) (h : c.probabilities ≠ []) (n : ℕ) (t : ℤ) (ht : 0 ≤ t) (j : ℕ) (l : List ℤ)
    (rng : ℕ → ℝ) :
    ∃ s' rng', calls stream c n (st c.probabilities t j l) rng = .ok (flips c.probabilities t j l rng n, s', rng') ∧
      s'.timestep = t + n := by
  induction n generalizing t j l rng with
  | zero => exact ⟨_, _, rfl, by simp [st_timestep]⟩
  | succ n ih =>
    obtain ⟨j', l', hu, hsw, -⟩ := step_st h t (by omega) j l
    have hcall := call_st stream (st c.probabilities t j l) rng t j l rng
      (by rw [st_timestep, if_neg (by omega)]; rfl) hu
    obtain ⟨s', rng', h1, h2⟩ := ih (t + 1) (by omega) j' l' (fun i => rng (i + 1))
    refine ⟨s', rng', ?_, by rw [h2]; push_cast; ring⟩
    rw [flips_succ _ _ _ _ _ _ _ _ hsw]
    simp only [calls, hcall, ok_bind, h1, pure_eq_ok]

/-- From the entered state, and from any state before the first flip. -/
theorem calls_first (stream : ℕ → ℕ → ℝ) (h : c.probabilities ≠ []) (n : ℕ) (s : Coin) (hs : s.timestep < 0) (rng : ℕ → ℝ) :
    ∃ s' rng', calls stream c (n + 1) s rng =
      .ok (flips c.probabilities (-1) 0 (c.changepoints.getD []) (stream c.seed) (n + 1), s', rng') ∧ s'.timestep = n := by
  obtain ⟨j', l', hu, hsw, -⟩ := step_st h (-1) (by omega) 0 (c.changepoints.getD [])
  have hcall := call_st stream s rng (-1) 0 (c.changepoints.getD []) (stream c.seed)
    (by rw [if_pos hs]; exact enter_eq stream h) hu
  obtain ⟨s', rng', h1, h2⟩ := calls_st stream h n (-1 + 1) (by omega) j' l' (fun i => stream c.seed (i + 1))
  refine ⟨s', rng', ?_, by rw [h2]; push_cast; ring⟩
  rw [flips_succ _ _ _ _ _ _ _ _ hsw]
  simp only [calls, hcall, ok_bind, h1, pure_eq_ok]

theorem flips_eq (c : CoinSpec) (u : ℕ → ℝ) (n : ℕ) :
    flips c.probabilities (-1) 0 (c.changepoints.getD []) u n =
      (List.range n).map fun t => flipAt c.probabilities (c.changepoints.getD []) t (u t) := by
  unfold flips
  apply List.map_congr_left
  intro i _
  have : (-1 : ℤ) + 1 + (i : ℤ) = i := by omega
  rw [this, Nat.zero_add]
  rfl

theorem getData_eq (stream : ℕ → ℕ → ℝ) (h : c.probabilities ≠ []) (s : Coin) (rng : ℕ → ℝ) (n : ℕ) :
    ∃ s' rng', getData stream c s rng n =
      .ok ((List.range n).map (fun t => flipAt c.probabilities (c.changepoints.getD []) t (stream c.seed t)), s', rng') := by
  rw [← flips_eq]
  cases n with
  | zero =>
    refine ⟨exit (st c.probabilities (-1) 0 (c.changepoints.getD [])), stream c.seed, ?_⟩
    simp only [getData, enter_eq stream h, ok_bind, calls, pure_eq_ok]
    rfl
  | succ n =>
    obtain ⟨s', rng', h1, -⟩ := calls_first stream h n (st c.probabilities (-1) 0 (c.changepoints.getD []))
      (by rw [st_timestep]; omega) (stream c.seed)
    exact ⟨exit s', rng', by simp only [getData, enter_eq stream h, ok_bind, h1, pure_eq_ok]⟩

/-- With changepoints in increasing order every one that is passed counts. -/
theorem switches_sorted (prev t : ℤ) (l : List ℤ) (hl : (prev :: l).Pairwise (· < ·)) :
    switches prev l t = l.countP (fun c => decide (c ≤ t)) := by
  induction l generalizing prev with
  | nil => rfl
  | cons c cs ih =>
    have hc := List.rel_of_pairwise_cons hl (List.mem_cons_self)
    have hcs := (List.pairwise_cons.mp hl).2
    rw [switches, List.countP_cons]
    by_cases h : c ≤ t
    · rw [if_pos ⟨hc, h⟩, ih c hcs]
      simp [h]
      omega
    · rw [if_neg (by omega)]
      symm
      simp only [h, decide_false, Bool.false_eq_true, if_false, Nat.add_zero]
      rw [List.countP_eq_zero]
      intro x hx
      have := List.rel_of_pairwise_cons hcs hx
      simp only [decide_eq_true_eq]
      omega

end Coin

end Verif
