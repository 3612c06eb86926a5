import Verif.Py

/-!
# `CoinFlip` (environments.py:150-343)

Simplifications.
* `numpy.random` is its stream of uniform numbers: `random.seed(s)` replaces the stream by `stream s`, and
  `random.random()` takes its first element.
* Floats are exact reals; changepoints are integers.
* `parse_prob` is modelled for a single number and a probability that is set.  The branch for sequences is not modelled, and
  comparing with the probability `None` is the outcome `TypeError`.
-/

namespace Verif

/-- What a `CoinFlip` is made with (environments.py:194-240). -/
structure CoinSpec where
  probabilities : List ℝ
  changepoints : Option (List ℤ)
  seed : ℕ

/-- The changing attributes of a `CoinFlip` (environments.py:267-272), with the rest of the context generator. -/
structure Coin where
  timestep : ℤ
  numChanges : ℤ
  nextChange : ℤ
  context : Option (List (ℕ × ℤ))
  prob : Option ℝ

namespace Coin

/-- `parse_prob` for a single number (environments.py:158-170). -/
noncomputable def parseProb (u : ℝ) (prob : ℝ) : ℕ := if u ≥ prob then 1 else 0

/-- The items of `_iter_changes` (environments.py:178-186). -/
def iterChanges (c : CoinSpec) : List (ℕ × ℤ) :=
  match c.changepoints with
  | none => [(0, -1)]
  | some l => l.zipIdx.map (fun p => (p.2, p.1)) ++ [(l.length, -1)]

/-- `reset` (environments.py:267-272). -/
def reset : Coin := ⟨-1, -1, 0, none, none⟩

/-- `update_probability` (environments.py:300-324). -/
def updateProbability (c : CoinSpec) (s : Coin) : Py Coin :=
  let s1 := if s.timestep < 0 then { s with context := some (iterChanges c), nextChange := -1 } else s
  if s1.timestep = s1.nextChange then
    match s1.context with
    | none => .error .attributeError
    | some [] => .error .stopIteration
    | some ((n, nc) :: rest) =>
      if c.probabilities.length = 0 then .error .zeroDivisionError
      else match c.probabilities[n % c.probabilities.length]? with
        | none => .error .indexError
        | some p => .ok { s1 with numChanges := n, nextChange := nc, context := some rest, prob := some p }
  else .ok s1

/-- `__enter__` (environments.py:242-265): also seeds the generator. -/
def enter (stream : ℕ → ℕ → ℝ) (c : CoinSpec) : Py (Coin × (ℕ → ℝ)) := do
  let s ← updateProbability c reset
  pure (s, stream c.seed)

/-- `__exit__` (environments.py:274-276). -/
def exit (s : Coin) : Coin := { s with context := none, prob := none }

/-- `__call__` (environments.py:278-298). -/
noncomputable def call (stream : ℕ → ℕ → ℝ) (c : CoinSpec) (s : Coin) (rng : ℕ → ℝ) : Py (ℕ × Coin × (ℕ → ℝ)) := do
  let (s, rng) ← (if s.timestep < 0 then enter stream c else pure (s, rng))
  let s ← updateProbability c { s with timestep := s.timestep + 1 }
  match s.prob with
  | none => .error .typeError
  | some p => pure (parseProb (rng 0) p, s, fun i => rng (i + 1))

/-- `n` calls. -/
noncomputable def calls (stream : ℕ → ℕ → ℝ) (c : CoinSpec) : ℕ → Coin → (ℕ → ℝ) → Py (List ℕ × Coin × (ℕ → ℝ))
  | 0, s, rng => pure ([], s, rng)
  | n + 1, s, rng => do
    let (x, s1, rng1) ← call stream c s rng
    let (xs, s2, rng2) ← calls stream c n s1 rng1
    pure (x :: xs, s2, rng2)

/-- `get_data(n)` (environments.py:327-343); the state before does not matter because `__enter__` resets it. -/
noncomputable def getData (stream : ℕ → ℕ → ℝ) (c : CoinSpec) (_ : Coin) (_ : ℕ → ℝ) (n : ℕ) :
    Py (List ℕ × Coin × (ℕ → ℝ)) := do
  let (s, rng) ← enter stream c
  let (xs, s', rng') ← calls stream c n s rng
  pure (xs, exit s', rng')

/-- `list(coin)`, by `__iter__` (environments.py:188-190): one flip. -/
noncomputable def iterAll (stream : ℕ → ℕ → ℝ) (c : CoinSpec) (_ : Coin) (_ : ℕ → ℝ) : Py (List ℕ × Coin × (ℕ → ℝ)) := do
  let (s, rng) ← enter stream c
  let (x, s', rng') ← call stream c s rng
  pure ([x], exit s', rng')

end Coin

end Verif
