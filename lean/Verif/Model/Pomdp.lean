import Verif.Py

/-!
# Environments of pomdp.py

Simplifications.
* `random.random()` takes the next element of a stream `u`, `random.choice(modes)` an element given by the next number of a stream `c`.
* Objects are numbered; `modes` is a list of such numbers, so that an object can occur more than once.  Modes are objects of the
  two classes of this file.
* A suspended generator is what is left to do: the line where it goes on, and its local variables.
-/

namespace Verif

namespace Pomdp

/-- The attributes of a `Hallway` (pomdp.py:4-6) or a `Room` (pomdp.py:18-21). -/
inductive Mode
  | hallway (p : ℝ) (dir : Bool)
  | room (p : ℝ) (dir : Bool) (dist : ℤ)

/-- `Hallway(p)` (pomdp.py:4-6). -/
def Mode.newHallway (p : ℝ) : Mode := .hallway p true

/-- `Room(p)` (pomdp.py:18-21). -/
def Mode.newRoom (p : ℝ) : Mode := .room p true 0

/-- `self.p_forward`. -/
def Mode.p : Mode → ℝ
  | .hallway p _ => p
  | .room p _ _ => p

/-- What the generators do between their two `yield`s (pomdp.py:12-13, 27-30). -/
def Mode.move : Mode → Bool → Mode
  | .hallway p dir, a => .hallway p (if !a then !dir else dir)
  | .room p dir dist, a => if !a then .room p (!dir) dist else .room p dir (dist + (if dir then 1 else -1))

/-- What the second `yield` yields (pomdp.py:14, 31). -/
def Mode.observation : Mode → Bool
  | .hallway _ dir => dir
  | .room _ dir dist => decide (dist = 0) && (dir == false)

/-- Where a generator of a mode is suspended: before the loop or at its end, or after the first `yield` (pomdp.py:8-14, 23-31). -/
inductive Phase | start | acted (action : Bool)

/-- `m.send(None)` (pomdp.py:8-14, 23-31). -/
noncomputable def resume (u : ℕ → ℝ) : Phase → Mode → Bool × Phase × Mode × (ℕ → ℝ)
  | .start, m =>
    let action := decide (u 0 < m.p)
    (action, .acted action, m, fun i => u (i + 1))
  | .acted action, m => ((m.move action).observation, .start, m.move action, u)

/-- The next `n` results of a generator of a mode. -/
noncomputable def outputs : ℕ → (ℕ → ℝ) → Phase → Mode → List Bool
  | 0, _, _, _ => []
  | n + 1, u, ph, m =>
    let (b, ph', m', u') := resume u ph m
    b :: outputs n u' ph' m'

/-- Where a `Switcher` is suspended: at its start, at the start or the end of its loop, or between its `yield`s (pomdp.py:34-40). -/
inductive SPhase | start | loop | between
  deriving DecidableEq

/-- A `Switcher`: the objects, the object and the phase of the generator `m`, where it is suspended, and the random numbers. -/
structure Sw where
  objs : ℕ → Mode
  cur : ℕ
  ph : Phase
  at' : SPhase
  u : ℕ → ℝ
  c : ℕ → ℕ

/-- `m = iter(random.choice(modes))` (pomdp.py:35, 38): a new generator of an old object. -/
def Sw.choose (modes : List ℕ) (s : Sw) : Py Sw :=
  if modes.length = 0 then .error .indexError
  else do
    let r ← pyGet modes (s.c 0 % modes.length)
    pure { s with cur := r, ph := .start, c := fun i => s.c (i + 1) }

/-- `yield m.send(None)` (pomdp.py:39, 40). -/
noncomputable def Sw.send (s : Sw) (at' : SPhase) : Bool × Sw :=
  let (b, ph', m', u') := resume s.u s.ph (s.objs s.cur)
  (b, { s with objs := Function.update s.objs s.cur m', ph := ph', at' := at', u := u' })

/-- The start of the loop (pomdp.py:37-39). -/
noncomputable def Sw.turn (q : ℝ) (modes : List ℕ) (s : Sw) : Py (Bool × Sw) := do
  let x := s.u 0
  let s := { s with u := fun i => s.u (i + 1) }
  let s ← if x < q then s.choose modes else pure s
  pure (s.send .between)

/-- `next` (pomdp.py:34-40). -/
noncomputable def Sw.next (q : ℝ) (modes : List ℕ) (s : Sw) : Py (Bool × Sw) :=
  match s.at' with
  | .start => do
    let s ← s.choose modes
    s.turn q modes
  | .loop => s.turn q modes
  | .between => pure (s.send .loop)

/-- The next `n` results. -/
noncomputable def Sw.outputs (q : ℝ) (modes : List ℕ) : ℕ → Sw → Py (List Bool)
  | 0, _ => pure []
  | n + 1, s => do
    let (b, s) ← s.next q modes
    let l ← Sw.outputs q modes n s
    pure (b :: l)

/-- `Switcher(q, *modes)`, not yet started (pomdp.py:34). -/
def Sw.new (objs : ℕ → Mode) (u : ℕ → ℝ) (c : ℕ → ℕ) : Sw := ⟨objs, 0, .start, .start, u, c⟩

end Pomdp

end Verif
