import Verif.Model.Helpers
import Verif.Py

/-!
# Model stores: `model.LogStore`, `model.LogStoreUniform` (model.py:692-793) and `learners.LogStore`
(learners.py:59-101)

`ctw.LogStore` (ctw.py:334-373) has the same text as `model.LogStore`.
-/

namespace Verif

/-- The parallel lists `_items` and `_save` of `model.LogStore` (model.py:710-712), as one list of pairs. -/
abbrev LogStore (β : Type) := List (β × Bool)

namespace LogStore

variable {β : Type}

/-- `LogStore.add` (model.py:727-742).  The loop replaces items front to back, carrying the displaced one, until it
meets an item whose flag is not set; the case of an empty store is the append after the loop. -/
def add : LogStore β → β → LogStore β
  | [], x => [(x, true)]
  | (y, true) :: rest, x => (x, false) :: add rest y
  | (_, false) :: rest, x => (x, true) :: rest

/-- Iteration (model.py:717-719). -/
def items (s : LogStore β) : List β := s.map Prod.fst

end LogStore

/-- `learners.LogStore`: `_items` and `t` (learners.py:64-66). -/
structure LearnersLogStore (β : Type) where
  items : List β
  t : ℕ

namespace LearnersLogStore

variable {β : Type}

def init : LearnersLogStore β := ⟨[], 0⟩

/-- `add` (learners.py:97-101): `pop` of a missing index raises `IndexError`, which is suppressed. -/
def add (s : LearnersLogStore β) (x : β) : LearnersLogStore β := ⟨x :: s.items.eraseIdx (mscb s.t), s.t + 1⟩

end LearnersLogStore

/-- `LogStoreUniform` (model.py:762-766). -/
structure LogStoreUniform (β : Type) where
  items : List β
  gap : ℕ
  indexToRemove : ℤ
  numToSkip : ℕ

namespace LogStoreUniform

variable {β : Type}

/-- `__init__` (model.py:762-766). -/
def init : LogStoreUniform β := ⟨[], 1, -1, 0⟩

/-- `add` (model.py:778-779), that is `lazy_add` of a constant (model.py:781-793). -/
def add (s : LogStoreUniform β) (x : β) : LogStoreUniform β :=
  if s.numToSkip ≠ 0 then { s with numToSkip := s.numToSkip - 1 }
  else
    let items := s.items ++ [x]
    let items := if 0 < s.indexToRemove then items.eraseIdx s.indexToRemove.toNat else items
    let idx := s.indexToRemove + 1
    if (items.length : ℤ) ≤ idx then ⟨items, s.gap * 2, 0, s.gap * 2 - 1⟩
    else ⟨items, s.gap, idx, s.gap - 1⟩

/-- Iteration, newest first (model.py:771-773). -/
def list (s : LogStoreUniform β) : List β := s.items.reverse

/-- Python list indexing with a possibly negative index. -/
def pyIndex (l : List β) (i : ℤ) : Py β :=
  if 0 ≤ i then pyGet l i.toNat
  else if 0 ≤ i + l.length then pyGet l (i + l.length).toNat
  else .error .indexError

/-- `__getitem__` (model.py:775-776). -/
def getItem (s : LogStoreUniform β) (i : ℤ) : Py β := pyIndex s.items (s.items.length - i - 1)

end LogStoreUniform

end Verif
