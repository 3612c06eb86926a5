import Verif.Spec.PTW

/-!
# The posterior over the segment of the last item

All binary temporal partitions of a block are listed with their prior weights `2 ^ (-cost)`; the weight of a start time
is the total of prior times likelihood over the partitions whose last segment with items starts there.
-/

namespace Verif

namespace TPart

variable {β : Type}

/-- All partitions of a block with `k` levels. -/
def all : (k : ℕ) → List (TPart k)
  | 0 => [whole]
  | k + 1 => whole :: (all k).flatMap fun l => (all k).map fun r => split l r

/-- Prior times likelihood of a partition. -/
noncomputable def weight (p : ℕ → List β → ℝ) (m t : ℕ) (xs : List β) {k : ℕ} (T : TPart k) : ℝ :=
  (1/2 : ℝ) ^ T.cost * ((T.segments m t xs).map fun g => p g.1 g.2).prod

/-- The start of the last segment that has items. -/
def lastStart (m t : ℕ) (xs : List β) {k : ℕ} (T : TPart k) : Option ℕ :=
  (((T.segments m t xs).filter fun g => !g.2.isEmpty).getLast?).map Prod.fst

end TPart

/-- The posterior weight of the start time `s` (not divided by the total): all partitions of the block whose last
segment with items starts at `s`. -/
noncomputable def startWeight {β : Type} (p : ℕ → List β → ℝ) (m k t : ℕ) (xs : List β) (s : ℕ) : ℝ :=
  ((TPart.all k).map fun T => if T.lastStart m t xs = some s then T.weight p m t xs else 0).sum

end Verif
