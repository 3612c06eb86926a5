import Verif.Spec.Predictor

/-!
# Partition tree weighting, by its recursive definition

`p t xs` is the probability that the base model of a block starting at time `t` assigns to the items `xs` of that
block.
-/

namespace Verif

/-- The partition-tree mixture with `k` levels above the minimum block length `2 ^ m`, on the items `xs` of a block
starting at time `t`: with no levels left the base probability, otherwise half the base probability plus half the
product of the mixtures of the two half blocks. -/
noncomputable def ptwProb {β : Type} (p : ℕ → List β → ℝ) (m : ℕ) : ℕ → ℕ → List β → ℝ
  | 0, t, xs => p t xs
  | k + 1, t, xs => 1/2 * p t xs + 1/2 *
      (ptwProb p m k t (xs.take (2 ^ (m + k))) * ptwProb p m k (t + 2 ^ (m + k)) (xs.drop (2 ^ (m + k))))

/-- The levels of the smallest tree over minimum blocks of `2 ^ m` that covers `n` items. -/
def levelsFor (m n : ℕ) : ℕ := Nat.find (p := fun k => n ≤ 2 ^ (m + k))
  ⟨n, (Nat.lt_two_pow_self).le.trans (Nat.pow_le_pow_right (by norm_num) (by omega))⟩

/-- A binary temporal partition of a block with `k` levels: keep the block whole, or split it in the middle. -/
inductive TPart : ℕ → Type
  | whole {k : ℕ} : TPart k
  | split {k : ℕ} : TPart k → TPart k → TPart (k + 1)

namespace TPart

variable {β : Type}

/-- The segments of a list of items starting at time `t` under a partition: start times with the items. -/
def segments (m : ℕ) : {k : ℕ} → TPart k → ℕ → List β → List (ℕ × List β)
  | _, whole, t, xs => [(t, xs)]
  | _, split (k := k) l r, t, xs => segments m l t (xs.take (2 ^ (m + k))) ++
      segments m r (t + 2 ^ (m + k)) (xs.drop (2 ^ (m + k)))

/-- The description length of the partition in bits: one per block above the minimum length. -/
def cost : {k : ℕ} → TPart k → ℕ
  | 0, whole => 0
  | _ + 1, whole => 1
  | _ + 1, split l r => 1 + l.cost + r.cost

/-- Number of segments. -/
def size : {k : ℕ} → TPart k → ℕ
  | _, whole => 1
  | _, split l r => l.size + r.size

end TPart

end Verif
