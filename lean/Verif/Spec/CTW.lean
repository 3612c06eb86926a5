import Verif.Spec.Predictor
import Mathlib.Algebra.BigOperators.Group.Finset.Basic

/-!
# Context tree weighting, by its recursive definition

An observation is paired with its context, most recent context symbol first.
-/

namespace Verif

section

variable {κ β : Type} [DecidableEq κ]

/-- The items whose context starts with `c`, with that symbol removed. -/
def subCtx (c : κ) (S : List (List κ × β)) : List (List κ × β) :=
  S.filterMap fun p => match p.1 with
    | [] => none
    | d :: ds => if d = c then some (ds, p.2) else none

/-- The first context symbols that occur. -/
def heads (S : List (List κ × β)) : Finset κ := (S.filterMap fun p => p.1.head?).toFinset

/-- The context-tree mixture of depth `d` over base probabilities `base`: at depth 0 the base probability,
otherwise half the base probability plus half the product of the mixtures of the sub-sequences by next
context symbol. -/
noncomputable def ctwProb (base : List β → ℝ) : ℕ → List (List κ × β) → ℝ
  | 0, S => base (S.map Prod.snd)
  | d + 1, S => 1/2 * base (S.map Prod.snd) + 1/2 * ∏ c ∈ heads S, ctwProb base d (subCtx c S)

end

/-- A pruning of the complete context tree of depth `d`: stop here, or split by the next context symbol. -/
inductive Pruning (κ : Type) : ℕ → Type
  | leaf {d : ℕ} : Pruning κ d
  | split {d : ℕ} : (κ → Pruning κ d) → Pruning κ (d + 1)

namespace Pruning

variable {κ β : Type} [Fintype κ] [DecidableEq κ]

/-- The probability of the tree source with these leaves: every leaf has its own base model. -/
noncomputable def prob (base : List β → ℝ) : {d : ℕ} → Pruning κ d → List (List κ × β) → ℝ
  | _, leaf, S => base (S.map Prod.snd)
  | _, split f, S => ∏ c : κ, (f c).prob base (subCtx c S)

/-- The description length of the pruning in bits: one per node above the maximal depth. -/
def cost : {d : ℕ} → Pruning κ d → ℕ
  | 0, leaf => 0
  | _ + 1, leaf => 1
  | _ + 1, split f => 1 + ∑ c : κ, (f c).cost

end Pruning

end Verif
