import Verif.Spec.CTWHeap

/-! How many models exist. -/

namespace Verif

/-- The operation adds a model. -/
def HOp.adds {α : Type} {k : ℕ} : HOp α k → Bool
  | .new _ => true
  | .copy _ => true
  | _ => false

namespace Trees

variable {σ α : Type} {k : ℕ}

/-- The number of models that exist. -/
def live (vs : Trees σ α k) : ℕ := vs.countP (fun o => o.isSome)

/-- At no point of the program do `M` models exist. -/
def Fewer (M : ℕ) (P : Predictor σ α) (fresh : σ) (ops : List (HOp α k)) : Prop :=
  ∀ ops1 vs, ops1 <+: ops → (Trees.run P fresh [] ops1).2 = .ok vs → live vs < M

end Trees

end Verif
