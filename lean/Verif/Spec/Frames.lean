import Verif.Model.Frames

/-! How many nested calls a call makes. -/

namespace Verif

namespace Frames

variable {σ α β : Type}

/-- `f k` is a call when `k` further calls are allowed, and `r` is its result without a limit.  The call makes at least `lo` and at most `hi` nested calls:
with room for `hi` the limit is not noticed; with room for fewer than `lo` a call that would succeed raises `RecursionError`; and in any case nothing else
can happen than one of the two. -/
structure Between (lo hi : ℕ) (f : ℕ → Calls β) (r : Py β) : Prop where
  enough : ∀ k, hi ≤ k → f k = Calls.lift r
  short : ∀ k, k < lo → ∀ b, r = .ok b → f k = .error .recursion
  either : ∀ k, f k = Calls.lift r ∨ f k = .error .recursion

/-- The call makes exactly `n` nested calls. -/
abbrev Needs (n : ℕ) (f : ℕ → Calls β) (r : Py β) : Prop := Between n n f r

/-- Every update of a model makes between `lo` and `hi` nested calls. -/
def UpdateNeeds (F : Framed σ α) (P : Predictor σ α) (lo hi : ℕ) : Prop :=
  ∀ s a h w, Between lo hi (fun k => F.update k s a h w) (P.update s a h w)

/-- The same for `log_predict`. -/
def PredictNeeds (F : Framed σ α) (P : Predictor σ α) (lo hi : ℕ) : Prop :=
  ∀ s a h, Between lo hi (fun k => F.logPredict k s a h) (P.logPredict s a h)

/-- The same for `copy`. -/
def CopyNeeds (F : Framed σ α) (P : Predictor σ α) (lo hi : ℕ) : Prop :=
  ∀ s, Between lo hi (fun k => F.copy k s) (P.copy s)

/-- The nodes for a context are there. -/
def Present {κ : Type} : List κ → CTWNode σ κ → Prop
  | [], _ => True
  | c :: cs, n => ∃ m, n.children c = some m ∧ Present cs m

end Frames

end Verif
