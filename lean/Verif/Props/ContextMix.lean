import Verif.Proofs.ContextMix
import Verif.Props.ContextCode

/-!
# C163: what context trees over contexts of different lengths learn

For context functions of which no context is the end of another (C162), the mixture in closed form and the loss against every pruning.
-/

namespace Verif

open Predictor ContextCode

section

variable {σ κ α : Type} [DecidableEq κ] (P : Predictor σ α) (fresh : σ) (ctx : List α → List κ)

/-- **C163 (closed form).** If no context is the end of another, `CTW` gives a sequence the probability of the mixture: at the end of a context
that of its base model, on the way to one half of it plus half the product over the next context symbols. -/
theorem C163_closed_form (hs : SuffixFree ctx) (d : ℕ) (xs : List (Obs α)) (hc : ∀ o ∈ xs, (ctx o.hist).length ≤ d)
    (r : ℝ) (n : CTWNode σ κ) (hr : (CTW.predictor P fresh ctx).run (CTW.init fresh) xs = .ok (r, n)) :
    Real.exp r = codeProb (P.seqProb fresh) (fun l => ∃ h, l = (ctx h).reverse) d (withCtx ctx xs) := by
  obtain ⟨h1, h2⟩ := (CTWNode.RepC.new d (codes ctx)).run (prefixFree hs) (fun o ho => ⟨⟨_, rfl⟩, hc o ho⟩) hr
  have : r = n.lp := by
    rw [h2]
    simp [CTWNode.new]
  rw [this, h1.exp_lp]
  rfl

/-- **C163 (loss).** It loses against every pruning that splits only on the way to contexts at most one bit for each of its splits and one for
each of its leaves that is not the end of a context. -/
theorem C163_regret [Fintype κ] (hs : SuffixFree ctx) (d : ℕ) (xs : List (Obs α)) (hc : ∀ o ∈ xs, (ctx o.hist).length ≤ d)
    (r : ℝ) (n : CTWNode σ κ) (hr : (CTW.predictor P fresh ctx).run (CTW.init fresh) xs = .ok (r, n))
    (t : Pruning κ d) (ht : t.Fits fun l => ∃ h, l = (ctx h).reverse) :
    (1/2 : ℝ) ^ (t.codeCost fun l => ∃ h, l = (ctx h).reverse) * t.prob (P.seqProb fresh) (withCtx ctx xs) ≤ Real.exp r := by
  rw [C163_closed_form P fresh ctx hs d xs hc r n hr]
  apply codeProb_ge _ (P.seqProb_nonneg fresh) t _ ht
  simp [seqProb, Predictor.run, probOf]

end

namespace ContextMix

/-- The last bit if it is 1, otherwise the last two. -/
def lastOne (h : List Bool) : List Bool := if h.getLastD false then [true] else [(h.dropLast).getLastD false, false]

theorem lastOne_suffixFree : SuffixFree lastOne := by
  intro h h' hsuf
  simp only [lastOne] at hsuf ⊢
  cases e1 : h'.getLastD false <;> cases e2 : h.getLastD false <;> simp only [e1, e2, if_true, Bool.false_eq_true, if_false] at hsuf ⊢
  · exact hsuf.eq_of_length (by simp)
  · exact absurd hsuf.length_le (by simp)
  · obtain ⟨u, hu⟩ := hsuf
    have := congrArg List.getLast? hu
    simp at this

/-- The pruning with one leaf for each of its contexts. -/
def full : Pruning Bool 2 := .split (d := 1) fun c => if c then .leaf else .split (d := 0) fun _ => .leaf

/-- It fits, and costs two bits: one for each split. -/
example : full.Fits (fun l => ∃ h, l = (lastOne h).reverse) ∧ full.codeCost (fun l => ∃ h, l = (lastOne h).reverse) = 2 := by
  refine ⟨⟨?_, ?_⟩, ?_⟩
  · rintro ⟨h, e⟩
    have := congrArg List.length e
    simp only [lastOne] at this
    split at this <;> simp at this
  · intro c
    cases c
    · refine ⟨?_, fun _ => trivial⟩
      rintro ⟨h, e⟩
      simp only [lastOne] at e
      split at e <;> simp at e
    · trivial
  · have : ∃ h, [true] = (lastOne h).reverse := ⟨[true], by simp [lastOne]⟩
    simp [full, Pruning.codeCost, this]

end ContextMix

end Verif
