import Verif.Model.Threads

/-!
# Two threads

All ways in which the steps of two programs can alternate, and what it means that no node is used by both.
-/

namespace Verif.Threads

variable {S β γ : Type}

/-- `Interleaving p q s r₁ r₂ s'`: with the steps of `p` and `q` alternating in some way, starting in `s`, the first ends with `r₁`, the
second with `r₂`, and the state is then `s'`. -/
inductive Interleaving : Prog S β → Prog S γ → S → HM β → HM γ → S → Prop
  | done (r₁ : HM β) (r₂ : HM γ) (s : S) : Interleaving (.done r₁) (.done r₂) s r₁ r₂ s
  | left (f : S → S) (k : S → Prog S β) (q : Prog S γ) (s : S) (r₁ : HM β) (r₂ : HM γ) (s' : S) :
      Interleaving (k s) q (f s) r₁ r₂ s' → Interleaving (.act f k) q s r₁ r₂ s'
  | right (p : Prog S β) (f : S → S) (k : S → Prog S γ) (s : S) (r₁ : HM β) (r₂ : HM γ) (s' : S) :
      Interleaving p (k s) (f s) r₁ r₂ s' → Interleaving p (.act f k) s r₁ r₂ s'

/-- The nodes that can be reached from the roots. -/
inductive Reach {σ : Type} {k : ℕ} (s : Mem σ k) (roots : List ℕ) : ℕ → Prop
  | root (x : ℕ) : x ∈ roots → Reach s roots x
  | child (x y : ℕ) (n : HNode σ k) (c : Fin k) : Reach s roots x → s.mem x = some n → n.children c = some y → Reach s roots y

/-- The state when a program is interrupted after `n` steps. -/
def interrupted : ℕ → Prog S β → S → S
  | 0, _, s => s
  | _ + 1, .done _, s => s
  | n + 1, .act f k, s => interrupted n (k s) (f s)

end Verif.Threads
