import Verif.Spec.Frames
import Mathlib.Tactic.Linarith

/-! Composition of calls that make a known number of nested calls. -/

namespace Verif

namespace Frames

variable {σ α β γ : Type}

theorem lift_bind (r : Py β) (g : β → Py γ) : Calls.lift (r >>= g) = Calls.lift r >>= fun x => Calls.lift (g x) := by
  cases r <;> rfl

theorem Between.weaken {lo hi lo' hi' : ℕ} {f : ℕ → Calls β} {r : Py β} (h : Between lo hi f r) (h1 : lo' ≤ lo) (h2 : hi ≤ hi') :
    Between lo' hi' f r :=
  ⟨fun k hk => h.enough k (h2.trans hk), fun k hk => h.short k (lt_of_lt_of_le hk h1), h.either⟩

theorem Between.lift (r : Py β) : Between 0 0 (fun _ => Calls.lift r) r :=
  ⟨fun _ _ => rfl, fun _ h => absurd h (Nat.not_lt_zero _), fun _ => .inl rfl⟩

theorem Between.pure (b : β) : Between 0 0 (fun _ => (Pure.pure b : Calls β)) (.ok b) := Between.lift (.ok b)

theorem Between.frame {lo hi : ℕ} {f : ℕ → Calls β} {r : Py β} (h : Between lo hi f r) :
    Between (lo + 1) (hi + 1) (fun k => Verif.frame k f) r := by
  refine ⟨?_, ?_, ?_⟩
  · intro k hk
    cases k with
    | zero => omega
    | succ k => exact h.enough k (by omega)
  · intro k hk
    cases k with
    | zero => intro _ _; rfl
    | succ k => exact h.short k (by omega)
  · intro k
    cases k with
    | zero => exact .inr rfl
    | succ k => exact h.either k

theorem Between.bind {lo1 hi1 lo2 hi2 : ℕ} {f : ℕ → Calls β} {r : Py β} {g : β → ℕ → Calls γ} {q : β → Py γ}
    (h1 : Between lo1 hi1 f r) (h2 : ∀ x, r = .ok x → Between lo2 hi2 (g x) (q x)) :
    Between (max lo1 lo2) (max hi1 hi2) (fun k => f k >>= fun x => g x k) (r >>= q) := by
  refine ⟨?_, ?_, ?_⟩
  · intro k hk
    show f k >>= _ = _
    rw [h1.enough k (le_of_max_le_left hk)]
    cases r with
    | error e => rfl
    | ok x => exact (h2 x rfl).enough k (le_of_max_le_right hk)
  · intro k hk b hb
    show f k >>= _ = _
    cases r with
    | error e => cases hb
    | ok x =>
      rcases h1.either k with h | h
      · rw [h]
        rcases lt_or_ge k lo1 with h3 | h3
        · rw [h1.short k h3 x rfl] at h; cases h
        · exact (h2 x rfl).short k ((lt_max_iff.mp hk).resolve_left (not_lt.mpr h3)) b hb
      · rw [h]; rfl
  · intro k
    show f k >>= _ = _ ∨ f k >>= _ = _
    rcases h1.either k with h | h
    · rw [h]
      cases r with
      | error e => exact .inl rfl
      | ok x => exact (h2 x rfl).either k
    · rw [h]; exact .inr rfl

/-- A result that is computed from the result of a call. -/
theorem Between.map {lo hi : ℕ} {f : ℕ → Calls β} {r : Py β} (h : Between lo hi f r) (q : β → γ) :
    Between lo hi (fun k => f k >>= fun x => (Pure.pure (q x) : Calls γ)) (r >>= fun x => Pure.pure (q x)) := by
  have := h.bind (g := fun x _ => Pure.pure (q x)) (q := fun x => Pure.pure (q x)) (fun x _ => Between.pure (q x))
  rwa [Nat.max_zero, Nat.max_zero] at this

theorem Between.iff {n : ℕ} {f : ℕ → Calls β} {b : β} (h : Between n n f (.ok b)) (k : ℕ) :
    f k = if n ≤ k then .ok b else .error .recursion := by
  split
  · exact h.enough k ‹_›
  · exact h.short k (by omega) b rfl

theorem lse2_needs (x y : ℝ) : Between 1 1 (fun k => lse2 k x y) (.ok (logsumexp2 x y)) := (Between.pure _).frame

theorem lse_needs (vs : List ℝ) (hne : vs ≠ []) : Between 2 2 (fun k => lse k vs) (logsumexp vs) := by
  cases vs with
  | nil => exact absurd rfl hne
  | cons v vs => exact (Between.lift _).frame.frame

theorem lse_between (vs : List ℝ) : Between 1 2 (fun k => lse k vs) (logsumexp vs) := by
  cases vs with
  | nil => exact (Between.lift _).frame.weaken (by omega) (by omega)
  | cons v vs => exact (Between.lift _).frame.frame.weaken (by omega) (by omega)

end Frames

end Verif
