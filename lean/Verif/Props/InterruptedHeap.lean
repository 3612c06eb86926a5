import Verif.Props.Threads

/-!
# Interrupted updates and other models (C133)

An interrupted update of a context tree changes no model that has no node in common with it.  It may destroy what a copy has learnt: the
update gives up its reference to a shared child before it copies the child, and if it is interrupted in between the child counts as
unshared although both models still use it.
-/

namespace Verif

open Threads

variable {σ α β : Type} {k : ℕ}

namespace Threads

theorem interrupted_outside {A : Set ℕ} {t : Bool} {Q : β → Prop} (n : ℕ) : ∀ {p : Prog (Mem σ k) β} {s : Mem σ k}, Within A t Q p → Closed A s →
    (∀ x, x ∉ A → (interrupted n p s).mem x = s.mem x) ∧ (interrupted n p s).next (!t) = s.next (!t) := by
  induction n with
  | zero => exact fun _ _ => ⟨fun _ _ => rfl, rfl⟩
  | succ n ih =>
    intro p s hp hs
    cases hp with
    | ok b _ => exact ⟨fun _ _ => rfl, rfl⟩
    | error e => exact ⟨fun _ _ => rfl, rfl⟩
    | act f g h1 h2 h3 _ h5 =>
      obtain ⟨i1, i2⟩ := ih (h5 s hs) (h1 s hs)
      exact ⟨fun x hx => (i1 x hx).trans (h2 s x hx), i2.trans (h3 s)⟩

theorem Within.run_same {A : Set ℕ} {t : Bool} {Q : β → Prop} {p : Prog (Mem σ k) β} (hp : Within A t Q p) :
    ∀ {s s' : Mem σ k}, Closed A s → Same A t s s' → (p.run s).1 = (p.run s').1 := by
  induction hp with
  | ok b _ => exact fun _ _ => rfl
  | error e => exact fun _ _ => rfl
  | act f g h1 _ _ h4 _ ih =>
    intro s s' hs hsame
    obtain ⟨h, e⟩ := h4 s s' hsame
    simp only [Prog.run]
    rw [← e]
    exact ih s hs (h1 s hs) h

theorem interrupted_rd {γ : Type} {m : ℕ → Option (HNode σ k)} {nx : Bool → ℕ} {x : ℕ} {v : HNode σ k} (h : m x = some v) (f : HNode σ k → β)
    (g : β → Prog (Mem σ k) γ) (n : ℕ) : interrupted (n + 1) (rd x f >>= g) ⟨m, nx⟩ = interrupted n (g (f v)) ⟨m, nx⟩ := by
  change interrupted n ((match m x with | some n => _ | none => _ : Prog (Mem σ k) β).bind g) ⟨m, nx⟩ = _
  rw [h]
  rfl

theorem interrupted_wr {γ : Type} {m : ℕ → Option (HNode σ k)} {nx : Bool → ℕ} {x : ℕ} {v : HNode σ k} (h : m x = some v)
    (f : HNode σ k → HNode σ k) (g : Unit → Prog (Mem σ k) γ) (n : ℕ) :
    interrupted (n + 1) (wr x f >>= g) ⟨m, nx⟩ = interrupted n (g ()) ⟨Function.update m x (some (f v)), nx⟩ := by
  have : interrupted (n + 1) (wr x f >>= g) ⟨m, nx⟩ =
      interrupted n ((match m x with | some _ => .done (.ok ()) | none => .done (.error .badAccess) : Prog (Mem σ k) Unit).bind g)
        (match m x with | some n => ⟨Function.update m x (some (f n)), nx⟩ | none => ⟨m, nx⟩) := rfl
  rw [this, h]
  rfl

theorem interrupted_zero (p : Prog (Mem σ k) β) (s : Mem σ k) : interrupted 0 p s = s := by cases p <;> rfl

end Threads

/-- Whenever updates, copies and predictions with some models are interrupted: other models, which share no node with these, return what
they would have returned. -/
theorem C133_unshared (P₁ P₂ : Predictor σ α) (fresh₁ fresh₂ : σ) (addr₁ addr₂ : ℕ → ℕ) (ops₁ ops₂ : List (HOp α k))
    (models₁ models₂ : List ((List α → List (Fin k)) × ℕ)) (s : Mem σ k) (n : ℕ)
    (haddr : ∀ m n, addr₁ m ≠ addr₂ n) (hfree₁ : ∀ n, s.mem (addr₁ n) = none) (hfree₂ : ∀ n, s.mem (addr₂ n) = none)
    (hthere₁ : ∀ x, Reach s (models₁.map (·.2)) x → s.mem x ≠ none) (hthere₂ : ∀ x, Reach s (models₂.map (·.2)) x → s.mem x ≠ none)
    (hshare : ∀ x, Reach s (models₁.map (·.2)) x → ¬ Reach s (models₂.map (·.2)) x) :
    ((thread addr₂ true P₂ fresh₂ ops₂ models₂).run (interrupted n (thread addr₁ false P₁ fresh₁ ops₁ models₁) s)).1 =
      ((thread addr₂ true P₂ fresh₂ ops₂ models₂).run s).1 := by
  have hout := interrupted_outside n (Within.thread (A := {x | Reach s (models₁.map (·.2)) x} ∪ Set.range addr₁) (t := false)
    (fun n => Or.inr ⟨n, rfl⟩) P₁ fresh₁ ops₁ fun m hm => Or.inl (.root _ (List.mem_map_of_mem hm))) (within_reach hfree₁)
  refine (Within.run_same (Within.thread (A := {x | Reach s (models₂.map (·.2)) x} ∪ Set.range addr₂) (t := true)
    (fun n => Or.inr ⟨n, rfl⟩) P₂ fresh₂ ops₂ fun m hm => Or.inl (.root _ (List.mem_map_of_mem hm))) (within_reach hfree₂)
    ⟨fun x hx => (hout.1 x ?_).symm, hout.2.symm⟩).symm
  rintro (hx' | ⟨m, rfl⟩)
  · rcases hx with hx | ⟨n, rfl⟩
    · exact hshare x hx' hx
    · exact hthere₁ _ hx' (hfree₂ n)
  · rcases hx with hx | ⟨n, hn⟩
    · exact hthere₂ _ hx (hfree₁ m)
    · exact haddr m n hn.symm

/-- Two new models at addresses 0 and 1 meet the hypotheses of `C133_unshared` and `C134_unshared_partial`. -/
example : ∃ s : Mem KTBinary 1, (∀ n, s.mem (2 * n + 2) = none) ∧ (∀ n, s.mem (2 * n + 3) = none) ∧
    (∀ x, Reach s [0] x → s.mem x ≠ none) ∧ (∀ x, Reach s [1] x → s.mem x ≠ none) ∧ ∀ x, Reach s [0] x → ¬ Reach s [1] x := by
  set s : Mem KTBinary 1 := ⟨fun x => if x < 2 then some (Heap.newNode (.init none)) else none, fun _ => 0⟩ with hs
  have hreach : ∀ r < 2, ∀ x, Reach s [r] x → x = r := by
    intro r _ x hx
    induction hx with
    | root x hx => simpa using hx
    | child x y n c _ hn hc _ =>
      simp only [hs] at hn
      split_ifs at hn
      simp only [Option.some.injEq] at hn
      subst hn
      simp [Heap.newNode] at hc
  refine ⟨s, fun n => ?_, fun n => ?_, fun x hx => ?_, fun x hx => ?_, fun x hx hx' => ?_⟩
  · simp [hs]
  · simp only [hs]
    rw [if_neg (by omega)]
  · rw [hreach 0 (by omega) x hx]
    simp [hs]
  · rw [hreach 1 (by omega) x hx]
    simp [hs]
  · have h0 := hreach 0 (by omega) x hx
    have h1 := hreach 1 (by omega) x hx'
    omega

open Threads.Race in
/-- An interrupted update of a copy: a model has seen `true` once and has been copied; an update of the copy is interrupted.  The original
still predicts `true` with 3/4.  But after a further update of the copy, which is not interrupted, it is 19/24. -/
theorem C133_copy_changes : ∃ n v,
    ((thread (2 * ·) false KTBinary.predictor (.init none) [.predict 0 true [], .update 1 true [] 1, .predict 0 true []] [(ctx, 0), (ctx, 4)]).run
      (interrupted n (thread (2 * ·) false KTBinary.predictor (.init none) [.update 0 true [] 1] [(ctx, 4)]) before)).1 =
      .ok [some (Real.log (3 / 4)), some v, some (Real.log (19 / 24))] := by
  rw [before_eq]
  refine ⟨9, log05 + logsumexp2 (Real.log (1 / 2) + Real.log (3 / 4) + Real.log (5 / 6)) (Real.log (1 / 2) + Real.log (3 / 4)) - Real.log (1 / 2), ?_⟩
  simp only [thread, step, KTBinary.init]
  simp [-one_div, assoc, done_bind, call_bind, interrupted_rd, interrupted_wr, interrupted_zero, run_rd_bind, run_wr_bind, run_pure, update, own,
    logPredict, peek, path, kt2, kt3, kt4, kt5, logsumexp2_self, mixed]

end Verif
