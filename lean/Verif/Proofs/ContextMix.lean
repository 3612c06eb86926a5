import Verif.Proofs.ContextCode
import Verif.Spec.ContextCode

set_option linter.unusedSectionVars false

/-! The mixture of `CTW` with contexts of different lengths. -/

namespace Verif

open Predictor

section Spec

variable {κ β : Type} [DecidableEq κ]

theorem codeProb_nil {base : List β → ℝ} (hb : base [] = 1) (C : List κ → Prop) (d : ℕ) :
    codeProb base C d ([] : List (List κ × β)) = 1 := by
  cases d with
  | zero => simpa [codeProb] using hb
  | succ d =>
    simp only [codeProb, List.map_nil, hb, heads_nil, Finset.prod_empty]
    split <;> norm_num

theorem codeProb_heads {base : List β → ℝ} (hb : base [] = 1) (C : List κ → Prop) (d : ℕ) (S : List (List κ × β))
    {T : Finset κ} (hT : heads S ⊆ T) :
    ∏ c ∈ heads S, codeProb base (fun l => C (c :: l)) d (subCtx c S) = ∏ c ∈ T, codeProb base (fun l => C (c :: l)) d (subCtx c S) := by
  apply Finset.prod_subset hT
  intro c _ hc
  rw [subCtx_eq_nil hc, codeProb_nil hb]

theorem codeProb_nonneg {base : List β → ℝ} (hb : ∀ l, 0 ≤ base l) (C : List κ → Prop) (d : ℕ) (S : List (List κ × β)) :
    0 ≤ codeProb base C d S := by
  induction d generalizing S C with
  | zero => exact hb _
  | succ d ih =>
    simp only [codeProb]
    split
    · exact hb _
    · have := Finset.prod_nonneg (s := heads S) (f := fun c => codeProb base (fun l => C (c :: l)) d (subCtx c S)) (fun c _ => ih _ _)
      have := hb (S.map Prod.snd)
      positivity

theorem codeProb_ge {base : List β → ℝ} [Fintype κ] (h1 : base [] = 1) (hb : ∀ l, 0 ≤ base l) {d : ℕ}
    (t : Pruning κ d) (C : List κ → Prop) (ht : t.Fits C) (S : List (List κ × β)) :
    (1/2 : ℝ) ^ t.codeCost C * t.prob base S ≤ codeProb base C d S := by
  induction t generalizing S C with
  | @leaf d =>
    have h0 := hb (S.map Prod.snd)
    cases d with
    | zero => simp [Pruning.codeCost, Pruning.prob, codeProb]
    | succ d =>
      simp only [Pruning.codeCost, Pruning.prob, codeProb]
      split
      · simp
      · have : 0 ≤ ∏ c ∈ heads S, codeProb base (fun l => C (c :: l)) d (subCtx c S) :=
          Finset.prod_nonneg (fun c _ => codeProb_nonneg hb _ d _)
        rw [pow_one]
        linarith
  | @split d f ih =>
    obtain ⟨hC, hf⟩ := ht
    simp only [Pruning.codeCost, Pruning.prob, codeProb, if_neg hC]
    rw [codeProb_heads h1 C d S (Finset.subset_univ _), pow_add, pow_one, mul_assoc,
      ← Finset.prod_pow_eq_pow_sum, ← Finset.prod_mul_distrib]
    have : ∏ c : κ, (1/2 : ℝ) ^ ((f c).codeCost fun l => C (c :: l)) * (f c).prob base (subCtx c S) ≤
        ∏ c : κ, codeProb base (fun l => C (c :: l)) d (subCtx c S) :=
      Finset.prod_le_prod (fun c _ => mul_nonneg (by positivity) (pruning_prob_nonneg hb _ _))
        (fun c _ => ih c _ (hf c) _)
    have := hb (S.map Prod.snd)
    linarith

end Spec

namespace CTWNode

variable {σ κ α : Type} [DecidableEq κ] {P : Predictor σ α} {fresh : σ}

/-- The node `n` has been updated with exactly the observations `S`, whose contexts are in `C`. -/
def RepC (P : Predictor σ α) (fresh : σ) : ℕ → (List κ → Prop) → List (List κ × Obs α) → CTWNode σ κ → Prop
  | 0, _, S, n => P.run fresh (S.map Prod.snd) = .ok (n.baseLP, n.base) ∧ n.lp = n.baseLP
  | d + 1, C, S, n => P.run fresh (S.map Prod.snd) = .ok (n.baseLP, n.base) ∧ (C [] → n.lp = n.baseLP) ∧
      (¬ C [] → Real.exp n.childrenLP = ∏ c ∈ heads S, codeProb (P.seqProb fresh) (fun l => C (c :: l)) d (subCtx c S) ∧
        n.lp = log05 + logsumexp2 n.baseLP n.childrenLP ∧
        ∀ c, RepC P fresh d (fun l => C (c :: l)) (subCtx c S) ((n.children c).getD (new fresh)))

theorem RepC.new (d : ℕ) (C : List κ → Prop) : RepC P fresh d C [] (new fresh : CTWNode σ κ) := by
  induction d generalizing C with
  | zero => exact ⟨rfl, rfl⟩
  | succ d ih =>
    refine ⟨rfl, fun _ => rfl, fun _ => ⟨by simp [CTWNode.new, childrenLP], ?_, fun c => ih _⟩⟩
    change (0 : ℝ) = log05 + logsumexp2 0 0
    rw [logsumexp2_self]

theorem RepC.exp_lp {d : ℕ} {C : List κ → Prop} {S : List (List κ × Obs α)} {n : CTWNode σ κ} (h : RepC P fresh d C S n) :
    Real.exp n.lp = codeProb (P.seqProb fresh) C d S := by
  cases d with
  | zero =>
    obtain ⟨h1, h2⟩ := h
    rw [h2, codeProb, seqProb_of_run h1]
  | succ d =>
    obtain ⟨h1, h2, h3⟩ := h
    rw [codeProb]
    split
    · rename_i hC
      rw [h2 hC, seqProb_of_run h1]
    · rename_i hC
      obtain ⟨a1, a2, -⟩ := h3 hC
      rw [a2, exp_half_lse2, seqProb_of_run h1, a1]

theorem RepC.update {d : ℕ} {C : List κ → Prop} (hC : PrefixFree C) {S : List (List κ × Obs α)} {n n' : CTWNode σ κ} {o : Obs α} {ctx : List κ}
    {r : ℝ} (h : RepC P fresh d C S n) (hctx : C ctx) (hd : ctx.length ≤ d)
    (hu : n.update P fresh o.sym o.hist o.weight ctx = .ok (r, n')) :
    RepC P fresh d C (S ++ [(ctx, o)]) n' ∧ r = n'.lp - n.lp := by
  induction ctx generalizing d S n n' r C with
  | nil =>
    simp only [CTWNode.update, bind_eq_ok, pure_eq_ok, Except.ok.injEq, Prod.mk.injEq, Prod.exists] at hu
    obtain ⟨q, b, hb, rfl, rfl⟩ := hu
    have hrun : ∀ m : ℝ × σ, P.run fresh (S.map Prod.snd) = .ok (n.baseLP, n.base) →
        P.run fresh ((S ++ [(([] : List κ), o)]).map Prod.snd) = .ok (n.baseLP + q, b) := by
      intro _ h1
      simp only [List.map_append, List.map_cons, List.map_nil]
      exact run_snoc_ok h1 hb
    cases d with
    | zero => exact ⟨⟨hrun (0, b) h.1, rfl⟩, rfl⟩
    | succ d => exact ⟨⟨hrun (0, b) h.1, fun _ => rfl, fun hn => absurd hctx hn⟩, rfl⟩
  | cons c cs ih =>
    obtain ⟨d, rfl⟩ : ∃ e, d = e + 1 := ⟨d - 1, by simp at hd; omega⟩
    have hC0 : ¬ C [] := fun h0 => by simpa using hC [] (c :: cs) h0 hctx
    obtain ⟨h1, -, h3⟩ := h
    obtain ⟨h2, h3, h4⟩ := h3 hC0
    simp only [CTWNode.update, bind_eq_ok, pure_eq_ok, Except.ok.injEq, Prod.mk.injEq, Prod.exists] at hu
    obtain ⟨q, b, hb, rc, ch', hch, rfl, rfl⟩ := hu
    have hold := h4 c
    obtain ⟨hnew, hrc⟩ := ih (hC.child c) hold hctx (by simpa using hd) hch
    have hone : P.seqProb fresh [] = 1 := by simp [seqProb, Predictor.run, probOf]
    refine ⟨⟨?_, fun h0 => absurd h0 hC0, fun _ => ⟨?_, rfl, ?_⟩⟩, rfl⟩
    · simp only [List.map_append, List.map_cons, List.map_nil, baseLP, base]
      exact run_snoc_ok h1 hb
    · rw [heads_append]
      simp only [childrenLP]
      rw [Real.exp_add, hrc, Real.exp_sub, hnew.exp_lp]
      have e1 : Real.exp n.childrenLP =
          ∏ x ∈ insert c (heads S), codeProb (P.seqProb fresh) (fun l => C (x :: l)) d (subCtx x S) := by
        rw [h2]
        exact codeProb_heads hone _ _ _ (Finset.subset_insert _ _)
      have e2 := hold.exp_lp
      have hpos : codeProb (P.seqProb fresh) (fun l => C (c :: l)) d (subCtx c S) ≠ 0 := by
        rw [← e2]
        exact (Real.exp_pos _).ne'
      change Real.exp n.childrenLP * _ = _
      rw [e1, e2, ← Finset.mul_prod_erase _ _ (Finset.mem_insert_self c (heads S)),
        ← Finset.mul_prod_erase (insert c (heads S))
          (fun x => codeProb (P.seqProb fresh) (fun l => C (x :: l)) d (subCtx x (S ++ [(c :: cs, o)])))
          (Finset.mem_insert_self c (heads S)), subCtx_append_self]
      have e3 : ∏ x ∈ (insert c (heads S)).erase c,
            codeProb (P.seqProb fresh) (fun l => C (x :: l)) d (subCtx x (S ++ [(c :: cs, o)])) =
          ∏ x ∈ (insert c (heads S)).erase c, codeProb (P.seqProb fresh) (fun l => C (x :: l)) d (subCtx x S) := by
        apply Finset.prod_congr rfl
        intro x hx
        rw [subCtx_append_other (Finset.mem_erase.mp hx).1]
      rw [e3]
      field_simp
    · intro c'
      simp only [children]
      by_cases hcc : c' = c
      · subst hcc
        rw [subCtx_append_self]
        simpa using hnew
      · rw [subCtx_append_other hcc, Function.update_of_ne hcc]
        exact h4 c'

theorem RepC.run {ctx : List α → List κ} {d : ℕ} {C : List κ → Prop} (hC : PrefixFree C) {S : List (List κ × Obs α)} {n n' : CTWNode σ κ}
    {xs : List (Obs α)} {r : ℝ} (h : RepC P fresh d C S n) (hc : ∀ o ∈ xs, C (ctx o.hist).reverse ∧ (ctx o.hist).length ≤ d)
    (hr : (CTW.predictor P fresh ctx).run n xs = .ok (r, n')) :
    RepC P fresh d C (S ++ xs.map fun o => ((ctx o.hist).reverse, o)) n' ∧ r = n'.lp - n.lp := by
  induction xs generalizing S n r with
  | nil =>
    simp only [Predictor.run, pure_eq_ok, Except.ok.injEq, Prod.mk.injEq] at hr
    obtain ⟨rfl, rfl⟩ := hr
    simpa using h
  | cons o os ih =>
    obtain ⟨r1, n1, r2, h1, h2, rfl⟩ := run_cons_ok.mp hr
    obtain ⟨hn1, e1⟩ := h.update hC (hc o (by simp)).1 (by simpa using (hc o (by simp)).2) h1
    obtain ⟨hn2, e2⟩ := ih hn1 (fun o ho => hc o (by simp [ho])) h2
    refine ⟨by simpa using hn2, ?_⟩
    rw [e1, e2]
    ring

end CTWNode

end Verif
