import Verif.Model.CTW
import Verif.Spec.CTW
import Verif.Proofs.Averager
import Mathlib.Algebra.BigOperators.Group.List.Basic

set_option linter.unusedSectionVars false

/-! Lemmas about `CTW`: refinement to the recursive mixture. -/

namespace Verif

open Predictor

section Spec

variable {κ β : Type} [DecidableEq κ]

@[simp] theorem subCtx_nil (c : κ) : subCtx c ([] : List (List κ × β)) = [] := rfl

@[simp] theorem heads_nil : heads ([] : List (List κ × β)) = ∅ := rfl

theorem subCtx_append_self (c : κ) (cs : List κ) (b : β) (S : List (List κ × β)) :
    subCtx c (S ++ [(c :: cs, b)]) = subCtx c S ++ [(cs, b)] := by
  simp [subCtx]

theorem subCtx_append_other {c c' : κ} (h : c' ≠ c) (cs : List κ) (b : β) (S : List (List κ × β)) :
    subCtx c' (S ++ [(c :: cs, b)]) = subCtx c' S := by
  simp [subCtx, Ne.symm h]

theorem heads_append (c : κ) (cs : List κ) (b : β) (S : List (List κ × β)) :
    heads (S ++ [(c :: cs, b)]) = insert c (heads S) := by
  ext x
  simp only [heads, List.mem_toFinset, List.filterMap_append, List.mem_append, Finset.mem_insert]
  simp [or_comm]

theorem subCtx_eq_nil {c : κ} {S : List (List κ × β)} (h : c ∉ heads S) : subCtx c S = [] := by
  rw [subCtx, List.filterMap_eq_nil_iff]
  intro p hp
  obtain ⟨l, b⟩ := p
  cases l with
  | nil => rfl
  | cons d ds =>
    have : d ≠ c := by
      rintro rfl
      apply h
      simp only [heads, List.mem_toFinset, List.mem_filterMap]
      exact ⟨_, hp, rfl⟩
    simp [this]

theorem ctwProb_nil {base : List β → ℝ} (hb : base [] = 1) (d : ℕ) :
    ctwProb base d ([] : List (List κ × β)) = 1 := by
  cases d with
  | zero => simpa [ctwProb] using hb
  | succ d => simp only [ctwProb, List.map_nil, hb, heads_nil, Finset.prod_empty]; norm_num

theorem prod_heads_subset {base : List β → ℝ} (hb : base [] = 1) (d : ℕ) (S : List (List κ × β))
    {T : Finset κ} (hT : heads S ⊆ T) :
    ∏ c ∈ heads S, ctwProb base d (subCtx c S) = ∏ c ∈ T, ctwProb base d (subCtx c S) := by
  apply Finset.prod_subset hT
  intro c _ hc
  rw [subCtx_eq_nil hc, ctwProb_nil hb]

theorem ctwProb_nonneg {base : List β → ℝ} (hb : ∀ l, 0 ≤ base l) (d : ℕ) (S : List (List κ × β)) :
    0 ≤ ctwProb base d S := by
  induction d generalizing S with
  | zero => exact hb _
  | succ d ih =>
    simp only [ctwProb]
    have := Finset.prod_nonneg (s := heads S) (f := fun c => ctwProb base d (subCtx c S)) (fun c _ => ih _)
    have := hb (S.map Prod.snd)
    positivity

end Spec

namespace CTWNode

variable {σ κ α : Type} [DecidableEq κ] {P : Predictor σ α} {fresh : σ}

@[simp] theorem base_mk (b : σ) (x y z : ℝ) (ch : κ → Option (CTWNode σ κ)) : (mk b x y z ch).base = b := rfl
@[simp] theorem baseLP_mk (b : σ) (x y z : ℝ) (ch : κ → Option (CTWNode σ κ)) :
    (mk b x y z ch).baseLP = x := rfl
@[simp] theorem childrenLP_mk (b : σ) (x y z : ℝ) (ch : κ → Option (CTWNode σ κ)) :
    (mk b x y z ch).childrenLP = y := rfl
@[simp] theorem lp_mk (b : σ) (x y z : ℝ) (ch : κ → Option (CTWNode σ κ)) : (mk b x y z ch).lp = z := rfl
@[simp] theorem children_mk (b : σ) (x y z : ℝ) (ch : κ → Option (CTWNode σ κ)) :
    (mk b x y z ch).children = ch := rfl

/-- The node `n` at remaining depth `d` has been updated with exactly the observations `S`. -/
def Rep (P : Predictor σ α) (fresh : σ) : ℕ → List (List κ × Obs α) → CTWNode σ κ → Prop
  | 0, S, n => P.run fresh (S.map Prod.snd) = .ok (n.baseLP, n.base) ∧ n.lp = n.baseLP
  | d + 1, S, n => P.run fresh (S.map Prod.snd) = .ok (n.baseLP, n.base) ∧
      Real.exp n.childrenLP = ∏ c ∈ heads S, ctwProb (P.seqProb fresh) d (subCtx c S) ∧
      n.lp = log05 + logsumexp2 n.baseLP n.childrenLP ∧
      ∀ c, Rep P fresh d (subCtx c S) ((n.children c).getD (new fresh))

theorem Rep.new (d : ℕ) : Rep P fresh d [] (new fresh : CTWNode σ κ) := by
  induction d with
  | zero => exact ⟨rfl, rfl⟩
  | succ d ih =>
    refine ⟨rfl, by simp [CTWNode.new, childrenLP], ?_, ?_⟩
    · change (0 : ℝ) = log05 + logsumexp2 0 0
      rw [logsumexp2_self]
    · intro c
      exact ih

theorem Rep.exp_lp {d : ℕ} {S : List (List κ × Obs α)} {n : CTWNode σ κ} (h : Rep P fresh d S n) :
    Real.exp n.lp = ctwProb (P.seqProb fresh) d S := by
  cases d with
  | zero =>
    obtain ⟨h1, h2⟩ := h
    rw [h2, ctwProb, seqProb_of_run h1]
  | succ d =>
    obtain ⟨h1, h2, h3, _⟩ := h
    rw [h3, exp_half_lse2, ctwProb, seqProb_of_run h1, h2]

theorem run_snoc_ok {s s1 s2 : σ} {xs : List (Obs α)} {o : Obs α} {r1 r2 : ℝ}
    (h1 : P.run s xs = .ok (r1, s1)) (h2 : P.update s1 o.sym o.hist o.weight = .ok (r2, s2)) :
    P.run s (xs ++ [o]) = .ok (r1 + r2, s2) := by
  refine run_append_ok.mpr ⟨_, _, _, h1, ?_, rfl⟩
  exact run_cons_ok.mpr ⟨_, _, _, h2, rfl, by simp⟩

theorem Rep.update {d : ℕ} {S : List (List κ × Obs α)} {n n' : CTWNode σ κ} {o : Obs α} {ctx : List κ} {r : ℝ}
    (h : Rep P fresh d S n) (hc : ctx.length = d)
    (hu : n.update P fresh o.sym o.hist o.weight ctx = .ok (r, n')) :
    Rep P fresh d (S ++ [(ctx, o)]) n' ∧ r = n'.lp - n.lp := by
  induction ctx generalizing d S n n' r with
  | nil =>
    subst hc
    obtain ⟨h1, h2⟩ := h
    simp only [CTWNode.update, bind_eq_ok, pure_eq_ok, Except.ok.injEq, Prod.mk.injEq, Prod.exists] at hu
    obtain ⟨q, b, hb, rfl, rfl⟩ := hu
    refine ⟨⟨?_, rfl⟩, rfl⟩
    simp only [List.map_append, List.map_cons, List.map_nil, baseLP, base]
    exact run_snoc_ok h1 hb
  | cons c cs ih =>
    subst hc
    obtain ⟨h1, h2, h3, h4⟩ := h
    simp only [CTWNode.update, bind_eq_ok, pure_eq_ok, Except.ok.injEq, Prod.mk.injEq, Prod.exists] at hu
    obtain ⟨q, b, hb, rc, ch', hch, rfl, rfl⟩ := hu
    have hold := h4 c
    obtain ⟨hnew, hrc⟩ := ih hold rfl hch
    have hone : P.seqProb fresh [] = 1 := by simp [seqProb, Predictor.run, probOf]
    refine ⟨⟨?_, ?_, rfl, ?_⟩, rfl⟩
    · simp only [List.map_append, List.map_cons, List.map_nil, baseLP, base]
      exact run_snoc_ok h1 hb
    · rw [heads_append]
      simp only [childrenLP]
      rw [Real.exp_add, hrc, Real.exp_sub, hnew.exp_lp]
      have e1 : Real.exp n.childrenLP =
          ∏ x ∈ insert c (heads S), ctwProb (P.seqProb fresh) cs.length (subCtx x S) := by
        rw [h2]
        exact prod_heads_subset hone _ _ (Finset.subset_insert _ _)
      have e2 := hold.exp_lp
      have hpos : ctwProb (P.seqProb fresh) cs.length (subCtx c S) ≠ 0 := by
        rw [← e2]
        exact (Real.exp_pos _).ne'
      change Real.exp n.childrenLP * _ = _
      rw [e1, e2, ← Finset.mul_prod_erase _ _ (Finset.mem_insert_self c (heads S)),
        ← Finset.mul_prod_erase (insert c (heads S))
          (fun x => ctwProb (P.seqProb fresh) cs.length (subCtx x (S ++ [(c :: cs, o)])))
          (Finset.mem_insert_self c (heads S)), subCtx_append_self]
      have e3 : ∏ x ∈ (insert c (heads S)).erase c,
            ctwProb (P.seqProb fresh) cs.length (subCtx x (S ++ [(c :: cs, o)])) =
          ∏ x ∈ (insert c (heads S)).erase c, ctwProb (P.seqProb fresh) cs.length (subCtx x S) := by
        apply Finset.prod_congr rfl
        intro x hx
        rw [subCtx_append_other (Finset.mem_erase.mp hx).1]
      rw [e3]
      field_simp
    · intro c'
      simp only [children]
      by_cases hcc : c' = c
      · subst hcc
        rw [subCtx_append_self]
        simpa using hnew
      · rw [subCtx_append_other hcc, Function.update_of_ne hcc]
        exact h4 c'

theorem Rep.run {ctx : List α → List κ} {d : ℕ} {S : List (List κ × Obs α)} {n n' : CTWNode σ κ}
    {xs : List (Obs α)} {r : ℝ} (h : Rep P fresh d S n) (hc : ∀ o ∈ xs, (ctx o.hist).length = d)
    (hr : (CTW.predictor P fresh ctx).run n xs = .ok (r, n')) :
    Rep P fresh d (S ++ xs.map fun o => ((ctx o.hist).reverse, o)) n' ∧ r = n'.lp - n.lp := by
  induction xs generalizing S n r with
  | nil =>
    simp only [Predictor.run, pure_eq_ok, Except.ok.injEq, Prod.mk.injEq] at hr
    obtain ⟨rfl, rfl⟩ := hr
    simpa using h
  | cons o os ih =>
    obtain ⟨r1, n1, r2, h1, h2, rfl⟩ := run_cons_ok.mp hr
    obtain ⟨hn1, e1⟩ := h.update (by simpa using hc o (by simp)) h1
    obtain ⟨hn2, e2⟩ := ih hn1 (fun o ho => hc o (by simp [ho])) h2
    refine ⟨by simpa using hn2, ?_⟩
    rw [e1, e2]
    ring

end CTWNode

end Verif
