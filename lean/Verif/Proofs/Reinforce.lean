import Verif.Spec.Reinforce
import Verif.Spec.CTW
import Verif.Spec.PTW
import Verif.Proofs.CTWLawful
import Verif.Proofs.PTWRun
import Mathlib.Tactic.Linarith
import Mathlib.Tactic.Positivity

/-! Log-convexity: three numbers with `b ^ 2 ≤ a * c`, and the mixtures that keep it. -/

namespace Verif

open Predictor

namespace Reinforce

/-- Nonnegative numbers with `b ^ 2 ≤ a * c`. -/
structure Cvx (a b c : ℝ) : Prop where
  pos : 0 ≤ a ∧ 0 ≤ b ∧ 0 ≤ c
  sq : b ^ 2 ≤ a * c

theorem Cvx.const {a : ℝ} (h : 0 ≤ a) : Cvx a a a := ⟨⟨h, h, h⟩, by rw [pow_two]⟩

theorem Cvx.mul {a b c a' b' c' : ℝ} (h : Cvx a b c) (h' : Cvx a' b' c') : Cvx (a * a') (b * b') (c * c') := by
  obtain ⟨⟨h1, h2, h3⟩, h4⟩ := h
  obtain ⟨⟨g1, g2, g3⟩, g4⟩ := h'
  refine ⟨⟨by positivity, by positivity, by positivity⟩, ?_⟩
  have : (b * b') ^ 2 ≤ (a * c) * (a' * c') := by
    rw [mul_pow]
    exact mul_le_mul h4 g4 (by positivity) (by positivity)
  linarith

/-- Cauchy and Schwarz. -/
theorem Cvx.add {a b c a' b' c' : ℝ} (h : Cvx a b c) (h' : Cvx a' b' c') : Cvx (a + a') (b + b') (c + c') := by
  obtain ⟨⟨h1, h2, h3⟩, h4⟩ := h
  obtain ⟨⟨g1, g2, g3⟩, g4⟩ := h'
  refine ⟨⟨by positivity, by positivity, by positivity⟩, ?_⟩
  have hx : (2 * (b * b')) ^ 2 ≤ (a * c' + a' * c) ^ 2 := by
    have h5 : (b * b') ^ 2 ≤ (a * c) * (a' * c') := by
      rw [mul_pow]
      exact mul_le_mul h4 g4 (by positivity) (by positivity)
    nlinarith [sq_nonneg (a * c' - a' * c)]
  have hy := (sq_le_sq₀ (by positivity) (by positivity)).mp hx
  nlinarith

theorem Cvx.sum {ι : Type} {f g k : ι → ℝ} {l : List ι} (h : ∀ i ∈ l, Cvx (f i) (g i) (k i)) :
    Cvx (l.map f).sum (l.map g).sum (l.map k).sum := by
  induction l with
  | nil => exact .const le_rfl
  | cons i l ih =>
    simp only [List.map_cons, List.sum_cons]
    exact (h i (by simp)).add (ih fun j hj => h j (by simp [hj]))

theorem Cvx.prod {ι : Type} [DecidableEq ι] {f g k : ι → ℝ} {T : Finset ι} (h : ∀ i ∈ T, Cvx (f i) (g i) (k i)) :
    Cvx (∏ i ∈ T, f i) (∏ i ∈ T, g i) (∏ i ∈ T, k i) := by
  induction T using Finset.induction_on with
  | empty => simpa using Cvx.const zero_le_one
  | insert i T hi ih =>
    rw [Finset.prod_insert hi, Finset.prod_insert hi, Finset.prod_insert hi]
    exact (h i (by simp)).mul (ih fun j hj => h j (by simp [hj]))

/-! ## Context trees -/

section CTW

variable {κ β : Type} [DecidableEq κ]

theorem subCtx_append (c : κ) (S T : List (List κ × β)) : subCtx c (S ++ T) = subCtx c S ++ subCtx c T := by
  simp [subCtx]

theorem ctw {base : List β → ℝ} (h1 : base [] = 1) {V : β → Prop} {o : β}
    (hb : ∀ l, (∀ x ∈ l, V x) → Cvx (base l) (base (l ++ [o])) (base (l ++ [o, o]))) :
    ∀ (d : ℕ) (S : List (List κ × β)) (cs : List κ), (∀ p ∈ S, V p.2) →
      Cvx (ctwProb base d S) (ctwProb base d (S ++ [(cs, o)])) (ctwProb base d (S ++ [(cs, o), (cs, o)])) := by
  intro d
  induction d with
  | zero =>
    intro S cs hS
    simp only [ctwProb, List.map_append, List.map_cons, List.map_nil]
    exact hb _ fun x hx => by
      obtain ⟨p, hp, rfl⟩ := List.mem_map.mp hx
      exact hS p hp
  | succ d ih =>
    intro S cs hS
    have hbase := hb (S.map Prod.snd) fun x hx => by
      obtain ⟨p, hp, rfl⟩ := List.mem_map.mp hx
      exact hS p hp
    have hV : ∀ c, ∀ p ∈ subCtx c S, V p.2 := by
      intro c p hp
      obtain ⟨q, hq, hqp⟩ := List.mem_filterMap.mp hp
      obtain ⟨l, b⟩ := q
      cases l with
      | nil => simp at hqp
      | cons e es =>
        simp only at hqp
        split_ifs at hqp
        simp only [Option.some.injEq] at hqp
        subst hqp
        exact hS (e :: es, b) hq
    simp only [ctwProb, List.map_append, List.map_cons, List.map_nil]
    have hhalf : Cvx (1/2 : ℝ) (1/2) (1/2) := .const (by norm_num)
    refine (hhalf.mul hbase).add (hhalf.mul ?_)
    rw [prod_heads_subset h1 d S (T := heads S ∪ (heads (S ++ [(cs, o)]) ∪ heads (S ++ [(cs, o), (cs, o)])))
        Finset.subset_union_left,
      prod_heads_subset h1 d (S ++ [(cs, o)]) (T := heads S ∪ (heads (S ++ [(cs, o)]) ∪ heads (S ++ [(cs, o), (cs, o)])))
        (Finset.subset_union_left.trans Finset.subset_union_right),
      prod_heads_subset h1 d (S ++ [(cs, o), (cs, o)]) (T := heads S ∪ (heads (S ++ [(cs, o)]) ∪ heads (S ++ [(cs, o), (cs, o)])))
        (Finset.subset_union_right.trans Finset.subset_union_right)]
    apply Cvx.prod
    intro c _
    rw [subCtx_append, subCtx_append]
    cases cs with
    | nil =>
      have e1 : subCtx c [(([] : List κ), o)] = [] := rfl
      have e2 : subCtx c [(([] : List κ), o), ([], o)] = [] := rfl
      rw [e1, e2, List.append_nil]
      exact .const (ih (subCtx c S) [] (hV c)).pos.1
    | cons e es =>
      by_cases he : e = c
      · have e1 : subCtx c [(e :: es, o)] = [(es, o)] := by simp [subCtx, he]
        have e2 : subCtx c [(e :: es, o), (e :: es, o)] = [(es, o), (es, o)] := by simp [subCtx, he]
        rw [e1, e2]
        exact ih _ es (hV c)
      · have e1 : subCtx c [(e :: es, o)] = [] := by simp [subCtx, he]
        have e2 : subCtx c [(e :: es, o), (e :: es, o)] = [] := by simp [subCtx, he]
        rw [e1, e2, List.append_nil]
        exact .const (ih (subCtx c S) [] (hV c)).pos.1

end CTW

/-! ## Partition trees -/

theorem ptw {β : Type} {p : ℕ → List β → ℝ} {V : β → Prop} {o : β}
    (hp : ∀ t l, (∀ x ∈ l, V x) → Cvx (p t l) (p t (l ++ [o])) (p t (l ++ [o, o]))) (m : ℕ) :
    ∀ (k t : ℕ) (xs : List β), (∀ x ∈ xs, V x) → xs.length / 2 ^ m = (xs.length + 1) / 2 ^ m →
      Cvx (ptwProb p m k t xs) (ptwProb p m k t (xs ++ [o])) (ptwProb p m k t (xs ++ [o, o])) := by
  intro k
  induction k with
  | zero => exact fun t xs hx _ => hp t xs hx
  | succ k ih =>
    intro t xs hx hm
    have hhalf : Cvx (1/2 : ℝ) (1/2) (1/2) := .const (by norm_num)
    have hpos : 0 < 2 ^ m := Nat.two_pow_pos m
    have hd : 2 ^ (m + k) = 2 ^ m * 2 ^ k := pow_add 2 m k
    simp only [ptwProb]
    refine (hhalf.mul (hp t xs hx)).add (hhalf.mul ?_)
    by_cases hc : 2 ^ (m + k) ≤ xs.length
    · have e1 : ∀ l : List β, (xs ++ l).take (2 ^ (m + k)) = xs.take (2 ^ (m + k)) := fun l => List.take_append_of_le_length hc
      have e2 : ∀ l : List β, (xs ++ l).drop (2 ^ (m + k)) = xs.drop (2 ^ (m + k)) ++ l := fun l => List.drop_append_of_le_length hc
      rw [e1, e1, e2, e2]
      have hl : (xs.drop (2 ^ (m + k))).length / 2 ^ m = ((xs.drop (2 ^ (m + k))).length + 1) / 2 ^ m := by
        rw [List.length_drop, hd]
        rw [hd] at hc
        have a1 : (xs.length - 2 ^ m * 2 ^ k) / 2 ^ m = xs.length / 2 ^ m - 2 ^ k := Nat.sub_mul_div _ _ _
        have a2 : (xs.length + 1 - 2 ^ m * 2 ^ k) / 2 ^ m = (xs.length + 1) / 2 ^ m - 2 ^ k := Nat.sub_mul_div _ _ _
        rw [show xs.length - 2 ^ m * 2 ^ k + 1 = xs.length + 1 - 2 ^ m * 2 ^ k by omega, a1, a2, hm]
      have h1 := ih (t + 2 ^ (m + k)) (xs.drop (2 ^ (m + k))) (fun x hx' => hx x (List.mem_of_mem_drop hx')) hl
      have h2 : 0 ≤ ptwProb p m k t (xs.take (2 ^ (m + k))) := ptw_nonneg hp m k t _ fun x hx' => hx x (List.mem_of_mem_take hx')
      exact (Cvx.const h2).mul h1
    · have hlt : xs.length + 2 ≤ 2 ^ (m + k) := by
        by_contra hn
        have : xs.length + 1 = 2 ^ m * 2 ^ k := by omega
        rw [this, Nat.mul_div_cancel_left _ hpos] at hm
        have : xs.length / 2 ^ m < 2 ^ k := by rw [Nat.div_lt_iff_lt_mul hpos]; rw [mul_comm]; omega
        omega
      have e1 : ∀ l : List β, l.length ≤ 2 → (xs ++ l).take (2 ^ (m + k)) = xs ++ l := fun l hl =>
        List.take_of_length_le (by rw [List.length_append]; omega)
      have e2 : ∀ l : List β, l.length ≤ 2 → (xs ++ l).drop (2 ^ (m + k)) = [] := fun l hl =>
        List.drop_eq_nil_of_le (by rw [List.length_append]; omega)
      have e3 := e1 [] (by simp)
      have e4 := e2 [] (by simp)
      rw [List.append_nil] at e3 e4
      rw [e1 [o] (by simp), e1 [o, o] (by simp), e2 [o] (by simp), e2 [o, o] (by simp), e3, e4]
      have h2 : 0 ≤ ptwProb p m k (t + 2 ^ (m + k)) [] := ptw_nonneg hp m k _ _ (by simp)
      exact (ih t xs hx hm).mul (.const h2)
where
  ptw_nonneg {β : Type} {p : ℕ → List β → ℝ} {V : β → Prop} {o : β}
      (hp : ∀ t l, (∀ x ∈ l, V x) → Cvx (p t l) (p t (l ++ [o])) (p t (l ++ [o, o]))) (m : ℕ) (k t : ℕ) (xs : List β)
      (hx : ∀ x ∈ xs, V x) : 0 ≤ ptwProb p m k t xs := by
    induction k generalizing t xs with
    | zero => exact (hp t xs hx).pos.1
    | succ k ih =>
      simp only [ptwProb]
      have h1 := (hp t xs hx).pos.1
      have h2 := ih t (xs.take (2 ^ (m + k))) fun x hx' => hx x (List.mem_of_mem_take hx')
      have h3 := ih (t + 2 ^ (m + k)) (xs.drop (2 ^ (m + k))) fun x hx' => hx x (List.mem_of_mem_drop hx')
      positivity

/-! ## Runs -/

variable {σ α : Type} {P : Predictor σ α} {I : σ → Prop} {A : List α} {W : ℝ → Prop}

/-- Reinforcement, in terms of sequence probabilities. -/
theorem seqProb_cvx (hP : P.UpdateLawful I A W) (hR : P.Reinforces I A W) {s : σ} (hs : I s) {o : Obs α} (ho : o.sym ∈ A ∧ W o.weight)
    (l : List (Obs α)) (hl : ∀ x ∈ l, x.sym ∈ A ∧ W x.weight) :
    Cvx (P.seqProb s l) (P.seqProb s (l ++ [o])) (P.seqProb s (l ++ [o, o])) := by
  obtain ⟨r, t, h1, i1⟩ := hP.run_ok hs hl
  obtain ⟨q, u, h2, i2⟩ := hP.total t o.sym o.hist o.weight i1 ho.1 ho.2
  obtain ⟨q', v, h3, i3⟩ := hP.total u o.sym o.hist o.weight i2 ho.1 ho.2
  have g1 := CTWNode.run_snoc_ok h1 h2
  have g2 := CTWNode.run_snoc_ok g1 h3
  rw [List.append_assoc] at g2
  have hq := hR t o.sym o.hist o.weight q u q' v i1 ho.1 ho.2 h2 h3
  refine ⟨⟨seqProb_nonneg _ _ _, seqProb_nonneg _ _ _, seqProb_nonneg _ _ _⟩, ?_⟩
  change (P.seqProb s (l ++ [o])) ^ 2 ≤ P.seqProb s l * P.seqProb s (l ++ ([o] ++ [o]))
  rw [seqProb_of_run h1, seqProb_of_run g1, seqProb_of_run g2, pow_two, ← Real.exp_add, ← Real.exp_add, Real.exp_le_exp]
  linarith

/-- And back. -/
theorem le_of_cvx {a b c r q q' : ℝ} (h : Cvx a b c) (ha : Real.exp r = a) (hb : Real.exp (r + q) = b)
    (hc : Real.exp (r + q + q') = c) : q ≤ q' := by
  have := h.sq
  rw [← ha, ← hb, ← hc, pow_two, ← Real.exp_add, ← Real.exp_add, Real.exp_le_exp] at this
  linarith

theorem le_of_ratio {a b c q q' : ℝ} (h : Cvx a b c) (hb : 0 < b) (h1 : Real.exp q = b / a) (h2 : Real.exp q' = c / b) : q ≤ q' := by
  have ha : 0 < a := by
    rcases h.pos.1.lt_or_eq with h' | h'
    · exact h'
    · rw [← h', div_zero] at h1
      exact absurd h1 (Real.exp_pos q).ne'
  rw [← Real.exp_le_exp, h1, h2, div_le_div_iff₀ ha hb]
  have := h.sq
  nlinarith

/-- Reached states are lawful. -/
theorem updated_lawful (hP : P.UpdateLawful I A W) {s0 : σ} (hs : I s0) : P.UpdateLawful (P.Updated s0 A W) A W := by
  have key : ∀ s, P.Updated s0 A W s → I s := by
    rintro s ⟨xs, r, hx, h⟩
    obtain ⟨r', s', h', i⟩ := hP.run_ok hs hx
    rw [h] at h'
    simp only [Except.ok.injEq, Prod.mk.injEq] at h'
    exact h'.2 ▸ i
  refine ⟨?_, fun s h w hu hw f hf => hP.normalised s h w (key s hu) hw f hf⟩
  intro s a h w hu ha hw
  obtain ⟨q, t, h1, _⟩ := hP.total s a h w (key s hu) ha hw
  obtain ⟨xs, r, hx, hr⟩ := hu
  refine ⟨q, t, h1, xs ++ [⟨a, h, w⟩], r + q, ?_, CTWNode.run_snoc_ok (o := ⟨a, h, w⟩) hr h1⟩
  intro o ho
  rcases List.mem_append.mp ho with ho | ho
  · exact hx o ho
  · simp only [List.mem_singleton] at ho
    subst ho
    exact ⟨ha, hw⟩

end Reinforce

end Verif
