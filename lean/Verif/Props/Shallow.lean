import Verif.Props.Patterns

/-!
# C178: how much a context tree loses at least
-/

namespace Verif

open Predictor Redundancy

namespace Shallow

theorem ktP_comm (a b : ℕ) : ktP a b = ktP b a := by
  unfold ktP
  rw [Nat.add_comm a b, mul_comm]

theorem ktP_diag (a b : ℕ) : ktP (a + 1) (b + 1) ≤ 1 / 4 * ktP a b := by
  have e : ktP (a + 1) (b + 1) = ktP a b * (((a : ℝ) + 1 / 2) * (b + 1 / 2) / ((a + b + 1) * (a + b + 2))) := by
    unfold ktP
    rw [rise_succ, rise_succ, show a + 1 + (b + 1) = a + b + 1 + 1 by ring, Nat.factorial_succ, Nat.factorial_succ]
    push_cast
    field_simp
    ring
  rw [e, mul_comm]
  refine mul_le_mul_of_nonneg_right ?_ (ktP_pos a b).le
  rw [div_le_iff₀ (by positivity)]
  nlinarith [sq_nonneg ((a : ℝ) - b), Nat.cast_nonneg (α := ℝ) a, Nat.cast_nonneg (α := ℝ) b]

theorem ktP_zero : ∀ a : ℕ, ktP a 0 ≤ 1
  | 0 => by simp [ktP, rise]
  | a + 1 => by
    have ih := ktP_zero a
    have e : ktP (a + 1) 0 = ktP a 0 * (((a : ℝ) + 1 / 2) / (a + 1)) := by
      unfold ktP
      rw [rise_succ, show a + 1 + 0 = a + 0 + 1 by ring, Nat.factorial_succ]
      push_cast
      field_simp
      ring
    rw [e]
    exact mul_le_one₀ ih (by positivity) (by rw [div_le_one (by positivity)]; linarith)

theorem ktP_le : ∀ a b : ℕ, ktP a b ≤ (1 / 4) ^ min a b
  | a, 0 => by simpa using ktP_zero a
  | 0, b => by rw [ktP_comm]; simpa using ktP_zero b
  | a + 1, b + 1 => by
    have ih := ktP_le a b
    have := ktP_diag a b
    rw [Nat.add_min_add_right, pow_succ]
    linarith

/-- How often a rule is wrong on symbols with their contexts. -/
def err (f : List Bool → Bool) (S : List (List Bool × Obs Bool)) : ℕ := S.countP fun p => f p.1 != p.2.sym

theorem err_const (b : Bool) (S : List (List Bool × Obs Bool)) :
    err (fun _ => b) S = if b then zeros (S.map Prod.snd) else ones (S.map Prod.snd) := by
  induction S with
  | nil => cases b <;> rfl
  | cons p S ih =>
    obtain ⟨c, ⟨x, h, w⟩⟩ := p
    cases b <;> cases x <;> simp_all [err, zeros, ones]

theorem err_split (f : Bool → List Bool → Bool) (g : List Bool → Bool) (hg : ∀ a c, g (a :: c) = f a c) : ∀ S : List (List Bool × Obs Bool), (∀ p ∈ S, p.1 ≠ []) →
    ∑ a : Bool, err (f a) (subCtx a S) = err g S
  | [], _ => by simp [subCtx, err]
  | ([], x) :: S, h => absurd rfl (h ([], x) (by simp))
  | (c :: cs, x) :: S, h => by
    have ih := err_split f g hg S fun p hp => h p (by simp [hp])
    have : ∀ a : Bool, err (f a) (subCtx a ((c :: cs, x) :: S)) = (if c = a then (if f c cs != x.sym then 1 else 0) else 0) + err (f a) (subCtx a S) := by
      intro a
      rw [Patterns.subCtx_cons]
      by_cases hc : c = a
      · subst hc
        simp [err, List.countP_cons, add_comm]
      · simp [hc]
    simp only [this]
    rw [Finset.sum_add_distrib, ih, Finset.sum_ite_eq]
    simp [err, List.countP_cons, hg, add_comm]

theorem ctwProb_le {base : List (Obs Bool) → ℝ} (h1 : base [] = 1) (hb : ∀ ys, 0 ≤ base ys)
    (hbase : ∀ ys : List (Obs Bool), (∀ o ∈ ys, o.weight = 1) → base ys ≤ (1 / 4) ^ min (zeros ys) (ones ys)) :
    ∀ (d : ℕ) (S : List (List Bool × Obs Bool)), (∀ p ∈ S, p.1.length = d ∧ p.2.weight = 1) →
      ∃ f : List Bool → Bool, ctwProb base d S ≤ (1 / 4) ^ err f S ∧ ∀ b, err f S ≤ err (fun _ => b) S := by
  intro d
  induction d with
  | zero =>
    intro S hS
    have hw : ∀ o ∈ S.map Prod.snd, o.weight = 1 := by
      intro o ho
      obtain ⟨p, hp, rfl⟩ := List.mem_map.mp ho
      exact (hS p hp).2
    rcases le_total (zeros (S.map Prod.snd)) (ones (S.map Prod.snd)) with h | h
    · refine ⟨fun _ => true, ?_, fun b => ?_⟩
      · have := hbase _ hw
        rw [min_eq_left h] at this
        rw [err_const]
        exact this
      · rw [err_const, err_const]
        cases b <;> simp [h]
    · refine ⟨fun _ => false, ?_, fun b => ?_⟩
      · have := hbase _ hw
        rw [min_eq_right h] at this
        rw [err_const]
        exact this
      · rw [err_const, err_const]
        cases b <;> simp [h]
  | succ d ih =>
    intro S hS
    have hne : ∀ p ∈ S, p.1 ≠ [] := fun p hp e => by have := (hS p hp).1; rw [e] at this; simp at this
    have hsub : ∀ a : Bool, ∀ p ∈ subCtx a S, p.1.length = d ∧ p.2.weight = 1 := by
      intro a p hp
      obtain ⟨⟨c, x⟩, hq, e⟩ := List.mem_filterMap.mp hp
      cases c with
      | nil => simp at e
      | cons y ys =>
        simp only at e
        split_ifs at e with hy
        have := hS _ hq
        simp only [Option.some.injEq] at e
        rw [← e]
        exact ⟨by simpa using this.1, this.2⟩
    choose f hf1 hf2 using fun a => ih (subCtx a S) (hsub a)
    have hw : ∀ o ∈ S.map Prod.snd, o.weight = 1 := by
      intro o ho
      obtain ⟨p, hp, rfl⟩ := List.mem_map.mp ho
      exact (hS p hp).2
    let g : List Bool → Bool := fun c => match c with
      | [] => false
      | a :: c => f a c
    have hs := err_split f g (fun a c => rfl) S hne
    have hopt : ∀ b, err g S ≤ err (fun _ => b) S := by
      intro b
      rw [← hs, ← err_split (fun _ _ => b) (fun _ => b) (fun _ _ => rfl) S hne]
      exact Finset.sum_le_sum fun a _ => hf2 a b
    refine ⟨g, ?_, hopt⟩
    have hB : base (S.map Prod.snd) ≤ (1 / 4) ^ err g S := by
      refine (hbase _ hw).trans (pow_le_pow_of_le_one (by norm_num) (by norm_num) (le_min ?_ ?_))
      · have := hopt true
        rwa [err_const, if_pos rfl] at this
      · have := hopt false
        rwa [err_const, if_neg (by decide)] at this
    have hP : ∏ a : Bool, ctwProb base d (subCtx a S) ≤ (1 / 4) ^ err g S := by
      rw [← hs, ← Finset.prod_pow_eq_pow_sum]
      exact Finset.prod_le_prod (fun a _ => ctwProb_nonneg hb d _) fun a _ => hf1 a
    rw [ctwProb, prod_heads_subset h1 d S (Finset.subset_univ _)]
    linarith

theorem err_withCtx {d : ℕ} (hd : 1 ≤ d) (f : List Bool → Bool) : ∀ xs h : List Bool,
    err f (withCtx (CTW.mkcontext d false) (drawn h xs)) = errors (fun h => f (lastBits d h).reverse) h xs
  | [], h => rfl
  | x :: xs, h => by
    have ih := err_withCtx hd f xs (h ++ [x])
    simp only [err, withCtx, drawn, errors, List.map_cons, List.countP_cons, Patterns.mkcontext_eq hd] at *
    rw [ih, add_comm]
    by_cases hx : f (lastBits d h).reverse = x <;> simp [hx]

end Shallow

/-- **C178.** If every rule that tells the next bit from the last `d` bits is wrong at least `k` times, then `CTW` of depth `d` (in `model.py` and in
`modelfast.py`) loses at least `2 k` bits. -/
theorem C178_at_least (xs : List Bool) (d : ℕ) (hd : 1 ≤ d) (k : ℕ) (hk : ∀ f : List Bool → Bool, k ≤ errors (fun h => f (lastBits d h)) [] xs) :
    ∃ r n t, (CTW.predictor KTBinary.predictor (KTBinary.init none) (CTW.mkcontext d false)).run (CTW.init (KTBinary.init none)) (drawn [] xs) = .ok (r, n) ∧
      (KNode.predictor d).run KNode.new (drawn [] xs) = .ok (r, t) ∧ 2 * k * Real.log 2 ≤ -r := by
  obtain ⟨r, n', hr, he, -⟩ := C13_CTW_default d hd (drawn [] xs) (fun o ho => by rw [Patterns.weight_drawn xs [] o ho]; exact zero_le_one) []
  obtain ⟨t, ht⟩ := Actions.corr_run d (drawn [] xs) KNode.corr_new hr
  refine ⟨r, n', t, hr, ht, ?_⟩
  obtain ⟨f, h1, -⟩ := Shallow.ctwProb_le (base := KTBinary.predictor.seqProb (KTBinary.init none)) (by simp [seqProb, Predictor.run, probOf])
    (KTBinary.predictor.seqProb_nonneg _) (fun ys hy => by rw [seqProb_ktP hy]; exact Shallow.ktP_le _ _) d (withCtx (CTW.mkcontext d false) (drawn [] xs)) (by
      intro p hp
      obtain ⟨o, ho, rfl⟩ := List.mem_map.mp hp
      exact ⟨by rw [Patterns.mkcontext_eq hd, List.length_reverse, Patterns.lastBits_length], Patterns.weight_drawn xs [] o ho⟩)
  rw [← he, Shallow.err_withCtx hd] at h1
  have h2 : Real.exp r ≤ (1 / 4) ^ k := h1.trans (pow_le_pow_of_le_one (by norm_num) (by norm_num) (hk fun c => f c.reverse))
  have h3 := Real.log_le_log (Real.exp_pos r) h2
  rw [Real.log_exp, Real.log_pow, one_div, Real.log_inv, show (4 : ℝ) = 2 ^ 2 by norm_num, Real.log_pow] at h3
  push_cast at h3
  linarith

namespace Shallow

theorem errors_append {α : Type} [DecidableEq α] (g : List α → α) : ∀ xs ys h : List α, errors g h (xs ++ ys) = errors g h xs + errors g (h ++ xs) ys
  | [], ys, h => by simp [errors]
  | x :: xs, ys, h => by
    rw [List.cons_append, errors, errors, errors_append g xs ys, List.append_assoc, List.singleton_append]
    ring

theorem lastBits_zeros (d j : ℕ) (hj : d ≤ j) (h : List Bool) : lastBits d (h ++ List.replicate j false) = List.replicate d false := by
  rw [lastBits, ← List.append_assoc, List.drop_append, List.length_append, List.length_append, List.length_replicate, List.length_replicate,
    List.drop_eq_nil_of_le (by simp; omega), List.nil_append, List.drop_replicate]
  congr 1
  omega

theorem block_errors (d : ℕ) (f : List Bool → Bool) (h : List Bool) : 1 ≤ errors (fun h => f (lastBits d h)) h (List.replicate (d + 1) false ++ [true]) := by
  rw [List.replicate_succ', List.append_assoc, errors_append, List.singleton_append, errors, errors, errors, List.append_assoc, ← List.replicate_succ',
    lastBits_zeros d d le_rfl, lastBits_zeros d (d + 1) (by omega)]
  cases f (List.replicate d false) <;> simp

theorem blocks_errors (d : ℕ) (f : List Bool → Bool) : ∀ (b : ℕ) (h : List Bool),
    b ≤ errors (fun h => f (lastBits d h)) h (List.replicate b (List.replicate (d + 1) false ++ [true])).flatten
  | 0, h => Nat.zero_le _
  | b + 1, h => by
    rw [List.replicate_succ, List.flatten_cons, errors_append]
    have h1 := block_errors d f h
    have h2 := blocks_errors d f b (h ++ (List.replicate (d + 1) false ++ [true]))
    omega

end Shallow

/-- **C178 (too small a depth).** For every depth `d` there is a sequence of period `d + 2` on which `CTW` of depth `d` loses at least two bits in each
period, while `CTW` of any greater depth from `d + 2` on learns it (C177). -/
theorem C178_too_small (d : ℕ) (hd : 1 ≤ d) (b : ℕ) :
    let xs := (List.replicate b (List.replicate (d + 1) false ++ [true])).flatten
    Periodic (d + 2) xs ∧ xs.length = b * (d + 2) ∧
    ∃ r n t, (CTW.predictor KTBinary.predictor (KTBinary.init none) (CTW.mkcontext d false)).run (CTW.init (KTBinary.init none)) (drawn [] xs) = .ok (r, n) ∧
      (KNode.predictor d).run KNode.new (drawn [] xs) = .ok (r, t) ∧ 2 * b * Real.log 2 ≤ -r := by
  intro xs
  have hl : ∀ b : ℕ, ((List.replicate b (List.replicate (d + 1) false ++ [true])).flatten).length = b * (d + 2) := by
    intro b
    simp
  refine ⟨?_, hl b, C178_at_least xs d hd b fun f => Shallow.blocks_errors d f b []⟩
  intro i hi
  cases b with
  | zero => simp [xs] at hi
  | succ b =>
    have e1 : xs = (List.replicate (d + 1) false ++ [true]) ++ (List.replicate b (List.replicate (d + 1) false ++ [true])).flatten := by
      simp [xs, List.replicate_succ]
    have e2 : xs = (List.replicate b (List.replicate (d + 1) false ++ [true])).flatten ++ (List.replicate (d + 1) false ++ [true]) := by
      simp [xs, List.replicate_succ']
    have hx : xs.length = (b + 1) * (d + 2) := hl (b + 1)
    have hi' : i < b * (d + 2) := by
      rw [hx] at hi
      have : (b + 1) * (d + 2) = b * (d + 2) + (d + 2) := by ring
      omega
    have l1 : xs[i + (d + 2)]? = ((List.replicate b (List.replicate (d + 1) false ++ [true])).flatten)[i]? := by
      rw [e1, List.getElem?_append_right (by simp)]
      congr 1
      simp
    have l2 : xs[i]? = ((List.replicate b (List.replicate (d + 1) false ++ [true])).flatten)[i]? := by
      rw [e2, List.getElem?_append_left (by rw [hl]; exact hi')]
    rw [l1, l2]

/-- For depth one the sequence is 0, 0, 1, 0, 0, 1; the rule that every bit is as the one before is wrong three times. -/
example : (List.replicate 2 (List.replicate (1 + 1) false ++ [true])).flatten = [false, false, true, false, false, true] ∧
    errors (fun h => (fun c => c == [true]) (lastBits 1 h)) [] [false, false, true, false, false, true] = 3 := by decide

end Verif
