import Verif.Proofs.Minimax
import Verif.Props.Compose
import Verif.Props.Mixtures
import Verif.Props.OneWrong

/-!
# C157: how good a model can be

No model is better than another on every sequence; and the KT estimator is within one bit of the best that any model can do in the worst
case against coins.
-/

namespace Verif

open Predictor Redundancy

namespace Minimax

theorem mem_words {α : Type} {A : List α} : ∀ {n : ℕ} {xs : List α}, xs ∈ words A n → xs.length = n ∧ ∀ x ∈ xs, x ∈ A
  | 0, xs, h => by
    rw [words, List.mem_singleton] at h
    subst h
    simp
  | n + 1, xs, h => by
    rw [words, List.mem_flatMap] at h
    obtain ⟨a, ha, h⟩ := h
    obtain ⟨ys, hy, rfl⟩ := List.mem_map.mp h
    obtain ⟨h1, h2⟩ := mem_words hy
    refine ⟨by simp [h1], ?_⟩
    intro x hx
    rcases List.mem_cons.mp hx with rfl | hx
    · exact ha
    · exact h2 x hx

theorem exists_le {β : Type} (f g : β → ℝ) : ∀ l : List β, l ≠ [] → (l.map f).sum ≤ (l.map g).sum → ∃ b ∈ l, f b ≤ g b := by
  intro l hl h
  by_contra hno
  push Not at hno
  have := List.sum_lt_sum_of_ne_nil hl g f hno
  linarith

end Minimax

variable {σ τ α : Type} {P : Predictor σ α} {Q : Predictor τ α} {I : σ → Prop} {J : τ → Prop} {A : List α} {V W : ℝ → Prop}

/-- **C157 (no model is better on every sequence).** For any two models over the same alphabet, in any two states, and for every length
there is a sequence of symbols to which the first gives no more probability than the second. -/
theorem C157_no_better (hP : P.UpdateLawful I A V) (hV : V 1) (hQ : Q.UpdateLawful J A W) (hW : W 1) (s : σ) (hs : I s) (t : τ) (ht : J t)
    (n : ℕ) (h : List α) :
    ∃ xs : List α, xs.length = n ∧ (∀ x ∈ xs, x ∈ A) ∧ P.seqProb s (drawn h xs) ≤ Q.seqProb t (drawn h xs) := by
  classical
  have h1 := Compose.words_sum hP hV n s h hs
  have h2 := Compose.words_sum hQ hW n t h ht
  have hne : words A n ≠ [] := by
    intro e
    rw [e] at h1
    simp at h1
  obtain ⟨xs, hm, hx⟩ := Minimax.exists_le _ _ _ hne (h1.trans h2.symm).le
  obtain ⟨e1, e2⟩ := Minimax.mem_words hm
  exact ⟨xs, e1, e2, hx⟩

/-- **C157 (every sequence costs the KT estimator about half a logarithm).** On every sequence of `n ≥ 1` bits, the loss of `KTBinary`
is more than that of the best coin, by at least `log n / 2` and at most `log n / 2 + log 2`. -/
theorem C157_KTBinary (xs : List (Obs Bool)) (hw : ∀ o ∈ xs, o.weight = 1) (hne : xs ≠ []) :
    ∃ r s, KTBinary.predictor.run (KTBinary.init none) xs = .ok (r, s) ∧
      (∃ θ, 0 ≤ θ ∧ θ ≤ 1 ∧ 0 < bernProb θ xs ∧ -Real.log (bernProb θ xs) + 1 / 2 * Real.log xs.length ≤ -r) ∧
      ∀ θ, 0 ≤ θ → θ ≤ 1 → 0 < bernProb θ xs → -r ≤ -Real.log (bernProb θ xs) + 1 / 2 * Real.log xs.length + Real.log 2 := by
  obtain ⟨r, s, hr, hp⟩ := run_ktP hw 0 0
  have e : KTBinary.init none = ⟨((0 : ℕ) : ℝ) + 1 / 2, ((0 : ℕ) : ℝ) + 1 / 2⟩ := by simp [KTBinary.init]
  rw [← e] at hr
  have hp' : Real.exp r = ktP (zeros xs) (ones xs) := by simpa [ktP, rise] using hp
  have hlen := zeros_add_ones xs
  have hn : 1 ≤ xs.length := List.length_pos_of_ne_nil hne
  have hn' : (0 : ℝ) < xs.length := by exact_mod_cast hn
  have hsq : 0 < √(xs.length : ℝ) := Real.sqrt_pos.mpr hn'
  refine ⟨r, s, hr, ⟨(ones xs : ℝ) / xs.length, by positivity, ?_, ?_⟩, ?_⟩
  · rw [div_le_one hn']
    exact_mod_cast (by omega : ones xs ≤ xs.length)
  · have h1 := bern_best (a := zeros xs) (b := ones xs) (by omega)
    rw [hlen, ← hp', ← bernProb_eq] at h1
    have h2 : 0 < √(xs.length : ℝ) * Real.exp r := by positivity
    refine ⟨h2.trans_le h1, ?_⟩
    have h3 := Real.log_le_log h2 h1
    rw [Real.log_mul hsq.ne' (Real.exp_pos r).ne', Real.log_exp, Real.log_sqrt hn'.le] at h3
    linarith
  · intro θ h0 h1 hpos
    have h2 := bern_le_ktP (a := zeros xs) (b := ones xs) (by omega) h0 h1
    rw [hlen, ← hp', ← bernProb_eq] at h2
    have h3 := Real.log_le_log hpos h2
    rw [Real.log_mul (by positivity) (Real.exp_pos r).ne', Real.log_exp, Real.log_mul (by norm_num) hsq.ne', Real.log_sqrt hn'.le] at h3
    linarith

/-- **C157 (and no model does better in the worst case).** For every model of bits and every length `n ≥ 1` there is a sequence on which
the loss of the model is at least `log n / 2` more than that of some coin; the KT estimator is never worse by more than `log 2`, one bit,
than this. -/
theorem C157_worst_case {P : Predictor σ Bool} (hP : P.UpdateLawful I [false, true] V) (hV : V 1) (s : σ) (hs : I s) (n : ℕ) (hn : 1 ≤ n)
    (h : List Bool) :
    ∃ xs : List Bool, xs.length = n ∧ ∃ r t θ, P.run s (drawn h xs) = .ok (r, t) ∧ 0 ≤ θ ∧ θ ≤ 1 ∧ 0 < bernProb θ (drawn h xs) ∧
      -Real.log (bernProb θ (drawn h xs)) + 1 / 2 * Real.log n ≤ -r := by
  obtain ⟨xs, h1, h2, h3⟩ := C157_no_better hP hV KTBinary.lawful.updateLawful zero_le_one s hs (KTBinary.init none)
    (by norm_num [KTBinary.init]) n h
  have hw := drawn_mem (h := h) h2
  have hl : (drawn h xs).length = n := by rw [drawn_length, h1]
  obtain ⟨r', s', hr', ⟨θ, e1, e2, e3, e4⟩, -⟩ := C157_KTBinary (drawn h xs) (fun o ho => (hw o ho).2) (by
    intro e
    rw [e] at hl
    simp at hl
    omega)
  obtain ⟨r, t, hr, -⟩ := hP.run_ok (xs := drawn h xs) hs (fun o ho => ⟨(hw o ho).1, (hw o ho).2 ▸ hV⟩)
  refine ⟨xs, h1, r, t, θ, hr, e1, e2, e3, ?_⟩
  rw [seqProb_of_run hr, seqProb_of_run hr', Real.exp_le_exp] at h3
  rw [hl] at e4
  linarith

/-- **C157 (whatever is put together).** The same for anything put together from the classes of model.py: no combination avoids the half
logarithm. -/
theorem C157_worst_case_built {P : Predictor σ Bool} {cp co : Bool} {s : σ} (hb : Built [false, true] cp co σ P s) (n : ℕ) (hn : 1 ≤ n)
    (h : List Bool) :
    ∃ xs : List Bool, xs.length = n ∧ ∃ r t θ, P.run s (drawn h xs) = .ok (r, t) ∧ 0 ≤ θ ∧ θ ≤ 1 ∧ 0 < bernProb θ (drawn h xs) ∧
      -Real.log (bernProb θ (drawn h xs)) + 1 / 2 * Real.log n ≤ -r :=
  C157_worst_case Compose.fine_update zero_le_one s (Compose.fine (by simp) (by simp) hb) n hn h

/-- **C157 (the loss of an average).** The `log k` that an `Averager` of `k` models may lose (C10) cannot be improved: for every `k ≥ 1`
and every `ε > 0` there are `k` models and a sequence on which it loses `log k - ε` more than the best of them. -/
theorem C157_Averager (k : ℕ) (hk : 1 ≤ k) (ε : ℝ) (hε : 0 < ε) :
    ∃ (m : KTBinary) (ms : List KTBinary) (s0 : Averager KTBinary) (r : ℝ) (s : Averager KTBinary) (r' : ℝ) (m' : KTBinary),
      (m :: ms).length = k ∧ (∀ q ∈ m :: ms, 0 < q.c0 ∧ 0 < q.c1) ∧ Averager.init (m :: ms) = .ok s0 ∧
      (Averager.predictor KTBinary.predictor).run s0 [⟨true, [], 1⟩] = .ok (r, s) ∧
      KTBinary.predictor.run m [⟨true, [], 1⟩] = .ok (r', m') ∧ Real.log k - ε ≤ -r - -r' := by
  have hk' : (0 : ℝ) < k := by exact_mod_cast hk
  set c : ℝ := k / ε with hc
  have hc0 : 0 < c := by positivity
  have hone : ∀ a b : ℝ, 0 < a → 0 < b → KTBinary.predictor.run ⟨a, b⟩ [⟨true, [], 1⟩] = .ok (Real.log (b / (a + b)), ⟨a, b + 1⟩) := by
    intro a b ha hb
    have h1 : a + b ≠ 0 := by positivity
    have h2 : 0 < b / (a + b) := by positivity
    simp [run, KTBinary.predictor, KTBinary.update, KTBinary.logPredict, KTBinary.get, KTBinary.bump, pyDiv, pyLog, h1, h2, ok_bind, pure_eq_ok]
  have hm := hone 1 c one_pos hc0
  have hq := hone c 1 hc0 one_pos
  obtain ⟨s0, h0, h1, h2⟩ := C08_Averager_mixture (P := KTBinary.predictor) (⟨1, c⟩ :: List.replicate (k - 1) ⟨c, 1⟩) (by simp)
    [⟨true, [], 1⟩]
  obtain ⟨r, s, hr⟩ := h1.mpr (by
    intro q hq'
    rcases List.mem_cons.mp hq' with rfl | hq'
    · exact ⟨_, _, hm⟩
    · rw [List.eq_of_mem_replicate hq']
      exact ⟨_, _, hq⟩)
  refine ⟨⟨1, c⟩, List.replicate (k - 1) ⟨c, 1⟩, s0, r, s, _, _, by simp; omega, ?_, h0, hr, hm, ?_⟩
  · intro q hq'
    rcases List.mem_cons.mp hq' with rfl | hq'
    · exact ⟨one_pos, hc0⟩
    · rw [List.eq_of_mem_replicate hq']
      exact ⟨hc0, one_pos⟩
  · have h3 := (h2 r s hr).1
    simp only [List.map_cons, List.map_replicate, List.sum_cons, List.sum_replicate, seqProb_of_run hm, seqProb_of_run hq, List.length_cons,
      List.length_replicate, nsmul_eq_mul] at h3
    rw [Nat.sub_add_cancel hk, Real.exp_log (by positivity), Real.exp_log (by positivity), Nat.cast_sub hk, Nat.cast_one] at h3
    have h4 : Real.exp r = (c + (k - 1)) / (c + 1) / k := by
      rw [h3, add_comm 1 c]
      field_simp
    have hk1 : (1 : ℝ) ≤ k := by exact_mod_cast hk
    have h5 : 0 < c + ((k : ℝ) - 1) := by linarith
    have h6 : r = Real.log (c + (k - 1)) - Real.log (c + 1) - Real.log k := by
      rw [← Real.log_exp r, h4, Real.log_div (by positivity) hk'.ne', Real.log_div h5.ne' (by positivity)]
    rw [h6, Real.log_div hc0.ne' (by positivity), add_comm 1 c]
    have h7 : Real.log (c + (k - 1)) - Real.log c ≤ ε := by
      rw [← Real.log_div h5.ne' hc0.ne']
      refine (Real.log_le_sub_one_of_pos (by positivity)).trans ?_
      rw [add_div, div_self hc0.ne', add_sub_cancel_left, div_le_iff₀ hc0, hc, mul_div_cancel₀ _ hε.ne']
      linarith
    linarith

/-- The hypotheses of `C157_worst_case_built` hold for a partition tree over the KT estimator: on some sequence of a thousand bits it loses
three nats against a coin. -/
example (k : KT Bool) (hk : KT.init [false, true] none = .ok k) : ∃ xs : List Bool, xs.length = 1000 ∧ ∃ r t θ,
    (PTW.predictor KT.predictor k 0).run (PTW.init k 0) (drawn [] xs) = .ok (r, t) ∧ 0 ≤ θ ∧ θ ≤ 1 ∧
      0 < bernProb θ (drawn [] xs) ∧ -Real.log (bernProb θ (drawn [] xs)) + 3 ≤ -r := by
  obtain ⟨xs, h1, r, t, θ, h2, h3, h4, h5, h6⟩ := C157_worst_case_built (Built.ptw 0 (Built.kt hk)) 1000 (by norm_num) []
  refine ⟨xs, h1, r, t, θ, h2, h3, h4, h5, ?_⟩
  have h7 : (6 : ℝ) ≤ Real.log 1000 := by
    rw [Real.le_log_iff_exp_le (by norm_num), show (6 : ℝ) = ((6 : ℕ) : ℝ) * 1 by norm_num, Real.exp_nat_mul]
    refine (pow_le_pow_left₀ (Real.exp_pos 1).le (Real.exp_one_lt_d9.le.trans (by norm_num : _ ≤ (3 : ℝ))) 6).trans ?_
    norm_num
  push_cast at h6
  linarith

/-- On a thousand bits the KT estimator is between three and five nats behind the best coin, whatever the bits. -/
example (xs : List (Obs Bool)) (hw : ∀ o ∈ xs, o.weight = 1) (hl : xs.length = 1000) :
    ∃ r s, KTBinary.predictor.run (KTBinary.init none) xs = .ok (r, s) ∧
      (∃ θ, 0 ≤ θ ∧ θ ≤ 1 ∧ 0 < bernProb θ xs ∧ -Real.log (bernProb θ xs) + 1 / 2 * Real.log 1000 ≤ -r) ∧
      ∀ θ, 0 ≤ θ → θ ≤ 1 → 0 < bernProb θ xs → -r ≤ -Real.log (bernProb θ xs) + 1 / 2 * Real.log 1000 + Real.log 2 := by
  have := C157_KTBinary xs hw (by
    rintro rfl
    simp at hl)
  rw [hl] at this
  exact_mod_cast this

end Verif
