import Verif.Model.CTWDepth
import Verif.Proofs.ContextCode
import Verif.Props.CTW

/-!
# C162: contexts of different lengths

`CTW` takes a context function from its caller.  It is a model exactly if no context is the end of another.
-/

namespace Verif

open Predictor

/-- No context is the end of another one. -/
def SuffixFree {α κ : Type} (ctx : List α → List κ) : Prop := ∀ h h', ctx h' <:+ ctx h → ctx h' = ctx h

namespace ContextCode

variable {σ κ α : Type} [DecidableEq κ]

/-- The reversed contexts. -/
def codes (ctx : List α → List κ) (l : List κ) : Prop := ∃ h, l = (ctx h).reverse

theorem prefixFree {ctx : List α → List κ} (hs : SuffixFree ctx) : CTWNode.PrefixFree (codes ctx) := by
  rintro p q ⟨h, rfl⟩ ⟨h', e⟩
  have h1 : ctx h' = q.reverse ++ ctx h := by
    have := congrArg List.reverse e
    simpa using this.symm
  have h2 := hs h' h ⟨_, h1.symm⟩
  rw [← h2] at h1
  have := congrArg List.length h1
  simp only [List.length_append, List.length_reverse] at this
  exact List.length_eq_zero_iff.mp (by omega)

/-- The tree after one update along a path, where the base model returned `r` and became `b`. -/
def trail (b : σ) (r : ℝ) : List κ → CTWNode σ κ
  | [] => .mk b r 0 r fun _ => none
  | c :: p => .mk b r r r (Function.update (fun _ => none) c (some (trail b r p)))

theorem update_trail {P : Predictor σ α} {fresh b : σ} {a : α} {h : List α} {w r : ℝ} (hb : P.update fresh a h w = .ok (r, b)) (p : List κ) :
    CTWNode.update P fresh a h w p (CTWNode.new fresh) = .ok (r, trail b r p) := by
  induction p with
  | nil =>
    simp only [CTWNode.update, CTWNode.new, CTWNode.base_mk, CTWNode.baseLP_mk, CTWNode.childrenLP_mk, CTWNode.lp_mk, CTWNode.children_mk, hb,
      ok_bind, pure_eq_ok, trail, zero_add, sub_zero]
  | cons c p ih =>
    simp only [CTWNode.update, CTWNode.new, CTWNode.base_mk, CTWNode.baseLP_mk, CTWNode.childrenLP_mk, CTWNode.lp_mk, CTWNode.children_mk, hb,
      ok_bind, Option.getD_none] at ih ⊢
    rw [ih]
    simp only [ok_bind, pure_eq_ok, trail, zero_add, sub_zero, logsumexp2_self]

theorem sum_new {P : Predictor σ α} {fresh : σ} {I : σ → Prop} {A : List α} {W : ℝ → Prop} (hP : P.Lawful I A W) (hf : I fresh) (h : List α)
    (q : List κ) : (A.map fun x => probOf (CTWNode.logPredict P fresh x h q (CTWNode.new fresh))).sum = 1 := by
  have hC : CTWNode.PrefixFree (fun l => l = q) := by
    rintro p l rfl h
    simpa using h
  have := (CTWNode.Coded.lawful (fresh := fresh) hP hC (ctx := fun _ : List α => q.reverse) (by simp)).normalised (CTWNode.new fresh) h
    (CTWNode.Coded.new hf _)
  simpa [CTW.predictor] using this

theorem sum_trail {P : Predictor σ α} {fresh b : σ} {I : σ → Prop} {A : List α} {W : ℝ → Prop} (hP : P.Lawful I A W) (hf : I fresh) (hbI : I b)
    (r : ℝ) (h : List α) (p q : List κ) (c : κ) :
    (A.map fun x => probOf (CTWNode.logPredict P fresh x h (p ++ c :: q) (trail b r p))).sum = 1 + (Real.exp (-r) - 1) / 2 ^ (p.length + 1) := by
  have hbase := hP.normalised b h hbI
  induction p with
  | nil =>
    have hnew := sum_new hP hf h q
    have e : ∀ x ∈ A, probOf (CTWNode.logPredict P fresh x h ([] ++ c :: q) (trail b r [])) =
        1 / 2 * probOf (P.logPredict b x h) + 1 / 2 * Real.exp (-r) * probOf (CTWNode.logPredict P fresh x h q (CTWNode.new fresh)) := by
      intro x hx
      obtain ⟨r1, b1, hb1, -⟩ := hP.predict_ok b x h hbI hx
      obtain ⟨r2, n2, hn2, -⟩ := (CTWNode.Coded.new (κ := κ) hf fun _ => True).predict_ok (ctx := q) hP.predict_ok hx h
      simp only [List.nil_append, trail, CTWNode.logPredict, CTWNode.base_mk, CTWNode.baseLP_mk, CTWNode.childrenLP_mk, CTWNode.lp_mk,
        CTWNode.children_mk, Option.getD_none, hb1, hn2, ok_bind, pure_eq_ok, probOf_ok]
      rw [Real.exp_sub, exp_half_lse2, zero_add, Real.exp_add, Real.exp_neg]
      have := Real.exp_pos r
      field_simp
    rw [List.map_congr_left e, List.sum_map_add, List.sum_map_mul_left, List.sum_map_mul_left, hbase, hnew]
    simp
    ring
  | cons d p ih =>
    have e : ∀ x ∈ A, probOf (CTWNode.logPredict P fresh x h (d :: p ++ c :: q) (trail b r (d :: p))) =
        1 / 2 * probOf (P.logPredict b x h) + 1 / 2 * probOf (CTWNode.logPredict P fresh x h (p ++ c :: q) (trail b r p)) := by
      intro x hx
      obtain ⟨r1, b1, hb1, -⟩ := hP.predict_ok b x h hbI hx
      have ht : ∃ r2 n2, CTWNode.logPredict P fresh x h (p ++ c :: q) (trail b r p) = .ok (r2, n2) := by
        have : CTWNode.Coded fresh I (fun _ => False) (trail b r p : CTWNode σ κ) := by
          intro p'
          refine ⟨?_, by simp, by simp⟩
          clear ih
          induction p generalizing p' with
          | nil =>
            rcases p' with _ | ⟨x', p'⟩
            · exact hbI
            · simp only [trail, CTWNode.down, CTWNode.children_mk, Option.getD_none, CTWNode.down_new]
              exact hf
          | cons y p ihp =>
            rcases p' with _ | ⟨x', p'⟩
            · exact hbI
            · simp only [trail, CTWNode.down, CTWNode.children_mk]
              by_cases e : x' = y
              · subst e
                simpa using ihp p'
              · rw [Function.update_of_ne e]
                simp only [Option.getD_none, CTWNode.down_new]
                exact hf
        obtain ⟨r2, n2, hn2, -⟩ := this.predict_ok (ctx := p ++ c :: q) hP.predict_ok hx h
        exact ⟨r2, n2, hn2⟩
      obtain ⟨r2, n2, hn2⟩ := ht
      simp only [List.cons_append, trail, CTWNode.logPredict, CTWNode.base_mk, CTWNode.baseLP_mk, CTWNode.childrenLP_mk, CTWNode.lp_mk,
        CTWNode.children_mk, Function.update_self, Option.getD_some, hb1, hn2, ok_bind, pure_eq_ok, probOf_ok]
      rw [Real.exp_sub, exp_half_lse2, Real.exp_add, Real.exp_add]
      have := Real.exp_pos r
      field_simp
    rw [List.map_congr_left e, List.sum_map_add, List.sum_map_mul_left, List.sum_map_mul_left, hbase, ih, List.length_cons, pow_succ _ (p.length + 1)]
    field_simp
    ring

end ContextCode

open ContextCode

section

variable {σ κ α : Type} [DecidableEq κ] (P : Predictor σ α) (fresh : σ) (I : σ → Prop) (A : List α) (W : ℝ → Prop) (ctx : List α → List κ)

/-- **C162 (contexts none of which is the end of another).** With such a context function, whatever the lengths of the contexts, `CTW` is a
model: after any updates its updates and predictions do not raise, the probabilities of the next symbol sum to one, and `log_predict`
returns what `update` returns. -/
theorem C162_lawful (hs : SuffixFree ctx) (hP : P.Lawful I A W) (hf : I fresh) :
    ∃ J : CTWNode σ κ → Prop, J (CTW.init fresh) ∧ (CTW.predictor P fresh ctx).Lawful J A W :=
  ⟨_, CTWNode.Coded.new hf _, CTWNode.Coded.lawful hP (prefixFree hs) fun h => ⟨h, rfl⟩⟩

/-- **C162 (updates only).** The same over base models of which only `update` is known. -/
theorem C162_updateLawful (hs : SuffixFree ctx) (hP : P.UpdateLawful I A W) (hf : I fresh) :
    ∃ J : CTWNode σ κ → Prop, J (CTW.init fresh) ∧ (CTW.predictor P fresh ctx).UpdateLawful J A W :=
  ⟨_, CTWNode.Coded.new hf _, CTWNode.Coded.updateLawful hP (prefixFree hs) fun h => ⟨h, rfl⟩⟩

/-- **C162 (a context that is the end of another).** If the context of `h'` is a proper end of that of `h`, then after one symbol with the
history `h'`, to which the base model gave the probability `exp r`, the predictions with the history `h` sum to
`1 + (1 / exp r - 1) / 2 ^ (n + 1)`, where `n` is the length of the shorter context. -/
theorem C162_excess (hP : P.Lawful I A W) (hf : I fresh) (h h' : List α) (hsuf : ctx h' <:+ ctx h) (hne : ctx h' ≠ ctx h) (a : α) (ha : a ∈ A)
    (w : ℝ) (hw : W w) (r : ℝ) (b : σ) (hb : P.update fresh a h' w = .ok (r, b)) :
    ∃ n, (CTW.predictor P fresh ctx).update (CTW.init fresh) a h' w = .ok (r, n) ∧
      (A.map fun x => probOf ((CTW.predictor P fresh ctx).logPredict n x h)).sum = 1 + (1 / Real.exp r - 1) / 2 ^ ((ctx h').length + 1) := by
  have hbI : I b := by
    obtain ⟨r', b', e, hI⟩ := hP.update_ok fresh a h' w hf ha hw
    rw [hb] at e
    cases e
    exact hI
  refine ⟨trail b r (ctx h').reverse, update_trail hb _, ?_⟩
  obtain ⟨u, hu⟩ := hsuf
  rcases List.eq_nil_or_concat u with rfl | ⟨u', c, rfl⟩
  · exact absurd (by simpa using hu) hne
  · have e : (ctx h).reverse = (ctx h').reverse ++ c :: u'.reverse := by
      rw [← hu]
      simp
    have := sum_trail (b := b) hP hf hbI r h (ctx h').reverse u'.reverse c
    rw [← e, List.length_reverse, Real.exp_neg, inv_eq_one_div] at this
    exact this

/-- **C162 (exactly).** Over a base model that gives its first symbol, whichever it is and with any history, a probability below one, `CTW` is
a model exactly if no context is the end of another one. -/
theorem C162_exactly (hP : P.Lawful I A W) (hf : I fresh) (a : α) (ha : a ∈ A) (w : ℝ) (hw : W w)
    (hlt : ∀ h r b, P.update fresh a h w = .ok (r, b) → Real.exp r < 1) :
    (∃ J : CTWNode σ κ → Prop, J (CTW.init fresh) ∧ (CTW.predictor P fresh ctx).Lawful J A W) ↔ SuffixFree ctx := by
  refine ⟨?_, fun hs => C162_lawful P fresh I A W ctx hs hP hf⟩
  rintro ⟨J, hJ, hL⟩ h h' hsuf
  by_contra hne
  obtain ⟨r, b, hb, -⟩ := hP.update_ok fresh a h' w hf ha hw
  obtain ⟨n, hn, hsum⟩ := C162_excess P fresh I A W ctx hP hf h h' hsuf hne a ha w hw r b hb
  obtain ⟨r', n', hn', hJ'⟩ := hL.update_ok _ a h' w hJ ha hw
  rw [hn] at hn'
  cases hn'
  rw [hL.normalised n h hJ'] at hsum
  have h1 := hlt h' r b hb
  have h2 : 1 < 1 / Real.exp r := by
    rw [lt_div_iff₀ (Real.exp_pos r), one_mul]
    exact h1
  have h3 : 0 < (1 / Real.exp r - 1) / 2 ^ ((ctx h').length + 1) := div_pos (by linarith) (by positivity)
  linarith

end

/-- **C162 (default contexts).** The default context function is of this kind exactly if the depth is not zero. -/
theorem C162_default {α : Type} (depth : ℕ) (zero : α) : SuffixFree (CTW.mkcontext depth zero) ↔ depth ≠ 0 := by
  constructor
  · rintro hs rfl
    have := hs [zero] [] (by simp [CTW.mkcontext, pyTail])
    simp [CTW.mkcontext, pyTail] at this
  · intro hd h h' hsuf
    have e1 := (C18_mkcontext_partial depth (by omega) zero h).1
    have e2 := (C18_mkcontext_partial depth (by omega) zero h').1
    exact hsuf.eq_of_length (by omega)

/-- **C162 (any depth).** With the default context function, `CTW` of `KTBinary` is a model exactly if the depth is positive. -/
theorem C162_depth (depth : ℤ) :
    (∃ J : CTWNode KTBinary Bool → Prop, J (CTW.init (KTBinary.init none)) ∧
      (CTW.predictor KTBinary.predictor (KTBinary.init none) (CTW.mkcontextInt depth false)).Lawful J [false, true] (fun w => 0 ≤ w)) ↔
      0 < depth := by
  rw [C162_exactly KTBinary.predictor (KTBinary.init none) _ _ _ _ KTBinary.lawful (by norm_num [KTBinary.init]) false (by simp) 1 zero_le_one]
  · constructor
    · intro hs
      by_contra hd
      by_cases h0 : depth = 0
      · subst h0
        have e : CTW.mkcontextInt 0 false = CTW.mkcontext 0 false := by
          funext x
          simp [CTW.mkcontextInt]
        rw [e, C162_default] at hs
        exact hs rfl
      · have hneg : ¬ 0 ≤ depth := by omega
        have := hs (List.replicate ((-depth).toNat + 1) false) (List.replicate (-depth).toNat false)
        simp [CTW.mkcontextInt, hneg] at this
    · intro hd
      have e : CTW.mkcontextInt depth false = CTW.mkcontext depth.toNat false := by
        funext x
        simp [CTW.mkcontextInt, hd.le]
      rw [e, C162_default]
      omega
  · intro h r b hb
    have : KTBinary.predictor.update (KTBinary.init none) false h 1 = .ok (Real.log (1 / 2), ⟨1 / 2 + 1, 1 / 2⟩) := by
      norm_num [KTBinary.predictor, KTBinary.update, KTBinary.logPredict, KTBinary.init, KTBinary.get, KTBinary.bump, pyDiv, pyLog, ok_bind, pure_eq_ok]
    rw [this] at hb
    cases hb
    rw [Real.exp_log (by norm_num)]
    norm_num

/-- A context function with contexts of lengths one and two, none the end of another: the last bit if it is 1, otherwise the last two. -/
example : SuffixFree fun h : List Bool => if h.getLastD false then [true] else [(h.dropLast).getLastD false, false] := by
  intro h h' hsuf
  simp only at hsuf ⊢
  cases e1 : h'.getLastD false <;> cases e2 : h.getLastD false <;> simp only [e1, e2, if_true, Bool.false_eq_true, if_false] at hsuf ⊢
  · exact hsuf.eq_of_length (by simp)
  · exact absurd hsuf.length_le (by simp)
  · obtain ⟨u, hu⟩ := hsuf
    have := congrArg List.getLast? hu
    simp at this

end Verif
