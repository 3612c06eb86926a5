import Verif.Spec.RoundingFast
import Verif.Proofs.RoundingFastAlphabet
import Verif.Props.CTWHeap
import Verif.Props.RoundingAC
import Verif.Props.RoundingPredict

/-!
# C131: `CTW`, `CTW_KT` and the C code return the same digits
-/

namespace Verif

open Predictor Arith Layer

variable {R : Arith} {ε : ℝ}

/-- **C131 (exact arithmetic).** With exact arithmetic the two models are those of C19 and C22. -/
theorem C131_exact (k depth : ℕ) [NeZero k] :
    Arith.exact.kPredictor depth = KNode.predictor depth ∧ (Arith.exact.cPredictor k depth).update = (Fast.predictor k depth).update ∧
      (Arith.exact.cPredictor k depth).logPredict = (Fast.predictor k depth).logPredict ∧ Arith.exact.cFresh k = Fast.fresh k := by
  have hl : ∀ v1 v2, Arith.exact.logsumexp2 v1 v2 = .ok (Verif.logsumexp2 v1 v2) :=
    (C99_exact (κ := Bool) KTBinary.predictor (KTBinary.init none) (fun _ => [])).2.2.2
  have hc : ∀ v1 v2, Arith.exact.cLogsumexp2 v1 v2 = Verif.logsumexp2 v1 v2 := by
    intro v1 v2
    have := hl v1 v2
    have hA : Arith.exact.Accurate 0 := ⟨le_rfl, by norm_num, by simp [Arith.exact], by simp [Arith.exact], by simp [Arith.exact], by simp [Arith.exact],
      by simp [Arith.exact], fun x _ => by simp [Arith.exact, Real.exp_nonneg]⟩
    rw [Fast.lse_eq hA (fun x y => add_comm x y)] at this
    exact Except.ok.inj this
  have hs : ∀ s : Fin k → ℝ, Arith.exact.cSum s = ((List.finRange k).map s).sum := by
    intro s
    rw [cSum, List.sum_eq_foldl, List.foldl_map]
    rfl
  have hr : ∀ (s : Fin k → ℝ) a, Arith.exact.cRatio s a = Fast.logRatio s a := by
    intro s a
    rw [cRatio, hs]
    rfl
  have hk : ∀ (c : KTBinary) (a : Bool) (f : ℝ → Py (ℝ × KNode)),
      ((Arith.exact.pyDiv (c.get a) (Arith.exact.add c.c0 c.c1)) >>= fun q => Arith.exact.pyLog q >>= f) = (KNode.logRatio c a >>= f) := by
    intro c a f
    rw [KNode.logRatio, bind_assoc]
    rfl
  have hu : ∀ s a h w, (Fast.kt k).update s a h w = .ok (Fast.logRatio s a, Function.update s a (s a + w)) := fun _ _ _ _ => rfl
  have hp : ∀ s a h, (Fast.kt k).logPredict s a h = .ok (Fast.logRatio s a, s) := fun _ _ _ => rfl
  refine ⟨?_, ?_, ?_, rfl⟩
  · have h1 : ∀ a w ctx n, Arith.exact.kUpdate a w ctx n = KNode.update a w ctx n := by
      intro a w ctx
      induction ctx with
      | nil =>
        intro n
        rw [kUpdate, KNode.update]
        simp only [hk]
        rfl
      | cons c cs ih =>
        intro n
        rw [kUpdate, KNode.update]
        simp only [hl, ih, ok_bind, hk]
        rfl
    have h2 : ∀ a ctx n, Arith.exact.kLogPredict a ctx n = KNode.logPredict a ctx n := by
      intro a ctx
      induction ctx with
      | nil =>
        intro n
        rw [kLogPredict, KNode.logPredict]
        simp only [hk]
        rfl
      | cons c cs ih =>
        intro n
        rw [kLogPredict, KNode.logPredict]
        simp only [hl, ih, ok_bind, hk]
        rfl
    simp only [kPredictor, KNode.predictor, h1, h2]
  · have h1 : ∀ a w h ctx n, Except.ok (Arith.exact.cUpdate (Fast.fresh k) a w ctx n) = CTWNode.update (Fast.kt k) (Fast.fresh k) a h w ctx n := by
      intro a w h ctx
      induction ctx with
      | nil =>
        intro n
        rw [cUpdate, CTWNode.update]
        simp only [hr]
        rfl
      | cons c cs ih =>
        intro n
        rw [cUpdate, CTWNode.update]
        simp only [hu, ok_bind, ← ih, hr, hc]
        rfl
    funext n a h w
    exact h1 a w h _ n
  · have h2 : ∀ a h ctx n, Except.ok (Arith.exact.cLogPredict (Fast.fresh k) a ctx n) = CTWNode.logPredict (Fast.kt k) (Fast.fresh k) a h ctx n := by
      intro a h ctx
      induction ctx with
      | nil =>
        intro n
        cases n
        rw [cLogPredict, CTWNode.logPredict]
        simp only [hr]
        rfl
      | cons c cs ih =>
        intro n
        rw [cLogPredict, CTWNode.logPredict]
        simp only [hp, ok_bind, ← ih, hr, hc]
        rfl
    funext n a h
    exact h2 a h _ n

/-- **C131 (the two Python models).** In every arithmetic, accurate or not, `model.CTW_KT(depth)` and `model.CTW(depth)` return the same numbers and raise the
same exceptions, at every call of any list of calls. -/
theorem C131_CTW_KT_eq_CTW (R : Arith) (depth : ℕ) (cs : List (Call Bool)) :
    (R.kPredictor depth).outputs KNode.new cs =
      (R.ctwPredictor R.ktPredictor (KTBinary.init none) (CTW.mkcontext depth false)).outputs (CTW.init (KTBinary.init none)) cs :=
  KNode.corr_new.rOutputs_eq R depth cs

/-- **C131 (the C code).** In an accurate and regular arithmetic the C code returns the same numbers as `model.CTW_KT`, to the last digit. -/
theorem C131_C_eq_python (hR : R.Accurate ε) (hr : R.Regular) (depth : ℕ) (hd : 1 ≤ depth) (cs : List (Call (Fin 2)))
    (hw : ∀ a h w, Call.update a h w ∈ cs → 0 ≤ w) :
    (R.cPredictor 2 depth).outputs (CTW.init (R.cFresh 2)) cs = (R.kPredictor depth).outputs KNode.new (cs.map (Call.map finTwoEquiv)) := by
  rw [C131_CTW_KT_eq_CTW]
  have hf : Fast.RBinR R (R.cFresh 2) (KTBinary.init none) := by
    have : ∀ i, R.cFresh 2 i = 1 / 2 := fun i => hr.half
    refine ⟨?_, ?_, ?_, ?_, ?_⟩ <;> simp only [this, hr.zero_half] <;> norm_num [KTBinary.init]
  have hctx : ∀ h : List (Fin 2), (CTW.mkcontext depth false (h.map Fast.bit)).reverse = (Fast.ctx depth h).reverse.map Fast.bit := by
    intro h
    rw [Fast.ctx_eq hd, ← Fast.bit_zero, Fast.map_mkcontext, List.map_reverse]
  refine Hom.outputs_eq (P := R.cPredictor 2 depth) (e := Fast.bit) (W := fun w => 0 ≤ w) (R := CTWNode.TCorr (Fast.RBinR R) Fast.bit)
    ⟨?_, ?_⟩ (CTWNode.tcorr_new hf) cs ?_
  · intro s t a h w hst hw
    have := Fast.c_update hR hr.comm hr.zero_add hf hst a (h.map Fast.bit) hw (Fast.ctx depth h).reverse
    rw [← hctx] at this
    exact this
  · intro s t a h hst
    have := Fast.c_logPredict hR hr.comm hf hst a (h.map Fast.bit) (Fast.ctx depth h).reverse
    rw [← hctx] at this
    exact this
  · intro c hc
    cases c with
    | update a h w => exact hw a h w hc
    | predict a h => trivial

/-- **C131 (double precision).** Double precision is regular. -/
theorem C131_double : Double.arith.Regular := by
  have hid : ∀ x, Double.fl (Double.fl x) = Double.fl x := by
    intro x
    obtain ⟨k, e, h1, h2⟩ := C113_double.2.1 x
    rw [h2, C113_double.2.2 k e h1]
  have hhalf : Double.fl (1 / 2) = 1 / 2 := by
    have := C113_double.2.2 1 (-1) (by norm_num)
    norm_num at this ⊢
    exact this
  refine ⟨?_, ?_, ?_, ?_⟩
  · intro x y
    show Double.fl (x + y) = Double.fl (y + x)
    rw [add_comm]
  · intro x y
    show Double.fl (0 + Double.fl (x + y)) = _
    rw [zero_add, hid]
    rfl
  · show Double.fl (0 + 1 / 2) = _
    rw [zero_add, hhalf]
  · exact hhalf

/-- **C131 (double precision, all three).** In double precision the C code, `model.CTW_KT` and `model.CTW` return the same numbers. -/
theorem C131_all_three (depth : ℕ) (hd : 1 ≤ depth) (cs : List (Call (Fin 2))) (hw : ∀ a h w, Call.update a h w ∈ cs → 0 ≤ w) :
    (Double.arith.cPredictor 2 depth).outputs (CTW.init (Double.arith.cFresh 2)) cs =
        (Double.arith.kPredictor depth).outputs KNode.new (cs.map (Call.map finTwoEquiv)) ∧
      (Double.arith.kPredictor depth).outputs KNode.new (cs.map (Call.map finTwoEquiv)) =
        (Double.arith.ctwPredictor Double.arith.ktPredictor (KTBinary.init none) (CTW.mkcontext depth false)).outputs (CTW.init (KTBinary.init none))
          (cs.map (Call.map finTwoEquiv)) :=
  ⟨C131_C_eq_python C113_double.1 C131_double depth hd cs hw, C131_CTW_KT_eq_CTW _ _ _⟩

theorem updates_map {α β : Type} (e : α → β) (cs : List (Call α)) : updates (cs.map (Call.map e)) = updates cs := by
  induction cs with
  | nil => rfl
  | cons c cs ih => cases c <;> simp [Call.map, updates, ih]

/-- **C131 (error of the C code).** Call `update` with weight 1 and `log_predict` in any order.  Every result of the C code in an accurate and regular arithmetic
is close to that of the C code in exact arithmetic, by the bound of C125. -/
theorem C131_error (hR : R.Accurate ε) (hr : R.Regular) (depth : ℕ) (hd : 1 ≤ depth) (cs : List (Call (Fin 2)))
    (hw : ∀ a h w, Call.update a h w ∈ cs → w = 1) (hε : 100 * (11 * depth + 4 : ℝ) * ε * (updates cs + 1) ≤ 1) :
    AllNear (2 * (11 * depth + 4) * ε * (updates cs + 1) ^ 2 * (10 * Real.log (2 * (updates cs + 1)) + 4))
      (R.cPredictor 2 depth) (CTW.init (R.cFresh 2)) (Fast.predictor 2 depth) (CTW.init (Fast.fresh 2)) cs := by
  have hw0 : ∀ a h w, Call.update a h w ∈ cs → 0 ≤ w := fun a h w hc => by rw [hw a h w hc]; norm_num
  have hc : (costOver 1 (updates cs + 1) [.ctw depth] : ℝ) = 11 * depth + 4 := by
    simp only [costOver]
    push_cast
    ring
  have key := C125_KTBinary hR [.ctw depth] (updates cs + 1) (cs.map (Call.map finTwoEquiv)) (by
    intro c hc
    obtain ⟨c', h1, rfl⟩ := List.mem_map.1 hc
    cases c' with
    | update a h w => exact ⟨by cases finTwoEquiv a <;> simp, hw a h w h1⟩
    | predict a h => show finTwoEquiv a ∈ [false, true]; cases finTwoEquiv a <;> simp)
    (by rw [updates_map]; exact Nat.lt_two_pow_self.le) (by simpa [Fits] using hd) (by rw [hc, updates_map]; push_cast; exact hε)
  rw [hc, updates_map] at key
  obtain ⟨k1, k2⟩ := key
  have e1 : (roundedOver R R.ktPredictor (KTBinary.init none) false [.ctw depth]).outputs (newOver Bool (KTBinary.init none) [.ctw depth])
      (cs.map (Call.map finTwoEquiv)) = (R.cPredictor 2 depth).outputs (CTW.init (R.cFresh 2)) cs := by
    rw [C131_C_eq_python hR hr depth hd cs hw0, C131_CTW_KT_eq_CTW]
    rfl
  have e2 : (exactOver KTBinary.predictor (KTBinary.init none) false [.ctw depth]).outputs (newOver Bool (KTBinary.init none) [.ctw depth])
      (cs.map (Call.map finTwoEquiv)) = (Fast.predictor 2 depth).outputs (CTW.init (Fast.fresh 2)) cs := by
    rw [C22_fast_eq_python depth hd cs hw0, C19_CTW_KT_eq_CTW]
    rfl
  rw [e1] at k1 k2
  rw [e2] at k2
  refine ⟨by rw [k1, List.length_map], ?_⟩
  push_cast at k2
  exact k2

/-- **C131 (error of the C code, any alphabet).** The same for `CTW_KT(depth, k)` with any alphabet size `k`, in any accurate arithmetic in which addition is
commutative. -/
theorem C131_error_alphabet (hR : R.Accurate ε) (hadd : ∀ x y, R.add x y = R.add y x) (k : ℕ) [NeZero k] (depth : ℕ) (hd : 1 ≤ depth) (cs : List (Call (Fin k)))
    (hw : ∀ a h w, Call.update a h w ∈ cs → w = 1) (hε : 100 * (k + 11 * depth + 4 : ℝ) * ε * (updates cs + 1) ≤ 1) :
    AllNear (2 * (k + 11 * depth + 4) * ε * (updates cs + 1) ^ 2 * (10 * Real.log (k * (updates cs + 2)) + 4))
      (R.cPredictor k depth) (CTW.init (R.cFresh k)) (Fast.predictor k depth) (CTW.init (Fast.fresh k)) cs := by
  have e0 := hR.nonneg
  have hc : (costOver (k + 1) (updates cs + 1) [.ctw depth] : ℝ) = k + 11 * depth + 4 := by
    simp only [costOver]
    push_cast
    ring
  have hk : (1 : ℝ) ≤ k := by exact_mod_cast Nat.pos_of_ne_zero (NeZero.ne k)
  have h1 : (1 : ℝ) ≤ (updates cs + 1 : ℕ) := by exact_mod_cast (by omega : 1 ≤ updates cs + 1)
  have hB := cktBase (k := k) hR (updates cs + 1)
  have hTd : ((updates cs + 1 : ℕ) : ℝ) = updates cs + 1 := by push_cast; rfl
  set T : ℝ := ((updates cs + 1 : ℕ) : ℝ) with hT
  have hρ : 69 / 100 ≤ Real.log (k * (T + 1)) := by
    have h2 : (2 : ℝ) ≤ k * (T + 1) := by nlinarith
    have := Real.log_le_log (by norm_num) h2
    have := Real.log_two_gt_d9
    linarith
  have hβ : ε * (Real.log (k * (T + 1)) + 3 * (2 * T + k + 1)) ≤ ((k + 1 : ℕ) : ℝ) * (ε * (10 * T * Real.log (k * (T + 1)) + 4)) := by
    push_cast
    rw [mul_left_comm]
    refine mul_le_mul_of_nonneg_left ?_ e0
    generalize Real.log (k * (T + 1)) = ρ at *
    have h2 : 69 / 100 * T ≤ T * ρ := by nlinarith
    have h3 : ρ ≤ T * ρ := by nlinarith
    have h4 : 1 * (10 * T * ρ + 4) ≤ k * (10 * T * ρ + 4) := mul_le_mul_of_nonneg_right hk (by nlinarith)
    nlinarith
  have key := over_calls hR (List.finRange k) cs Nat.lt_two_pow_self.le hρ hB (hB.predSim (fun s a h w r t e => by
      obtain ⟨rfl, -⟩ := Prod.mk.inj (Except.ok.inj e)
      rfl) (fun s a h w r t e => by
      obtain ⟨rfl, -⟩ := Prod.mk.inj (Except.ok.inj e)
      rfl)) hβ (CSim.init hR) rfl rfl 0 [.ctw depth] (by simpa [Fits] using hd) (by rw [hc, ← hT, hTd]; exact hε) (by
      intro c hc
      cases c with
      | update a h w => exact ⟨List.mem_finRange _, hw a h w hc⟩
      | predict a h => exact List.mem_finRange _)
  have hctx : Fast.ctx (k := k) depth = CTW.mkcontext depth 0 := funext fun h => Fast.ctx_eq hd h
  have e1 : (roundedOver R (R.ckt k) (R.cFresh k) 0 [.ctw depth]).outputs (newOver (Fin k) (R.cFresh k) [.ctw depth]) cs =
      (R.cPredictor k depth).outputs (CTW.init (R.cFresh k)) cs := by
    refine (outputs_congr (Q := R.ctwPredictor (R.ckt k) (R.cFresh k) (CTW.mkcontext depth 0)) ?_ ?_ _ cs).symm
    · funext n a h w
      rw [← hctx]
      exact cUpdate_eq hR hadd _ a h w _ n
    · funext n a h
      rw [← hctx]
      exact cLogPredict_eq hR hadd _ a h _ n
  have e2 : (exactOver (Fast.kt k) (Fast.fresh k) 0 [.ctw depth]).outputs (newOver (Fin k) (Fast.fresh k) [.ctw depth]) cs =
      (Fast.predictor k depth).outputs (CTW.init (Fast.fresh k)) cs := by
    rw [Fast.predictor, hctx]
    rfl
  rw [hc] at key
  obtain ⟨k1, k2⟩ := key
  rw [e1] at k1 k2
  rw [e2] at k2
  refine ⟨k1, ?_⟩
  rw [hTd, show (updates cs : ℝ) + 1 + 1 = updates cs + 2 by ring] at k2
  exact k2

/-- Ten thousand updates over an alphabet of 256 letters with depth 4 in double precision: the hypotheses hold, and every result is within two thousandths. -/
example (cs : List (Call (Fin 256))) (hw : ∀ a h w, Call.update a h w ∈ cs → w = 1) (hl : updates cs = 10000) :
    AllNear (2 / 1000) (Double.arith.cPredictor 256 4) (CTW.init (Double.arith.cFresh 256)) (Fast.predictor 256 4) (CTW.init (Fast.fresh 256)) cs := by
  obtain ⟨k1, k2⟩ := C131_error_alphabet C113_double.1 C131_double.comm 256 4 (by norm_num) cs hw (by rw [hl]; norm_num)
  refine ⟨k1, k2.imp fun o' o hh => ?_⟩
  obtain ⟨r', r, e1, e2, e3⟩ := hh
  refine ⟨r', r, e1, e2, le_trans e3 ?_⟩
  rw [hl]
  have h1 : Real.log ((256 : ℕ) * (((10000 : ℕ) : ℝ) + 2)) ≤ Real.log (2 ^ 22) := Real.log_le_log (by norm_num) (by norm_num)
  rw [Real.log_pow] at h1
  have h2 := Real.log_two_lt_d9
  have h3 : Real.log ((256 : ℕ) * (((10000 : ℕ) : ℝ) + 2)) ≤ 16 := by
    push_cast at h1 ⊢
    linarith
  generalize Real.log ((256 : ℕ) * (((10000 : ℕ) : ℝ) + 2)) = y at h3
  norm_num
  linarith

/-- `CTW_KT(8)` of the C code in double precision, with a thousand updates of weight 1 and any number of predictions among them: the hypotheses hold, and every
result is within a hundred thousandth of a nat. -/
example (cs : List (Call (Fin 2))) (hw : ∀ a h w, Call.update a h w ∈ cs → w = 1) (hl : updates cs = 1000) :
    AllNear (1 / 100000) (Double.arith.cPredictor 2 8) (CTW.init (Double.arith.cFresh 2)) (Fast.predictor 2 8) (CTW.init (Fast.fresh 2)) cs := by
  obtain ⟨k1, k2⟩ := C131_error C113_double.1 C131_double 8 (by norm_num) cs hw (by rw [hl]; norm_num)
  refine ⟨k1, k2.imp fun o' o hh => ?_⟩
  obtain ⟨r', r, e1, e2, e3⟩ := hh
  refine ⟨r', r, e1, e2, le_trans e3 ?_⟩
  rw [hl]
  have h1 : Real.log (2 * (((1000 : ℕ) : ℝ) + 1)) ≤ Real.log (2 ^ 11) := Real.log_le_log (by norm_num) (by norm_num)
  rw [Real.log_pow] at h1
  have h2 := Real.log_two_lt_d9
  have h3 : Real.log (2 * (((1000 : ℕ) : ℝ) + 1)) ≤ 8 := by
    push_cast at h1 ⊢
    linarith
  generalize Real.log (2 * (((1000 : ℕ) : ℝ) + 1)) = y at h3
  norm_num
  linarith

/-- An update followed by a prediction: the hypotheses of `C131_all_three` hold. -/
example : (Double.arith.cPredictor 2 1).outputs (CTW.init (Double.arith.cFresh 2)) [.update 0 [] 1, .predict 1 [0]] =
    (Double.arith.kPredictor 1).outputs KNode.new [.update false [] 1, .predict true [false]] := by
  refine (C131_all_three 1 le_rfl [.update 0 [] 1, .predict 1 [0]] ?_).1
  intro a h w hm
  simp only [List.mem_cons, Call.update.injEq, reduceCtorEq, List.not_mem_nil, or_false] at hm
  rw [hm.2.2]
  norm_num

end Verif
