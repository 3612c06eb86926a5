import Verif.Spec.Unseen
import Verif.Props.Order
import Verif.Props.Compose
import Verif.Proofs.Range
import Verif.Props.Minimax
import Mathlib.Analysis.Complex.ExponentialBounds

/-!
# C176: symbols that are not seen.  C150 for `SAD`
-/

namespace Verif

open Predictor Redundancy

namespace Unseen

variable {σ α : Type} {P : Predictor σ α} {I : σ → Prop} {A : List α} {W : ℝ → Prop}

theorem hidden_sum (h : P.UpdateLawful I A W) :
    ∀ (gs : List (List α × ℝ)) (s : σ), (∀ g ∈ gs, W g.2) → I s → ((words A gs.length).map fun u => P.seqProb s (hidden gs u)).sum = 1
  | [], s, _, _ => by simp [words, hidden, seqProb, Predictor.run, probOf]
  | g :: gs, s, hg, hs => by
    have hw : W g.2 := hg g (by simp)
    rw [List.length_cons, words, List.map_flatMap, Compose.sum_flatMap, ← h.sum_probOf hs hw g.1]
    congr 1
    apply List.map_congr_left
    intro a ha
    obtain ⟨r, t, h1, h2⟩ := h.total s a g.1 g.2 hs ha hw
    have h3 := hidden_sum h gs t (fun g hg' => hg g (by simp [hg'])) h2
    have hrun : P.run s [⟨a, g.1, g.2⟩] = .ok (r, t) := by
      rw [show r = r + 0 by ring]
      exact run_cons_ok.mpr ⟨r, t, 0, h1, rfl, rfl⟩
    rw [List.map_map, h1, probOf_ok]
    calc _ = ((words A gs.length).map fun u => Real.exp r * P.seqProb t (hidden gs u)).sum := by
          congr 1
          apply List.map_congr_left
          intro u _
          exact seqProb_append_of_run hrun (hidden gs u)
      _ = _ := by rw [List.sum_map_mul_left, h3, mul_one]

theorem hidden_good {gs : List (List α × ℝ)} {u : List α} (hg : ∀ g ∈ gs, W g.2) (hu : ∀ a ∈ u, a ∈ A) : ∀ o ∈ hidden gs u, o.sym ∈ A ∧ W o.weight := by
  induction gs generalizing u with
  | nil => simp [hidden]
  | cons g gs ih =>
    cases u with
    | nil => simp [hidden]
    | cons a u =>
      intro o ho
      rcases List.mem_cons.mp ho with rfl | ho
      · exact ⟨hu a (by simp), hg g (by simp)⟩
      · exact ih (fun g hg' => hg g (by simp [hg'])) (fun a ha => hu a (by simp [ha])) o ho

end Unseen

section General

variable {σ α : Type} (P : Predictor σ α) (I : σ → Prop) (A : List α) (W : ℝ → Prop)

/-- **C176.** To a model for which the order does not matter, symbols that are not seen, anywhere in the sequence, do not matter: the sum over all that they
can be is the probability of the sequence without them. -/
theorem C176_unseen (hP : P.UpdateLawful I A W) (s : σ) (hs : I s) (hO : P.OrderFree s A W) (gs : List (List α × ℝ)) (hg : ∀ g ∈ gs, W g.2)
    (xs ys : List (Obs α)) (hx : ∀ o ∈ xs ++ ys, o.sym ∈ A ∧ W o.weight) :
    ((words A gs.length).map fun u => P.seqProb s (xs ++ hidden gs u ++ ys)).sum = P.seqProb s (xs ++ ys) := by
  obtain ⟨r, t, h1, h2⟩ := hP.run_ok hs hx
  calc _ = ((words A gs.length).map fun u => Real.exp r * P.seqProb t (hidden gs u)).sum := by
        congr 1
        apply List.map_congr_left
        intro u hu
        have hh := Unseen.hidden_good (W := W) hg (Minimax.mem_words hu).2
        rw [← seqProb_append_of_run h1]
        refine hO.seqProb ?_ ?_
        · rw [List.append_assoc, List.append_assoc]
          exact List.Perm.append_left xs List.perm_append_comm
        · intro o ho
          rcases List.mem_append.mp ho with ho | ho
          · rcases List.mem_append.mp ho with ho | ho
            · exact hx o (by simp [ho])
            · exact hh o ho
          · exact hx o (by simp [ho])
    _ = _ := by rw [List.sum_map_mul_left, Unseen.hidden_sum hP gs t hg h2, mul_one, seqProb_of_run h1]

/-- **C176 (martingale).** On average over what such a model expects next, what it will then report for an observation is what it would report now. -/
theorem C176_martingale (hP : P.UpdateLawful I A W) (s : σ) (hs : I s) (hO : P.OrderFree s A W) (xs : List (Obs α)) (hx : ∀ o ∈ xs, o.sym ∈ A ∧ W o.weight)
    (h : List α) (w : ℝ) (hw : W w) (o : Obs α) (ho : o.sym ∈ A ∧ W o.weight) :
    ∃ (r : ℝ) (t : σ) (next : α → σ), P.run s xs = .ok (r, t) ∧ (∀ a ∈ A, ∃ q, P.update t a h w = .ok (q, next a)) ∧
      (A.map fun a => probOf (P.update t a h w) * probOf (P.update (next a) o.sym o.hist o.weight)).sum = probOf (P.update t o.sym o.hist o.weight) := by
  obtain ⟨r, t, h1, h2⟩ := hP.run_ok hs hx
  have hex : ∀ a, ∃ u, a ∈ A → ∃ q, P.update t a h w = .ok (q, u) := by
    intro a
    by_cases ha : a ∈ A
    · obtain ⟨q, u, hq, _⟩ := hP.total t a h w h2 ha hw
      exact ⟨u, fun _ => ⟨q, hq⟩⟩
    · exact ⟨t, fun h => absurd h ha⟩
  choose next hnext using hex
  refine ⟨r, t, next, h1, hnext, ?_⟩
  have one : ∀ (v : σ) (o : Obs α), P.seqProb v [o] = probOf (P.update v o.sym o.hist o.weight) := by
    intro v o
    cases e : P.update v o.sym o.hist o.weight with
    | error e' => simp [seqProb, Predictor.run, e, probOf, bind, Except.bind]
    | ok q =>
      obtain ⟨q, v'⟩ := q
      rw [seqProb_of_run (r := q + 0) (s' := v') (run_cons_ok.mpr ⟨q, v', 0, e, rfl, rfl⟩), probOf_ok, add_zero]
  have key := C176_unseen P I A W hP s hs hO [(h, w)] (by simpa using hw) xs [o] (by
    intro o' ho'
    rcases List.mem_append.mp ho' with ho' | ho'
    · exact hx o' ho'
    · rw [List.mem_singleton.mp ho']; exact ho)
  rw [seqProb_append_of_run h1, one] at key
  have hsum : ((words A [(h, w)].length).map fun u => P.seqProb s (xs ++ hidden [(h, w)] u ++ [o])).sum =
      Real.exp r * (A.map fun a => probOf (P.update t a h w) * probOf (P.update (next a) o.sym o.hist o.weight)).sum := by
    rw [List.length_singleton, words, List.map_flatMap, Compose.sum_flatMap, ← List.sum_map_mul_left]
    congr 1
    apply List.map_congr_left
    intro a ha
    obtain ⟨q, hq⟩ := hnext a ha
    have hr : P.run s (xs ++ [⟨a, h, w⟩]) = .ok (r + (q + 0), next a) :=
      run_append_ok.mpr ⟨r, t, q + 0, h1, run_cons_ok.mpr ⟨q, next a, 0, hq, rfl, rfl⟩, rfl⟩
    simp only [words, List.map_cons, List.map_nil, List.sum_cons, List.sum_nil, add_zero, hidden]
    rw [seqProb_append_of_run hr, one, hq, probOf_ok, Real.exp_add, add_zero, mul_assoc]
  rw [hsum] at key
  exact mul_left_cancel₀ (Real.exp_pos r).ne' key

end General

/-- **C176 (KT).** So it is with `KT` over any alphabet, whatever the initial counts. -/
theorem C176_KT {α : Type} [DecidableEq α] (A : List α) (hA : A.Nodup) (hne : A ≠ []) (counts : Option (PyDict α ℝ)) (hc : CountsOk A counts) (s0 : KT α)
    (h0 : KT.init A counts = .ok s0) (w : ℝ) (hw : 0 ≤ w) (gs : List (List α)) (xs ys : List (Obs α)) (hx : ∀ o ∈ xs ++ ys, o.sym ∈ A ∧ o.weight = w) :
    ((words A gs.length).map fun u => KT.predictor.seqProb s0 (xs ++ hidden (gs.map fun h => (h, w)) u ++ ys)).sum = KT.predictor.seqProb s0 (xs ++ ys) := by
  obtain ⟨s1, h1, h2⟩ := kt_init_good hA hne hc
  rw [h0, Except.ok.injEq] at h1
  subst h1
  have hl := KT.lawful hA hne
  have hP : (KT.predictor (α := α)).UpdateLawful (KT.Good A) A (fun v => v = w) :=
    ⟨fun s a h v hs ha hv => hl.total s a h v hs ha (by rw [hv]; exact hw), fun s h v hs hv => hl.normalised s h v hs (by rw [hv]; exact hw)⟩
  have := C176_unseen KT.predictor _ A _ hP s0 h2 (C150_KT A hA hne counts hc s0 h0 w hw) (gs.map fun h => (h, w)) (by simp) xs ys hx
  rwa [List.length_map] at this

namespace Unseen

theorem kt_drawn (l : List Bool) (h : List Bool) : KTBinary.predictor.seqProb (KTBinary.init none) (drawn h l) = ktP (zeros (drawn h l)) (ones (drawn h l)) := by
  refine seqProb_ktP ?_
  induction l generalizing h with
  | nil => simp [drawn]
  | cons a l ih =>
    intro o ho
    rcases List.mem_cons.mp ho with rfl | ho
    · rfl
    · exact ih _ o ho

theorem ctw_drawn (l : List Bool) : (CTW.predictor KTBinary.predictor (KTBinary.init none) (CTW.mkcontext 1 false)).seqProb (CTW.init (KTBinary.init none)) (drawn [] l) =
    ctwProb (KTBinary.predictor.seqProb (KTBinary.init none)) 1 (withCtx (CTW.mkcontext 1 false) (drawn [] l)) := by
  have hc : ∀ h, (CTW.mkcontext 1 false h).length = 1 := fun h => (C18_mkcontext_partial 1 le_rfl false h).1
  obtain ⟨r, n, hr⟩ := C13_CTW_run_succeeds KTBinary.predictor (KTBinary.init none) (CTW.mkcontext 1 false) _ [false, true] _ KTBinary.lawful.updateLawful
    (by norm_num [KTBinary.init]) 1 hc (drawn [] l) (by
      have : ∀ h : List Bool, ∀ o ∈ drawn h l, o.sym ∈ [false, true] ∧ 0 ≤ o.weight := by
        induction l with
        | nil => simp [drawn]
        | cons a l ih =>
          intro h o ho
          rcases List.mem_cons.mp ho with rfl | ho
          · exact ⟨by cases a <;> simp, zero_le_one⟩
          · exact ih _ o ho
      exact this [])
  rw [seqProb_of_run hr, C13_CTW_closed_form _ _ _ 1 _ (fun o _ => hc _) r n hr]

end Unseen

/-- **C176 (CTW).** If the symbols that are not seen are also in the histories, they matter to a context tree: `CTW(1)` gives the first symbol 0 with
probability 1/2 and the second one with probability 9/16, because the history is filled up with zeros. -/
theorem C176_CTW_order :
    let P := CTW.predictor KTBinary.predictor (KTBinary.init none) (CTW.mkcontext 1 false)
    P.seqProb (CTW.init (KTBinary.init none)) (drawn [] [false]) = 1 / 2 ∧
    (([false, true]).map fun a => P.seqProb (CTW.init (KTBinary.init none)) (drawn [] [a, false])).sum = 9 / 16 := by
  have hw : ∀ xs : List (Obs Bool), (∀ o ∈ xs, o.weight = 1) → KTBinary.predictor.seqProb (KTBinary.init none) xs = ktP (zeros xs) (ones xs) := fun xs h => seqProb_ktP h
  intro P
  simp only [P, List.map_cons, List.map_nil, List.sum_cons, List.sum_nil, Unseen.ctw_drawn]
  have k1 : withCtx (CTW.mkcontext 1 false) (drawn [] [false]) = [([false], ⟨false, [], 1⟩)] := rfl
  have k2 : withCtx (CTW.mkcontext 1 false) (drawn [] [false, false]) = [([false], ⟨false, [], 1⟩), ([false], ⟨false, [false], 1⟩)] := rfl
  have k3 : withCtx (CTW.mkcontext 1 false) (drawn [] [true, false]) = [([false], ⟨true, [], 1⟩), ([true], ⟨false, [true], 1⟩)] := rfl
  rw [k1, k2, k3]
  constructor
  · simp [ctwProb, heads, subCtx, hw]
    norm_num [ktP, rise, zeros, ones, Finset.prod_range_succ, Nat.factorial]
  · simp [ctwProb, heads, subCtx, hw]
    norm_num [ktP, rise, zeros, ones, Finset.prod_range_succ, Nat.factorial]

/-- **C176 (partition trees).** Symbols that are not seen matter to partition trees also: two zeros have probability 11/32 as the first two symbols, and 5/16 as the
second and third. -/
theorem C176_PTW_order :
    let P := PTWFixedLength.predictor KTBinary.predictor (KTBinary.init none) 0 2
    P.seqProb (PTW.init (KTBinary.init none) 0) (drawn [] [false, false]) = 11 / 32 ∧
    (([false, true]).map fun a => P.seqProb (PTW.init (KTBinary.init none) 0) (drawn [] [a, false, false])).sum = 5 / 16 := by
  have hx : ∀ (l h : List Bool), ∀ o ∈ drawn h l, o.sym ∈ [false, true] ∧ 0 ≤ o.weight := by
    intro l
    induction l with
    | nil => simp [drawn]
    | cons a l ih =>
      intro h o ho
      rcases List.mem_cons.mp ho with rfl | ho
      · exact ⟨by cases a <;> simp, zero_le_one⟩
      · exact ih _ o ho
  have hI : 0 < (KTBinary.init none).c0 ∧ 0 < (KTBinary.init none).c1 := by norm_num [KTBinary.init]
  have hlen : ∀ (l h : List Bool), (drawn h l).length = l.length := by
    intro l
    induction l with
    | nil => simp [drawn]
    | cons a l ih => intro h; simp [drawn, ih]
  have hq : ∀ l : List Bool, l.length < 4 → (PTWFixedLength.predictor KTBinary.predictor (KTBinary.init none) 0 2).seqProb (PTW.init (KTBinary.init none) 0) (drawn [] l) =
      ptwProb (fun _ => KTBinary.predictor.seqProb (KTBinary.init none)) 0 2 0 (drawn [] l) := by
    intro l hl
    obtain ⟨r, s, hr, -⟩ := C24_PTWFixedLength_normalised KTBinary.predictor (KTBinary.init none) _ [false, true] _ KTBinary.lawful.updateLawful hI 0 2
      (drawn [] l) (hx _ _) (by rw [hlen]; simpa using hl) [] 1 zero_le_one
    rw [seqProb_of_run hr, C24_PTWFixedLength_closed_form _ _ 0 2 _ (by rw [hlen]; simpa using hl.le) r s hr]
  have hw : ∀ xs : List (Obs Bool), (∀ o ∈ xs, o.weight = 1) → KTBinary.predictor.seqProb (KTBinary.init none) xs = ktP (zeros xs) (ones xs) := fun xs h => seqProb_ktP h
  have t1 : ∀ (o : Obs Bool) l, List.take 1 (o :: l) = [o] := fun _ _ => rfl
  intro P
  simp only [P, List.map_cons, List.map_nil, List.sum_cons, List.sum_nil]
  rw [hq _ (by simp), hq _ (by simp), hq _ (by simp)]
  constructor
  · simp [ptwProb, drawn, t1, hw]
    norm_num [ktP, rise, zeros, ones, Finset.prod_range_succ, Nat.factorial]
  · simp [ptwProb, drawn, t1, hw]
    norm_num [ktP, rise, zeros, ones, Finset.prod_range_succ, Nat.factorial]

namespace Unseen

theorem sad_beta (k : ℕ) (S : ℝ) (d : PyDict Bool ℝ) (hd : d.length = k) (hk : 0 < k) (hS : (k : ℝ) ≤ S) :
    (⟨2, d, S⟩ : SAD Bool).beta = .ok (k / (2 * Real.log ((S + 1) / k))) := by
  have hk' : (0 : ℝ) < k := by exact_mod_cast hk
  have h1 : 1 < (S + 1) / k := by rw [lt_div_iff₀ hk']; linarith
  have h2 := Real.log_pos h1
  have h3 : min (k : ℝ) S = k := min_eq_left hS
  unfold SAD.beta
  simp only [hd, h3, pyDiv, pyLog, gt_iff_lt, hk'.trans_le hS, if_true, hk'.ne', if_false]
  simp only [ok_bind, (zero_lt_one.trans h1), if_true, (by positivity : 2 * Real.log ((S + 1) / k) ≠ 0), if_false]

end Unseen

/-- **C150 (SAD).** The order matters to `SAD`: two zeros and then a one are more probable than a zero, a one and a zero. -/
theorem C150_SAD_order : ∃ r s r' s',
    SAD.predictor.run (SAD.init 2) ([false, false, true].map LPTW.obs) = .ok (r, s) ∧
    SAD.predictor.run (SAD.init 2) ([false, true, false].map LPTW.obs) = .ok (r', s') ∧ r' < r := by
  have l2 : (0 : ℝ) < Real.log 2 := Real.log_pos (by norm_num)
  have l3 : (0 : ℝ) < Real.log 3 := Real.log_pos (by norm_num)
  have l32 : (0 : ℝ) < Real.log (3 / 2) := Real.log_pos (by norm_num)
  have e32 : Real.log (3 / 2) = Real.log 3 - Real.log 2 := Real.log_div (by norm_num) (by norm_num)
  have seen : ∀ (s : SAD Bool) (a : Bool) (b c : ℝ), s.beta = .ok b → 0 < b → s.counts.get? a = some c → 0 < c → 0 ≤ s.sumCounts →
      SAD.predictor.update s a [] 1 = .ok (Real.log (c / (s.sumCounts + b)), ⟨s.n, s.counts.set a (c + 1), s.sumCounts + 1⟩) := by
    intro s a b c h1 h2 h3 h4 h5
    have h6 : 0 < s.sumCounts + b := by linarith
    have h7 : 0 < c / (s.sumCounts + b) := div_pos h4 h6
    simp only [SAD.predictor, SAD.update, SAD.logPredict, h1, ok_bind, h3, pyDiv, h6.ne', if_false, pyLog, h7, if_true, PyDict.getE]
    rfl
  have new : ∀ (s : SAD Bool) (a : Bool) (b : ℝ), s.beta = .ok b → 0 < b → s.counts.get? a = none → 0 < (s.n : ℝ) - s.counts.length → 0 ≤ s.sumCounts →
      (s.counts.set a 0).get? a = some 0 →
      SAD.predictor.update s a [] 1 = .ok (Real.log (b / (((s.n : ℝ) - s.counts.length) * (s.sumCounts + b))), ⟨s.n, (s.counts.set a 0).set a (0 + 1), s.sumCounts + 1⟩) := by
    intro s a b h1 h2 h3 h4 h5 h8
    have h6 : 0 < ((s.n : ℝ) - s.counts.length) * (s.sumCounts + b) := mul_pos h4 (by linarith)
    have h7 := div_pos h2 h6
    simp only [SAD.predictor, SAD.update, SAD.logPredict, h1, ok_bind, h3, pyDiv, h6.ne', if_false, pyLog, h7, if_true, PyDict.getE, h8]
    rfl
  have a1 := new (SAD.init 2) false 1 (by simp [SAD.beta, SAD.init]) one_pos rfl (by norm_num [SAD.init]) (by simp [SAD.init]) rfl
  have a2 := seen ⟨2, [(false, 0 + 1)], 0 + 1⟩ false _ (0 + 1) (Unseen.sad_beta 1 _ _ rfl one_pos (by norm_num)) (by norm_num [l2]) rfl (by norm_num) (by norm_num)
  have a3 := new ⟨2, [(false, 0 + 1 + 1)], 0 + 1 + 1⟩ true _ (Unseen.sad_beta 1 _ _ rfl one_pos (by norm_num)) (by norm_num [l3]) rfl (by norm_num) (by norm_num) rfl
  have b2 := new ⟨2, [(false, 0 + 1)], 0 + 1⟩ true _ (Unseen.sad_beta 1 _ _ rfl one_pos (by norm_num)) (by norm_num [l2]) rfl (by norm_num) (by norm_num) rfl
  have b3 := seen ⟨2, [(false, 0 + 1), (true, 0 + 1)], 0 + 1 + 1⟩ false _ (0 + 1) (Unseen.sad_beta 2 _ _ rfl two_pos (by norm_num)) (by norm_num [l32]) rfl (by norm_num) (by norm_num)
  refine ⟨_, _, _, _, run_cons_ok.mpr ⟨_, _, _, a1, run_cons_ok.mpr ⟨_, _, _, a2, run_cons_ok.mpr ⟨_, _, _, a3, rfl, rfl⟩, rfl⟩, rfl⟩,
    run_cons_ok.mpr ⟨_, _, _, a1, run_cons_ok.mpr ⟨_, _, _, b2, run_cons_ok.mpr ⟨_, _, _, b3, rfl, rfl⟩, rfl⟩, rfl⟩, ?_⟩
  simp only []
  rw [add_lt_add_iff_left, add_zero, add_zero]
  norm_num
  have u : Real.log 3 ≤ 8 / 5 * Real.log 2 := by
    have h := Real.log_le_log (by norm_num) (by norm_num : (3 : ℝ) ^ 5 ≤ 2 ^ 8)
    rw [Real.log_pow, Real.log_pow] at h
    push_cast at h
    linarith
  have g2 := Real.log_two_gt_d9
  have g2' := Real.log_two_lt_d9
  have lo : 3 / 2 * Real.log 2 ≤ Real.log 3 := by
    have h := Real.log_le_log (by norm_num) (by norm_num : (2 : ℝ) ^ 3 ≤ 3 ^ 2)
    rw [Real.log_pow, Real.log_pow] at h
    push_cast at h
    linarith
  rw [Real.log_div (by positivity) (by positivity)]
  have key : (Real.log 2)⁻¹ * (1 / 2) / (2 + 2 / (2 * Real.log (3 / 2))) < (Real.log 3)⁻¹ * (1 / 2) / (2 + (Real.log 3)⁻¹ * (1 / 2)) := by
    have e1 : (Real.log 2)⁻¹ * (1 / 2) / (2 + 2 / (2 * Real.log (3 / 2))) = Real.log (3 / 2) / (2 * Real.log 2 * (2 * Real.log (3 / 2) + 1)) := by
      field_simp
    have e2 : (Real.log 3)⁻¹ * (1 / 2) / (2 + (Real.log 3)⁻¹ * (1 / 2)) = 1 / (4 * Real.log 3 + 1) := by
      field_simp
      ring
    rw [e1, e2, div_lt_div_iff₀ (by positivity) (by positivity), e32]
    nlinarith [mul_nonneg (sub_nonneg.mpr u) (sub_nonneg.mpr lo), mul_nonneg (sub_nonneg.mpr u) l2.le, mul_nonneg (sub_nonneg.mpr u) l3.le, mul_nonneg (sub_nonneg.mpr lo) l3.le, mul_nonneg (sub_nonneg.mpr lo) l2.le, sq_nonneg (Real.log 2), mul_pos l2 (sub_pos.mpr g2), mul_pos l2 (sub_pos.mpr g2')]
  have := Real.log_lt_log (by positivity) key
  rw [Real.log_div (by positivity) (by positivity)] at this
  linarith
/-- If the middle one of three bits is not seen, `KTBinary` gives two zeros the probability 3/8 still. -/
example : ((words [false, true] 1).map fun u => KTBinary.predictor.seqProb (KTBinary.init none) ([⟨false, [], 1⟩] ++ hidden [([false], 1)] u ++ [⟨false, [], 1⟩])).sum = 3 / 8 := by
  have hP : KTBinary.predictor.UpdateLawful (fun s => 0 < s.c0 ∧ 0 < s.c1) [false, true] (fun v => v = 1) :=
    ⟨fun s a h v hs ha hv => KTBinary.lawful.updateLawful.total s a h v hs ha (by rw [hv]; exact zero_le_one),
      fun s h v hs hv => KTBinary.lawful.updateLawful.normalised s h v hs (by rw [hv]; exact zero_le_one)⟩
  have := C176_unseen KTBinary.predictor _ [false, true] _ hP (KTBinary.init none) (by norm_num [KTBinary.init]) (C150_KTBinary 1 zero_le_one) [([false], 1)] (by simp)
    [⟨false, [], 1⟩] [⟨false, [], 1⟩] (by simp)
  rw [List.length_singleton] at this
  rw [this, seqProb_ktP (by simp)]
  norm_num [ktP, rise, zeros, ones, Finset.prod_range_succ, Nat.factorial]

end Verif
