import Mathlib.Tactic.IntervalCases
import Verif.Proofs.Reinforce
import Verif.Props.Weights
import Verif.Props.PTW
import Verif.Props.FMN
import Verif.Proofs.SAD
import Verif.Proofs.AveragerLawful

/-!
# Seeing a symbol makes it more probable (C137)

The claim is: an observation does not make the same observation less probable.  When a symbol is observed twice in a row with the same history, the second
update reports at least the probability that the first reported.  It holds for `KT`, `KTBinary` and for `Averager`, `Factored` and `CTW` over such models,
and for `PTW`, `PTWFixedLength` and `FMN` within the blocks of minimum length.  It is false for `PTW` at the end of such a block, and for `SAD` when the
symbol is new.
-/

namespace Verif

open Predictor PyDict Reinforce

/-! ## Estimators -/

/-- **C137 (`KT`).** With any alphabet and nonnegative weights. -/
theorem C137_KT {α : Type} [DecidableEq α] (A : List α) : (KT.predictor (α := α)).Reinforces (KT.Good A) A (fun w => 0 ≤ w) := by
  intro s a h w r s' q s'' hs ha hw h1 h2
  obtain ⟨c, hc, hc0⟩ := hs.get ha
  have hS := hs.sum_pos (List.ne_nil_of_mem ha)
  have e1 := hs.update ha hc w
  change s.update a w = _ at h1
  rw [e1] at h1
  simp only [Except.ok.injEq, Prod.mk.injEq] at h1
  obtain ⟨rfl, rfl⟩ := h1
  have e2 := (hs.step ha hc hw).update ha (get?_set_self s.counts a (c + w)) w
  change KT.update _ a w = _ at h2
  rw [e2] at h2
  simp only [Except.ok.injEq, Prod.mk.injEq] at h2
  rw [← h2.1]
  have hle : c ≤ s.sumCounts := by
    rw [hs.sum]
    exact List.single_le_sum (fun x hx => by
      obtain ⟨p, hp, rfl⟩ := List.mem_map.mp hx
      exact (hs.pos p hp).le) c (List.mem_map.mpr ⟨(a, c), mem_of_get? hc, rfl⟩)
  apply Real.log_le_log (by positivity)
  rw [div_le_div_iff₀ hS (by linarith)]
  nlinarith

/-- **C137 (`KTBinary`).** -/
theorem C137_KTBinary : KTBinary.predictor.Reinforces (fun s => 0 < s.c0 ∧ 0 < s.c1) [false, true] (fun w => 0 ≤ w) := by
  intro s b h w r s' q s'' hs _ hw h1 h2
  obtain ⟨h0, h1'⟩ := hs
  have key : ∀ t : KTBinary, 0 < t.c0 → 0 < t.c1 → ∀ x y, KTBinary.predictor.update t b h w = .ok (x, y) →
      x = Real.log (t.get b / (t.c0 + t.c1)) ∧ y = t.bump b w := by
    intro t t0 t1 x y hxy
    have hp : 0 < t.get b / (t.c0 + t.c1) := by cases b <;> simp [KTBinary.get] <;> positivity
    simp only [KTBinary.predictor, KTBinary.update, KTBinary.logPredict, pyDiv_of_ne (by linarith : t.c0 + t.c1 ≠ 0), ok_bind,
      pyLog_of_pos hp, pure_eq_ok, Except.ok.injEq, Prod.mk.injEq] at hxy
    exact ⟨hxy.1.symm, hxy.2.symm⟩
  obtain ⟨rfl, rfl⟩ := key s h0 h1' _ _ h1
  have hb : 0 < (s.bump b w).c0 ∧ 0 < (s.bump b w).c1 := by
    cases b <;> simp only [KTBinary.bump] <;> constructor <;> simp <;> linarith
  obtain ⟨rfl, -⟩ := key _ hb.1 hb.2 _ _ h2
  cases b
  · simp only [KTBinary.get, KTBinary.bump, Bool.false_eq_true, if_false]
    apply Real.log_le_log (by positivity)
    rw [div_le_div_iff₀ (by positivity) (by positivity)]
    nlinarith
  · simp only [KTBinary.get, KTBinary.bump, if_true]
    apply Real.log_le_log (by positivity)
    rw [div_le_div_iff₀ (by positivity) (by positivity)]
    nlinarith

namespace Reinforce

theorem betaVal_anti {k : ℕ} {S T : ℝ} (hk : 0 < k) (h1 : (k : ℝ) ≤ S) (h2 : S ≤ T) : SAD.betaVal k T ≤ SAD.betaVal k S := by
  have hk' : (0 : ℝ) < k := by exact_mod_cast hk
  rw [SAD.betaVal, SAD.betaVal, if_pos (by linarith), if_pos (by linarith), min_eq_left (h1.trans h2), min_eq_left h1]
  have hl : 0 < Real.log ((S + 1) / k) := Real.log_pos (by rw [lt_div_iff₀ hk']; linarith)
  apply div_le_div_of_nonneg_left hk'.le (by positivity)
  have : Real.log ((S + 1) / k) ≤ Real.log ((T + 1) / k) :=
    Real.log_le_log (by apply div_pos <;> linarith) (by apply div_le_div_of_nonneg_right _ hk'.le; linarith)
  linarith

end Reinforce

/-- **C137 (`SAD`, partial).** For a symbol that has been seen, if the total weight is at least the number of symbols seen (as it is when all weights are at
least one). -/
theorem C137_SAD_partial {α : Type} [DecidableEq α] (A : List α) : (SAD.predictor (α := α)).Reinforces
      (fun s => s.Good ∧ (∀ a ∈ A, a ∈ s.counts.keys) ∧ (s.counts.length : ℝ) ≤ s.sumCounts) A (fun w => 0 ≤ w) := by
  rintro s a h w r s' q s'' ⟨hs, hA, hlen⟩ ha hw h1 h2
  obtain ⟨c, hc⟩ := get?_isSome.mpr (hA a ha)
  have hb := hs.beta.2
  have hne : s.counts ≠ [] := List.ne_nil_of_mem (mem_of_get? hc)
  have hS := hs.sum_pos hne
  have hc0 : 0 < c := hs.pos _ (mem_of_get? hc)
  have hle : c ≤ s.sumCounts := by
    rw [hs.sum]
    exact List.single_le_sum (fun x hx => by
      obtain ⟨p, hp, rfl⟩ := List.mem_map.mp hx
      exact (hs.pos p hp).le) c (List.mem_map.mpr ⟨(a, c), mem_of_get? hc, rfl⟩)
  change s.update a w = _ at h1
  rw [SAD.update_eq, hs.logPredict_seen hc] at h1
  simp only [ok_bind, pure_eq_ok, Except.ok.injEq, Prod.mk.injEq] at h1
  obtain ⟨rfl, rfl⟩ := h1
  have hbump : s.bump a w = { n := s.n, counts := s.counts.set a (c + w), sumCounts := s.sumCounts + w } := by
    rw [SAD.bump, hc]
  have hm : a ∈ s.counts.keys := hA a ha
  have hg : (s.bump a w).Good := by
    rw [hbump]
    exact ⟨by rw [keys_set_of_mem _ hm]; exact hs.nodup, fun p hp => by
      rcases mem_set hp with rfl | hp
      · simp only; linarith
      · exact hs.pos p hp, by rw [sum_values_set hc, hs.sum]⟩
  have hc' : (s.bump a w).counts.get? a = some (c + w) := by rw [hbump]; exact get?_set_self _ _ _
  change SAD.update _ a w = _ at h2
  rw [SAD.update_eq, hg.logPredict_seen hc'] at h2
  simp only [ok_bind, pure_eq_ok, Except.ok.injEq, Prod.mk.injEq] at h2
  rw [← h2.1]
  have hl' : (s.bump a w).counts.length = s.counts.length := by
    rw [hbump, ← length_keys, keys_set_of_mem _ hm, length_keys]
  have hs' : (s.bump a w).sumCounts = s.sumCounts + w := by rw [hbump]
  rw [hl', hs']
  have hanti := betaVal_anti (List.length_pos_iff.mpr hne) hlen (show s.sumCounts ≤ s.sumCounts + w by linarith)
  have hb' := hg.beta.2
  rw [hl', hs'] at hb'
  apply Real.log_le_log (by positivity)
  rw [div_le_div_iff₀ (by linarith) (by linarith)]
  nlinarith

/-- **C137 (the code violates it: `SAD`).** `SAD(2)` after one 0: the symbol 1 has probability `1 / (1 + 2 log 2)`, about 0.42; after it was seen, it has
less, about 0.22. -/
theorem C137_SAD_new : ∃ r s q s' q' s'', (SAD.predictor (α := Bool)).run (SAD.init 2) [⟨false, [], 1⟩] = .ok (r, s) ∧
    SAD.predictor.update s true [] 1 = .ok (q, s') ∧ SAD.predictor.update s' true [] 1 = .ok (q', s'') ∧ q' < q ∧
    Real.exp q = 1 / (1 + 2 * Real.log 2) ∧ Real.exp q' = 1 / (2 + 1 / Real.log (3 / 2)) := by
  have l2 := Real.log_pos (show (1 : ℝ) < 2 by norm_num)
  have l3 := Real.log_pos (show (1 : ℝ) < 3 / 2 by norm_num)
  have g1 : (⟨2, [(false, 1)], 1⟩ : SAD Bool).Good := ⟨by simp [PyDict.keys], by simp, by simp [PyDict.values]⟩
  have g0 : (SAD.init 2 : SAD Bool).Good := ⟨by simp [SAD.init, PyDict.keys], by simp [SAD.init], by simp [SAD.init, PyDict.values]⟩
  have g2 : (⟨2, [(false, 1), (true, 1)], 2⟩ : SAD Bool).Good :=
    ⟨by simp [PyDict.keys], by simp, by simp [PyDict.values]; norm_num⟩
  have b1 : SAD.betaVal 1 1 = 1 / (2 * Real.log 2) := by norm_num [SAD.betaVal]
  have b2 : SAD.betaVal 2 2 = 1 / Real.log (3 / 2) := by
    norm_num [SAD.betaVal]
    field_simp
  obtain ⟨r0, u0⟩ : ∃ r, (SAD.init 2 : SAD Bool).logPredict false = .ok r := ⟨_, g0.logPredict_new (a := false) rfl (by simp [SAD.init])⟩
  have u1 := g1.logPredict_new (a := true) rfl (by simp)
  have u2 := g2.logPredict_seen (a := true) (c := 1) rfl
  have e1 : SAD.betaVal 1 1 / (((2 : ℤ) : ℝ) - ((1 : ℕ) : ℝ)) / (1 + SAD.betaVal 1 1) = 1 / (1 + 2 * Real.log 2) := by
    rw [b1]
    push_cast
    field_simp
    ring
  have e2 : 1 / (2 + SAD.betaVal 2 2) = 1 / (2 + 1 / Real.log (3 / 2)) := by rw [b2]
  have e1' : SAD.betaVal 1 1 / ((((2 : ℤ) : ℝ) - ((1 : ℕ) : ℝ)) * (1 + SAD.betaVal 1 1)) = 1 / (1 + 2 * Real.log 2) := by
    rw [← e1, div_div]
  simp only [List.length_cons, List.length_nil, Nat.zero_add, Nat.reduceAdd] at u1 u2
  rw [e1'] at u1
  rw [e2] at u2
  have hp1 : 0 < 1 / (1 + 2 * Real.log 2) := by positivity
  have hp2 : 0 < 1 / (2 + 1 / Real.log (3 / 2)) := by positivity
  have k0 : SAD.predictor.update (SAD.init 2) false [] 1 = .ok (r0, (⟨2, [(false, 1)], 1⟩ : SAD Bool)) := by
    change SAD.update _ _ _ = _
    rw [SAD.update_eq, u0]
    simp only [ok_bind, pure_eq_ok]
    congr 2
    simp [SAD.bump, SAD.init, PyDict.get?, PyDict.set]
  have k1 : SAD.predictor.update (⟨2, [(false, 1)], 1⟩ : SAD Bool) true [] 1 =
      .ok (Real.log (1 / (1 + 2 * Real.log 2)), ⟨2, [(false, 1), (true, 1)], 2⟩) := by
    change SAD.update _ _ _ = _
    rw [SAD.update_eq, u1]
    simp only [ok_bind, pure_eq_ok]
    congr 2
    simp [SAD.bump, PyDict.get?, PyDict.set]
    norm_num
  have k2 : SAD.predictor.update (⟨2, [(false, 1), (true, 1)], 2⟩ : SAD Bool) true [] 1 =
      .ok (Real.log (1 / (2 + 1 / Real.log (3 / 2))), SAD.bump ⟨2, [(false, 1), (true, 1)], 2⟩ true 1) := by
    change SAD.update _ _ _ = _
    rw [SAD.update_eq, u2]
    rfl
  refine ⟨r0 + 0, ⟨2, [(false, 1)], 1⟩, _, _, _, _, run_cons_ok.mpr ⟨r0, _, 0, k0, rfl, rfl⟩, k1, k2, ?_, Real.exp_log hp1, Real.exp_log hp2⟩
  · apply Real.log_lt_log hp2
    have h2 : Real.log 2 ≤ 1 := by
      have := Real.log_le_sub_one_of_pos (show (0 : ℝ) < 2 by norm_num)
      linarith
    have h3 : Real.log (3 / 2) ≤ 1 / 2 := by
      have := Real.log_le_sub_one_of_pos (show (0 : ℝ) < 3 / 2 by norm_num)
      linarith
    have h4 : 2 ≤ 1 / Real.log (3 / 2) := by rw [le_div_iff₀ l3]; linarith
    apply one_div_lt_one_div_of_lt (by linarith)
    linarith

/-! ## Mixtures -/

variable {σ α : Type} (P : Predictor σ α)

/-- **C137 (`Averager`).** If the components do, so does the mixture, in all states that it reaches by updates. -/
theorem C137_Averager (I : σ → Prop) (A : List α) (W : ℝ → Prop) (hP : P.UpdateLawful I A W) (hR : P.Reinforces I A W) (ms : List σ)
    (hm : ∀ m ∈ ms, I m) (s0 : Averager σ) (h0 : Averager.init ms = .ok s0) :
    (Averager.predictor P).Reinforces ((Averager.predictor P).Updated s0 A W) A W := by
  rintro s a h w r s' q s'' ⟨xs, p, hx, hr⟩ ha hw h1 h2
  have hne := (Averager.init_ok.mp h0).1
  have closed : ∀ xs r s, (Averager.predictor P).run s0 xs = .ok (r, s) → Real.exp r = (ms.map fun m => P.seqProb m xs).sum / ms.length := by
    intro xs r s hr
    obtain ⟨s1, e, -, hc⟩ := C08_Averager_mixture P ms hne xs
    rw [h0, Except.ok.injEq] at e
    subst e
    exact (hc r s hr).1
  have g1 := CTWNode.run_snoc_ok (o := ⟨a, h, w⟩) hr h1
  have g2 := CTWNode.run_snoc_ok (o := ⟨a, h, w⟩) g1 h2
  rw [List.append_assoc] at g2
  have hl : (0 : ℝ) ≤ 1 / ms.length := by positivity
  refine le_of_cvx ?_ (closed _ _ _ hr) (closed _ _ _ g1) (closed _ _ _ g2)
  rw [div_eq_mul_one_div, div_eq_mul_one_div (List.sum (List.map _ _)), div_eq_mul_one_div (List.sum (List.map (fun m => P.seqProb m (xs ++ _)) _))]
  exact (Cvx.sum fun m hmm => seqProb_cvx hP hR (hm m hmm) ⟨ha, hw⟩ xs hx).mul (.const hl)

/-- **C137 (`Factored`).** -/
theorem C137_Factored (I : σ → Prop) (A : List α) (W : ℝ → Prop) (hR : P.Reinforces I A W) (h1 : W 1) :
    (Factored.predictor P).Reinforces (fun s => ∀ f ∈ s.factors, I f) A (fun _ => True) := by
  intro s a h w r s' q s'' hs ha _ hu hu'
  simp only [Factored.predictor, Factored.update, bind_eq_ok, Prod.exists, pure_eq_ok, Except.ok.injEq, Prod.mk.injEq] at hu hu'
  obtain ⟨i, hi, m, hm, r1, m', hm', rfl, rfl⟩ := hu
  obtain ⟨j, hj, n, hn, r2, n', hn', rfl, rfl⟩ := hu'
  have hij : i = j := by
    simp only [Factored.index, List.length_set] at hi hj
    rw [hi] at hj
    exact Except.ok.inj hj
  subst hij
  have hlt : i < s.factors.length := by
    simp only [Factored.index] at hi
    split_ifs at hi with h0
    rw [← Except.ok.inj hi]
    exact Nat.mod_lt _ (Nat.pos_of_ne_zero h0)
  have hmn : n = m' := by
    simp only [pyGet, List.length_set, hlt, List.getElem?_set_self] at hn
    simpa using hn.symm
  subst hmn
  have hmem : m ∈ s.factors := by
    simp only [pyGet, List.getElem?_eq_getElem hlt] at hm
    simp only [Except.ok.injEq] at hm
    exact hm ▸ List.getElem_mem hlt
  exact hR m a h 1 _ _ _ _ (hs m hmem) ha h1 hm' hn'

/-- **C137 (`CTW`).** If the base model does, so does the context tree, in all states that it reaches by updates. -/
theorem C137_CTW {κ : Type} [DecidableEq κ] (I : σ → Prop) (A : List α) (W : ℝ → Prop) (hP : P.UpdateLawful I A W)
    (hR : P.Reinforces I A W) (fresh : σ) (hf : I fresh) (ctx : List α → List κ) (d : ℕ) (hc : ∀ h, (ctx h).length = d) :
    (CTW.predictor P fresh ctx).Reinforces ((CTW.predictor P fresh ctx).Updated (CTW.init fresh) A W) A W := by
  rintro s a h w r s' q s'' ⟨xs, p, hx, hr⟩ ha hw h1 h2
  have g1 := CTWNode.run_snoc_ok (o := ⟨a, h, w⟩) hr h1
  have g2 := CTWNode.run_snoc_ok (o := ⟨a, h, w⟩) g1 h2
  rw [List.append_assoc] at g2
  refine le_of_cvx ?_ (C13_CTW_closed_form P fresh ctx d _ (fun o _ => hc o.hist) _ _ hr)
    (C13_CTW_closed_form P fresh ctx d _ (fun o _ => hc o.hist) _ _ g1)
    (C13_CTW_closed_form P fresh ctx d _ (fun o _ => hc o.hist) _ _ g2)
  simp only [withCtx, List.map_append, List.map_cons, List.map_nil, List.singleton_append]
  refine Reinforce.ctw (V := fun o => o.sym ∈ A ∧ W o.weight) (by simp [seqProb, Predictor.run, probOf])
    (fun l hl => seqProb_cvx hP hR hf ⟨ha, hw⟩ l hl) d _ _ ?_
  intro x hx'
  obtain ⟨o, ho, rfl⟩ := List.mem_map.mp hx'
  exact hx o ho

/-- **C137 (towers).** The states that a context tree reaches by updates satisfy what the theorems above ask of a base model, so they can be nested. -/
theorem C137_CTW_base {κ : Type} [DecidableEq κ] (I : σ → Prop) (A : List α) (W : ℝ → Prop) (hP : P.UpdateLawful I A W) (fresh : σ) (hf : I fresh)
    (ctx : List α → List κ) (d : ℕ) (hc : ∀ h, (ctx h).length = d) :
    (CTW.predictor P fresh ctx).UpdateLawful ((CTW.predictor P fresh ctx).Updated (CTW.init fresh) A W) A W ∧
    (CTW.predictor P fresh ctx).Updated (CTW.init fresh) A W (CTW.init fresh) :=
  ⟨updated_lawful (CTWNode.updateLawful hP hc) (CTWNode.WF.new hf d), [], 0, by simp, rfl⟩

/-- The default context tree of any depth. -/
example (d : ℕ) (hd : 1 ≤ d) :
    (CTW.predictor KTBinary.predictor (KTBinary.init none) (CTW.mkcontext d false)).Reinforces
      ((CTW.predictor KTBinary.predictor (KTBinary.init none) (CTW.mkcontext d false)).Updated (CTW.init (KTBinary.init none)) [false, true]
        (fun w => 0 ≤ w)) [false, true] (fun w => 0 ≤ w) :=
  C137_CTW _ _ _ _ KTBinary.lawful.updateLawful C137_KTBinary _ (by norm_num [KTBinary.init]) _ d
    fun h => (C18_mkcontext_partial d hd false h).1

/-! ## Partition trees -/

namespace Reinforce

theorem not_pow {m n k : ℕ} (hm : n / 2 ^ m = (n + 1) / 2 ^ m) : n + 1 ≠ 2 ^ (m + k) := by
  intro h
  have hpos : 0 < 2 ^ m := Nat.two_pow_pos m
  rw [h, pow_add, Nat.mul_div_cancel_left _ hpos] at hm
  have : n / 2 ^ m < 2 ^ k := by
    rw [Nat.div_lt_iff_lt_mul hpos, mul_comm, ← pow_add]
    omega
  omega

theorem levels_same {m n : ℕ} (hm : n / 2 ^ m = (n + 1) / 2 ^ m) : levelsFor m (n + 1 + 1) = levelsFor m (n + 1) := by
  rw [levelsFor_next, if_neg (not_pow hm)]

end Reinforce

/-- **C137 (`PTW`, partial).** Within a block of minimum length.  Missing: the end of such a block, where it is false (`C137_PTW_falls`). -/
theorem C137_PTW_partial (I : σ → Prop) (A : List α) (W : ℝ → Prop) (hP : P.UpdateLawful I A W) (hR : P.Reinforces I A W) (fresh : σ) (hf : I fresh)
    (m : ℕ) (xs : List (Obs α)) (hx : ∀ x ∈ xs, x.sym ∈ A ∧ W x.weight) (o : Obs α) (ho : o.sym ∈ A ∧ W o.weight)
    (hm : xs.length / 2 ^ m = (xs.length + 1) / 2 ^ m) (r q q' : ℝ) (s s' s'' : PTW σ)
    (hr : (PTW.predictor P fresh m).run (PTW.init fresh m) xs = .ok (r, s))
    (h1 : (PTW.predictor P fresh m).update s o.sym o.hist o.weight = .ok (q, s'))
    (h2 : (PTW.predictor P fresh m).update s' o.sym o.hist o.weight = .ok (q', s'')) : q ≤ q' := by
  have hx' : GoodObs A W (xs ++ [o]) := by
    intro x hx'
    rcases List.mem_append.mp hx' with h | h
    · exact hx x h
    · simp only [List.mem_singleton] at h
      exact h ▸ ho
  have e1 := C25_PTW_ratio P fresh m xs o r q s s' hr h1
  have e2 := C25_PTW_ratio P fresh m (xs ++ [o]) o (r + q) q' s' s'' (CTWNode.run_snoc_ok hr h1) h2
  rw [List.length_append, List.length_singleton, levels_same hm, List.append_assoc] at e2
  exact le_of_ratio (Reinforce.ptw (V := fun o => o.sym ∈ A ∧ W o.weight) (fun _ l hl => seqProb_cvx hP hR hf ho l hl) m _ 0 xs hx hm)
    (PTW.ptwProb_pos hP (fun _ => hf) hx' _ _) e1 e2

/-- **C137 (`PTWFixedLength`, partial).** Likewise, within the announced length. -/
theorem C137_PTWFixedLength_partial (I : σ → Prop) (A : List α) (W : ℝ → Prop) (hP : P.UpdateLawful I A W) (hR : P.Reinforces I A W) (fresh : σ)
    (hf : I fresh) (m height : ℕ) (xs : List (Obs α)) (hx : ∀ x ∈ xs, x.sym ∈ A ∧ W x.weight) (o : Obs α) (ho : o.sym ∈ A ∧ W o.weight)
    (hm : xs.length / 2 ^ m = (xs.length + 1) / 2 ^ m) (hl : xs.length + 2 ≤ 2 ^ max m height) (r q q' : ℝ) (s s' s'' : PTW σ)
    (hr : (PTWFixedLength.predictor P fresh m height).run (PTW.init fresh m) xs = .ok (r, s))
    (h1 : (PTWFixedLength.predictor P fresh m height).update s o.sym o.hist o.weight = .ok (q, s'))
    (h2 : (PTWFixedLength.predictor P fresh m height).update s' o.sym o.hist o.weight = .ok (q', s'')) : q ≤ q' := by
  have g1 := CTWNode.run_snoc_ok hr h1
  have g2 := CTWNode.run_snoc_ok g1 h2
  rw [List.append_assoc] at g2
  refine le_of_cvx ?_ (C24_PTWFixedLength_closed_form P fresh m height _ (by omega) _ _ hr)
    (C24_PTWFixedLength_closed_form P fresh m height _ (by simp; omega) _ _ g1)
    (C24_PTWFixedLength_closed_form P fresh m height _ (by simp; omega) _ _ g2)
  exact Reinforce.ptw (V := fun o => o.sym ∈ A ∧ W o.weight) (fun _ l hl => seqProb_cvx hP hR hf ho l hl) m _ 0 xs hx hm

/-- **C137 (`FMN`, partial).** Likewise, with either model store. -/
theorem C137_FMN_partial {S : Type} (St : Store S σ) (add : S → σ → S) (Keep : S → σ → Prop) (hSt : St.Lawful add Keep) (I : σ → Prop) (A : List α)
    (W : ℝ → Prop) (hP : P.UpdateLawful I A W) (hR : P.Reinforces I A W) (hC : P.Copyable I) (f : σ) (hf : I f) (m : ℕ)
    (xs : List (Obs α)) (hx : ∀ x ∈ xs, x.sym ∈ A ∧ W x.weight) (o : Obs α) (ho : o.sym ∈ A ∧ W o.weight)
    (hm : xs.length / 2 ^ m = (xs.length + 1) / 2 ^ m) (r q q' : ℝ) (s0 s s' s'' : FMN S σ) (h0 : FMN.init St P f m = .ok s0)
    (hr : (FMN.predictor St P m).run s0 xs = .ok (r, s))
    (h1 : (FMN.predictor St P m).update s o.sym o.hist o.weight = .ok (q, s'))
    (h2 : (FMN.predictor St P m).update s' o.sym o.hist o.weight = .ok (q', s'')) : q ≤ q' := by
  have hx' : GoodObs A W (xs ++ [o]) := by
    intro x hx'
    rcases List.mem_append.mp hx' with h | h
    · exact hx x h
    · simp only [List.mem_singleton] at h
      exact h ▸ ho
  have hx'' : GoodObs A W (xs ++ [o, o]) := by
    intro x hx''
    rcases List.mem_append.mp hx'' with h | h
    · exact hx x h
    · simp only [List.mem_cons, List.not_mem_nil, or_false, or_self] at h
      exact h ▸ ho
  obtain ⟨z, a, b, fr, ms, i1, i2, i3⟩ := FMN.hist_run (m := m) hP hC hSt hf (xs := xs) hx
  obtain ⟨z', a', b', fr', ms', j1, j2, j3⟩ := FMN.hist_run (m := m) hP hC hSt hf (xs := xs ++ [o]) hx'
  rw [h0] at i1 j1
  cases i1
  cases j1
  have g := i3.run
  rw [hr] at g
  cases g
  have g := j3.run
  rw [CTWNode.run_snoc_ok hr h1] at g
  cases g
  -- the models that the two histories start their blocks from are the same
  have hfr : ∀ t ≤ xs.length, fr t = fr' t := by
    intro t ht
    obtain ⟨_, u, c1, _, c3⟩ := i3.factory t ht
    obtain ⟨_, u', d1, _, d3⟩ := j3.factory t (by simp; omega)
    rw [List.take_append_of_le_length ht, c1] at d1
    cases d1
    rw [c3] at d3
    exact Except.ok.inj d3
  -- the ratios
  have e1 : Real.exp q = ptwProb (PTWNode.blockProb (Averager.predictor P) fr) m (levelsFor m (xs.length + 1)) 0 (xs ++ [o]) /
      ptwProb (PTWNode.blockProb (Averager.predictor P) fr) m (levelsFor m (xs.length + 1)) 0 xs := by
    obtain ⟨_, u, c1, _, c3⟩ := i3.factory xs.length le_rfl
    rw [List.take_length, hr] at c1
    cases c1
    obtain ⟨x, p, y, k1, _, k3, _⟩ := FMN.update_ok (m := m) hP hC hSt i2 c3 ho.1 o.hist ho.2
    have k3' := h1
    simp only [FMN.predictor] at k3'
    rw [k3] at k3'
    simp only [Except.ok.injEq, Prod.mk.injEq] at k3'
    obtain ⟨rfl, _⟩ := k3'
    exact (i3.ptw.update k1).2
  have e2 : Real.exp q' = ptwProb (PTWNode.blockProb (Averager.predictor P) fr') m (levelsFor m ((xs ++ [o]).length + 1)) 0 (xs ++ [o] ++ [o]) /
      ptwProb (PTWNode.blockProb (Averager.predictor P) fr') m (levelsFor m ((xs ++ [o]).length + 1)) 0 (xs ++ [o]) := by
    obtain ⟨_, u, c1, _, c3⟩ := j3.factory (xs ++ [o]).length le_rfl
    rw [List.take_length, CTWNode.run_snoc_ok hr h1] at c1
    cases c1
    obtain ⟨x, p, y, k1, _, k3, _⟩ := FMN.update_ok (m := m) hP hC hSt j2 c3 ho.1 o.hist ho.2
    have k3' := h2
    simp only [FMN.predictor] at k3'
    rw [k3] at k3'
    simp only [Except.ok.injEq, Prod.mk.injEq] at k3'
    obtain ⟨rfl, _⟩ := k3'
    exact (j3.ptw.update k1).2
  rw [List.length_append, List.length_singleton, levels_same hm, List.append_assoc] at e2
  -- one family of block probabilities
  let p : ℕ → List (Obs α) → ℝ := fun t l => if t ≤ xs.length + 1 then PTWNode.blockProb (Averager.predictor P) fr' t l else 1
  have hnil : ∀ t, p t [] = 1 := by
    intro t
    simp only [p]
    split_ifs
    · exact PTWNode.blockProb_nil _ _ t
    · rfl
  have c1 : ∀ zs : List (Obs α), zs.length ≤ xs.length + 1 → ∀ k, ptwProb (PTWNode.blockProb (Averager.predictor P) fr) m k 0 zs = ptwProb p m k 0 zs := by
    intro zs hz k
    refine PTWNode.ptwProb_congr_on (fun _ => True) (fun _ _ _ => trivial) (fun _ _ _ => trivial) (PTWNode.blockProb_nil _ _) hnil k 0 zs trivial ?_
    intro i ys _ hi
    simp only [p, if_pos (show i ≤ xs.length + 1 by omega), PTWNode.blockProb, hfr i (by omega)]
  have c2 : ∀ zs : List (Obs α), zs.length ≤ xs.length + 2 → ∀ k, ptwProb (PTWNode.blockProb (Averager.predictor P) fr') m k 0 zs = ptwProb p m k 0 zs := by
    intro zs hz k
    refine PTWNode.ptwProb_congr_on (fun _ => True) (fun _ _ _ => trivial) (fun _ _ _ => trivial) (PTWNode.blockProb_nil _ _) hnil k 0 zs trivial ?_
    intro i ys _ hi
    simp only [p, if_pos (show i ≤ xs.length + 1 by omega)]
  have hpos : 0 < ptwProb p m (levelsFor m (xs.length + 1)) 0 (xs ++ [o]) := by
    rw [← c2 _ (by simp)]
    exact PTW.ptwProb_pos (Averager.updateLawful hP) j3.over hx' _ _
  rw [c1 _ (by simp), c1 _ (by omega)] at e1
  rw [c2 _ (by simp), c2 _ (by simp)] at e2
  refine le_of_ratio (Reinforce.ptw (V := fun o => o.sym ∈ A ∧ W o.weight) ?_ m _ 0 xs hx hm) hpos e1 e2
  intro t l hl
  simp only [p]
  split_ifs with ht
  · obtain ⟨_, u, _, d2, d3⟩ := j3.factory t (by simpa using ht)
    obtain ⟨v, v1, _, v3⟩ := d2.factory hP hC hSt
    rw [d3] at v1
    cases v1
    have hl1 : GoodObs A W (l ++ [o]) := by
      intro x hx'
      rcases List.mem_append.mp hx' with h | h
      · exact hl x h
      · simp only [List.mem_singleton] at h
        exact h ▸ ho
    have hl2 : GoodObs A W (l ++ [o, o]) := by
      intro x hx''
      rcases List.mem_append.mp hx'' with h | h
      · exact hl x h
      · simp only [List.mem_cons, List.not_mem_nil, or_false, or_self] at h
        exact h ▸ ho
    simp only [PTWNode.blockProb]
    rw [v3 l hl, v3 _ hl1, v3 _ hl2, div_eq_mul_inv, div_eq_mul_inv, div_eq_mul_inv]
    exact (Cvx.sum fun i hi => seqProb_cvx hP hR (d2.all i hi) ho l hl).mul (.const (by positivity))
  · exact .const zero_le_one

/-- `FMN` over `KTBinary`, with the default store and blocks of four observations: after one bit. -/
example : (1 : ℕ) / 2 ^ 2 = (1 + 1) / 2 ^ 2 ∧ KTBinary.predictor.Copyable (fun s => 0 < s.c0 ∧ 0 < s.c1) ∧
    KTBinary.predictor.Reinforces (fun s => 0 < s.c0 ∧ 0 < s.c1) [false, true] (fun w => 0 ≤ w) :=
  ⟨by norm_num, fun s hs => ⟨s, rfl, hs, fun _ => rfl⟩, C137_KTBinary⟩

/-- **C137 (the code violates it: `PTW`).** `PTW` over `KTBinary` with the default minimum length: after three zeros a fourth has probability 19/24, and then
a fifth 347/470, which is less. -/
theorem C137_PTW_falls : ∃ r s q s' q' s'',
    (PTW.predictor KTBinary.predictor (KTBinary.init none) 0).run (PTW.init (KTBinary.init none) 0) (List.replicate 3 ⟨false, [], 1⟩) = .ok (r, s) ∧
    (PTW.predictor KTBinary.predictor (KTBinary.init none) 0).update s false [] 1 = .ok (q, s') ∧
    (PTW.predictor KTBinary.predictor (KTBinary.init none) 0).update s' false [] 1 = .ok (q', s'') ∧
    Real.exp q = 19 / 24 ∧ Real.exp q' = 347 / 470 ∧ q' < q := by
  have hf : 0 < (KTBinary.init none).c0 ∧ 0 < (KTBinary.init none).c1 := by norm_num [KTBinary.init]
  have hL := PTW.updateLawful (m := 0) KTBinary.lawful.updateLawful hf
  have h0 : ∃ xs, GoodObs [false, true] (fun w : ℝ => 0 ≤ w) xs ∧ PTW.Inv KTBinary.predictor (fun _ => KTBinary.init none) 0
      (PTW.init (KTBinary.init none) 0) xs ∧ PTWNode.All (fun s : KTBinary => 0 < s.c0 ∧ 0 < s.c1) (PTW.init (KTBinary.init none) 0).tree :=
    ⟨[], by simp [GoodObs], PTW.inv_init, hf⟩
  have hg : ∀ o ∈ List.replicate 3 (⟨false, [], 1⟩ : Obs Bool), o.sym ∈ [false, true] ∧ (0 : ℝ) ≤ o.weight := by
    intro o ho
    rw [List.eq_of_mem_replicate ho]
    simp
  obtain ⟨r, s, hr, i1⟩ := hL.run_ok h0 hg
  obtain ⟨q, s', h1, i2⟩ := hL.total s false [] 1 i1 (by simp) zero_le_one
  obtain ⟨q', s'', h2, _⟩ := hL.total s' false [] 1 i2 (by simp) zero_le_one
  have g1 := CTWNode.run_snoc_ok (o := ⟨false, [], 1⟩) hr h1
  have e1 := C25_PTW_ratio KTBinary.predictor (KTBinary.init none) 0 _ ⟨false, [], 1⟩ r q s s' hr h1
  have e2 := C25_PTW_ratio KTBinary.predictor (KTBinary.init none) 0 _ ⟨false, [], 1⟩ (r + q) q' s' s'' g1 h2
  have l1 : levelsFor 0 4 = 2 := levelsFor_succ (by norm_num) (by norm_num)
  have l2 : levelsFor 0 5 = 3 := levelsFor_succ (by norm_num) (by norm_num)
  have k : ∀ n : ℕ, n ≤ 5 → KTBinary.predictor.seqProb (KTBinary.init none) (List.replicate n ⟨false, [], 1⟩) =
      if n = 0 then 1 else if n = 1 then 1 / 2 else if n = 2 then 3 / 8 else if n = 3 then 5 / 16 else if n = 4 then 35 / 128 else 63 / 256 := by
    intro n hn
    interval_cases n <;> norm_num [List.replicate, KTBinary.init, Weights.ktb_cons, Weights.ktb_nil]
  have k1 := k 1 (by norm_num)
  have k2 := k 2 (by norm_num)
  have k3 := k 3 (by norm_num)
  have k4 := k 4 (by norm_num)
  have k5 := k 5 (by norm_num)
  have k0 := k 0 (by norm_num)
  norm_num [List.replicate] at k0 k1 k2 k3 k4 k5
  norm_num [List.replicate] at e1 e2
  rw [l1] at e1
  rw [l2] at e2
  norm_num [ptwProb, k0, k1, k2, k3, k4, k5] at e1 e2
  refine ⟨r, s, q, s', q', s'', hr, h1, h2, e1, e2, ?_⟩
  rw [← Real.exp_lt_exp, e1, e2]
  norm_num

end Verif
