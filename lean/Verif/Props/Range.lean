import Verif.Proofs.Range
import Verif.Props.CTW
import Verif.Props.PTW
import Verif.Props.FMN
import Verif.Props.Estimators
import Verif.Proofs.PTWBeyond

/-!
# C142: the next symbol is neither more nor less probable than for the models that are mixed
-/

namespace Verif

open Predictor PTWNode

section KT

/-- The least probability that KT over `k` symbols can give to a symbol after `n` updates with weights of at most one. -/
noncomputable def ktLow (k n : ℕ) : ℝ := 1 / (k * (n + 1))

/-- The largest such probability. -/
noncomputable def ktHigh (k n : ℕ) : ℝ := 1 - (k - 1) / (k * (n + 1))

theorem ktLow_antitone (k : ℕ) (hk : 0 < k) : Antitone (ktLow k) := by
  intro a b hab
  have : (a : ℝ) ≤ b := by exact_mod_cast hab
  have hk' : (0 : ℝ) < k := by exact_mod_cast hk
  apply one_div_le_one_div_of_le (by positivity)
  exact mul_le_mul_of_nonneg_left (by linarith) hk'.le

theorem ktHigh_monotone (k : ℕ) (hk : 0 < k) : Monotone (ktHigh k) := by
  intro a b hab
  have : (a : ℝ) ≤ b := by exact_mod_cast hab
  have hk' : (1 : ℝ) ≤ k := by exact_mod_cast hk
  apply sub_le_sub_left
  apply div_le_div_of_nonneg_left (by linarith) (by positivity)
  exact mul_le_mul_of_nonneg_left (by linarith) (by linarith)

/-- **C142 (KT).** After `n` updates with weights of at most one, KT over `k` symbols gives each of them a probability of at least `1 / (k (n + 1))` and at
most `1 - (k - 1) / (k (n + 1))`. -/
theorem C142_KT {α : Type} [DecidableEq α] (A : List α) (hA : A.Nodup) (hne : A ≠ []) (s0 : KT α) (h0 : KT.init A none = .ok s0) :
    KT.predictor.Ranges s0 A (fun w => 0 ≤ w ∧ w ≤ 1) (ktLow A.length) (ktHigh A.length) := by
  intro xs o hx
  have hx' : ∀ x ∈ xs, x.sym ∈ A ∧ 0 ≤ x.weight := fun x h => ⟨(hx x (by simp [h])).1, (hx x (by simp [h])).2.1⟩
  have ho := hx o (by simp)
  obtain ⟨s0', r, s, g0, hr, _, hu⟩ := C01_KT_normalised A hA hne none trivial xs hx'
  rw [h0] at g0
  simp only [Except.ok.injEq] at g0
  subst g0
  obtain ⟨q, s', hu⟩ := hu o.sym ho.1 o.hist o.weight ho.2.1
  refine ⟨r, s, q, s', hr, hu, ?_⟩
  have h2 := (C02_KT_update_frame s s' o.sym o.hist o.weight q hu).1
  have h3 := C03_KT_closed_form A hA hne s0 s h0 xs hx' r hr o.sym ho.1 o.hist
  simp only [Predictor.predict, h2, ok_bind, pure_eq_ok, Except.ok.injEq, Prod.mk.injEq, and_true] at h3
  rw [h3, ktLow, ktHigh]
  have b1 : 0 ≤ weightOf o.sym xs ∧ weightOf o.sym xs ≤ totalWeight xs ∧ totalWeight xs ≤ xs.length := by
    have hw : ∀ x ∈ xs, 0 ≤ x.weight ∧ x.weight ≤ 1 := fun x h => (hx x (by simp [h])).2
    clear hu hr h2 h3 hx hx'
    induction xs with
    | nil => simp [weightOf, totalWeight]
    | cons x xs ih =>
      obtain ⟨i1, i2, i3⟩ := ih fun y hy => hw y (by simp [hy])
      obtain ⟨w1, w2⟩ := hw x (by simp)
      simp only [weightOf, totalWeight, List.map_cons, List.sum_cons, List.length_cons, Nat.cast_add, Nat.cast_one] at i1 i2 i3 ⊢
      split_ifs
      · exact ⟨by linarith, by linarith, by linarith⟩
      · exact ⟨by linarith, by linarith, by linarith⟩
  obtain ⟨b1, b2, b3⟩ := b1
  have hk : (1 : ℝ) ≤ A.length := by exact_mod_cast List.length_pos_iff.mpr hne
  have hT : 0 ≤ totalWeight xs := b1.trans b2
  generalize weightOf o.sym xs = u at *
  generalize totalWeight xs = T at *
  have hn : (0 : ℝ) ≤ xs.length := by positivity
  generalize (xs.length : ℝ) = n at *
  have hkinv : 1 / (A.length : ℝ) ≤ 1 := by rw [div_le_one (by linarith)]; exact hk
  constructor
  · rw [← div_div]
    apply div_le_div₀ (by positivity) (by linarith) (by linarith) (by linarith)
  · have e : 1 - ((A.length : ℝ) - 1) / (A.length * (n + 1)) = (n + 1 / A.length) / (n + 1) := by
      field_simp
      ring
    rw [e, div_le_div_iff₀ (by linarith) (by linarith)]
    nlinarith [mul_nonneg (sub_nonneg.mpr b2) (by linarith : (0 : ℝ) ≤ n + 1), mul_nonneg (sub_nonneg.mpr b3) (sub_nonneg.mpr hkinv)]

/-- **C142 (KTBinary).** The same with two symbols. -/
theorem C142_KTBinary :
    KTBinary.predictor.Ranges (KTBinary.init none) [false, true] (fun w => 0 ≤ w ∧ w ≤ 1) (ktLow 2) (ktHigh 2) := by
  intro xs o hx
  obtain ⟨r, t, q, t', h1, h2, h3⟩ := C142_KT [false, true] (by decide) (by decide) _ C04_KTBinary_eq_KT.1 xs o hx
  rw [C04_KTBinary_runs] at h1
  cases hr : KTBinary.predictor.run (KTBinary.init none) xs with
  | error e => rw [hr] at h1; cases h1
  | ok p =>
    rw [hr] at h1
    simp only [Except.map, Except.ok.injEq, Prod.mk.injEq] at h1
    rw [← h1.2, (C04_KTBinary_eq_KT.2.2 p.2 o.sym o.hist o.weight).1] at h2
    cases hu : KTBinary.predictor.update p.2 o.sym o.hist o.weight with
    | error e => rw [hu] at h2; cases h2
    | ok v =>
      rw [hu] at h2
      simp only [Except.map, Except.ok.injEq, Prod.mk.injEq] at h2
      exact ⟨p.1, p.2, v.1, v.2, rfl, hu, by rw [h2.1]; exact h3⟩

/-- Both bounds are reached: after five times the same symbol. -/
example : ktLow 2 5 = 1 / 12 ∧ ktHigh 2 5 = 11 / 12 := by norm_num [ktLow, ktHigh]

end KT

variable {σ α : Type} (P : Predictor σ α) (A : List α) (W : ℝ → Prop) (lo hi : ℕ → ℝ)

/-- **C142 (Averager).** A mixture gives the next symbol a probability within all bounds that hold for each of its components. -/
theorem C142_Averager (ms : List σ) (hne : ms ≠ []) (h : ∀ m ∈ ms, P.Ranges m A W lo hi) (s0 : Averager σ) (h0 : Averager.init ms = .ok s0) :
    (Averager.predictor P).Ranges s0 A W lo hi := by
  have hrun : ∀ xs, GoodObs A W xs → ∃ r s, (Averager.predictor P).run s0 xs = .ok (r, s) ∧
      Real.exp r = (ms.map fun m => P.seqProb m xs).sum / ms.length := by
    intro xs hx
    obtain ⟨s0', g0, giff, gmix⟩ := C08_Averager_mixture P ms hne xs
    rw [h0] at g0
    simp only [Except.ok.injEq] at g0
    subst g0
    obtain ⟨r, s, hr⟩ := giff.mpr (fun m hm => by
      induction xs using List.reverseRecOn with
      | nil => exact ⟨0, m, rfl⟩
      | append_singleton xs o _ =>
        obtain ⟨r, t, q, t', h1, h2, _⟩ := h m hm xs o hx
        exact ⟨_, _, CTWNode.run_snoc_ok h1 h2⟩)
    exact ⟨r, s, hr, (gmix r s hr).1⟩
  refine Ranges.of_rg (fun xs hx => ?_) (fun xs o hx => ?_)
  · obtain ⟨r, s, h1, _⟩ := hrun xs hx
    exact ⟨r, s, h1⟩
  · obtain ⟨r, s, h1, e1⟩ := hrun xs fun x hx' => hx x (by simp [hx'])
    obtain ⟨r', s', h2, e2⟩ := hrun _ hx
    rw [seqProb_of_run h1, seqProb_of_run h2, e1, e2, div_eq_inv_mul, div_eq_inv_mul]
    exact (Rg.sum ms fun m hm => ((h m hm).rg hx).1).scale (by positivity)

variable (I : σ → Prop) (hP : P.UpdateLawful I A W) (fresh : σ) (hf : I fresh) (hlo : Antitone lo) (hhi : Monotone hi)

include hP hf hlo hhi

/-- **C142 (CTW).** So does a context tree, when the bounds widen with the number of updates: its nodes have seen at most all of the symbols. -/
theorem C142_CTW {κ : Type} [DecidableEq κ] (ctx : List α → List κ) (d : ℕ) (hc : ∀ h, (ctx h).length = d) (hB : P.Ranges fresh A W lo hi) :
    (CTW.predictor P fresh ctx).Ranges (CTW.init fresh) A W lo hi := by
  refine Ranges.of_rg (fun xs hx => C13_CTW_run_succeeds P fresh ctx I A W hP hf d hc xs hx) (fun xs o hx => ?_)
  have hx' : GoodObs A W xs := fun x hx' => hx x (by simp [hx'])
  obtain ⟨r, n, hr⟩ := C13_CTW_run_succeeds P fresh ctx I A W hP hf d hc xs hx'
  obtain ⟨r', n', hr'⟩ := C13_CTW_run_succeeds P fresh ctx I A W hP hf d hc (xs ++ [o]) hx
  rw [seqProb_of_run hr, seqProb_of_run hr', C13_CTW_closed_form P fresh ctx d xs (fun o _ => hc _) r n hr,
    C13_CTW_closed_form P fresh ctx d _ (fun o _ => hc _) r' n' hr']
  have e : withCtx ctx (xs ++ [o]) = withCtx ctx xs ++ [((ctx o.hist).reverse, o)] := by simp [withCtx]
  rw [e]
  refine Rg.ctw (seqProb_empty P fresh) (fun l => P.seqProb_nonneg _ _) (V := fun x => x.sym ∈ A ∧ W x.weight) (n := xs.length) ?_ d _ _ ?_
    (by simp [withCtx]) (by simp [hc])
  · intro l hl hn
    exact ((hB.rg (xs := l) (o := o) (GoodObs.snoc hl (hx o (by simp)))).1).mono (hlo hn) (hhi hn)
  · intro p hp
    obtain ⟨x, hx1, rfl⟩ := List.mem_map.mp hp
    exact hx' x hx1

/-- **C142 (PTW).** So does a partition tree. -/
theorem C142_PTW (m : ℕ) (hB : P.Ranges fresh A W lo hi) : (PTW.predictor P fresh m).Ranges (PTW.init fresh m) A W lo hi := by
  intro xs o hx
  have hx' : GoodObs A W xs := fun x hx' => hx x (by simp [hx'])
  have ho := hx o (by simp)
  have hL := PTW.updateLawful (m := m) hP hf
  obtain ⟨r, s, hr, hs⟩ := hL.run_ok (s := PTW.init fresh m) ⟨[], by simp [GoodObs], PTW.inv_init, hf⟩ hx'
  obtain ⟨q, s', hu, _⟩ := hL.total s o.sym o.hist o.weight hs ho.1 ho.2
  refine ⟨r, s, q, s', hr, hu, ?_⟩
  rw [C25_PTW_ratio P fresh m xs o r q s s' hr hu]
  refine (Rg.ptw (fun _ => seqProb_empty P fresh) (fun _ l => P.seqProb_nonneg _ _) m _ 0 xs ?_ ?_).div ?_
  · exact levelsFor_spec m (xs.length + 1)
  · intro j hj
    have hd : GoodObs A W (xs.drop j ++ [o]) := (GoodObs.drop _ _ hx').snoc ho
    refine ((hB.rg hd).1).mono (hlo ?_) (hhi ?_) <;> simp
  · exact PTW.ptwProb_pos hP (fun _ => hf) hx' _ _

/-- **C142 (PTWFixedLength).** So does `PTWFixedLength` within its length. -/
theorem C142_PTWFixedLength (m height : ℕ) (hB : P.Ranges fresh A W lo hi) (xs : List (Obs α)) (o : Obs α)
    (hx : ∀ x ∈ xs ++ [o], x.sym ∈ A ∧ W x.weight) (hl : xs.length < 2 ^ max m height) :
    ∃ r s q s', (PTWFixedLength.predictor P fresh m height).run (PTW.init fresh m) xs = .ok (r, s) ∧
      (PTWFixedLength.predictor P fresh m height).update s o.sym o.hist o.weight = .ok (q, s') ∧ lo xs.length ≤ Real.exp q ∧ Real.exp q ≤ hi xs.length := by
  have hx' : GoodObs A W xs := fun x hx' => hx x (by simp [hx'])
  obtain ⟨r', s', hr⟩ := PTWFixedLength.all_run (m := m) (height := height) hP hf _ (PTW.init fresh m) hf hx
  obtain ⟨r, s, r2, h1, h2, rfl⟩ := run_append_ok.mp hr.1
  obtain ⟨q, s2, r3, h3, h4, rfl⟩ := run_cons_ok.mp h2
  simp only [Predictor.run, pure_eq_ok, Except.ok.injEq, Prod.mk.injEq] at h4
  obtain ⟨rfl, rfl⟩ := h4
  refine ⟨r, s, q, s2, h1, h3, ?_⟩
  have e1 := C24_PTWFixedLength_closed_form P fresh m height xs hl.le r s h1
  have e2 := C24_PTWFixedLength_closed_form P fresh m height _ (by simp; omega) _ _ (CTWNode.run_snoc_ok h1 h3)
  have e : Real.exp q = Real.exp (r + q) / Real.exp r := by rw [← Real.exp_sub, add_sub_cancel_left]
  rw [e, e1, e2]
  refine (Rg.ptw (fun _ => seqProb_empty P fresh) (fun _ l => P.seqProb_nonneg _ _) m _ 0 xs ?_ ?_).div ?_
  · rwa [show m + (height - m) = max m height by omega]
  · intro j hj
    have hd : GoodObs A W (xs.drop j ++ [o]) := (GoodObs.drop _ _ hx').snoc (hx o (by simp))
    refine ((hB.rg hd).1).mono (hlo ?_) (hhi ?_) <;> simp
  · exact PTW.ptwProb_pos hP (fun _ => hf) hx' _ _

/-- **C142 (FMN).** So does forget-me-not, for every store: its models have seen at most all of the symbols. -/
theorem C142_FMN {S : Type} (St : Store S σ) (add : S → σ → S) (Keep : S → σ → Prop) (hSt : St.Lawful add Keep) (hC : P.Copyable I) (m : ℕ)
    (hB : P.Ranges fresh A W lo hi) (s0 : FMN S σ) (h0 : FMN.init St P fresh m = .ok s0) :
    (FMN.predictor St P m).Ranges s0 A W lo hi := by
  intro xs o hx
  have hx' : GoodObs A W xs := fun x hx' => hx x (by simp [hx'])
  have ho := hx o (by simp)
  obtain ⟨s0', r, s, fr, ms, e0, hG, hH⟩ := FMN.hist_run (m := m) hP hC hSt hf (xs := xs) hx'
  rw [h0] at e0
  simp only [Except.ok.injEq] at e0
  subst e0
  obtain ⟨r', s', g1, _, g3⟩ := hH.factory xs.length le_rfl
  rw [List.take_length, hH.run] at g1
  simp only [Except.ok.injEq, Prod.mk.injEq] at g1
  obtain ⟨rfl, rfl⟩ := g1
  obtain ⟨q, p, b, k1, _, k3, _⟩ := FMN.update_ok (m := m) hP hC hSt hG g3 ho.1 o.hist ho.2
  refine ⟨r, s, q, _, hH.run, k3, ?_⟩
  rw [(hH.ptw.update (o := o) k1).2]
  refine (Rg.ptw (blockProb_nil _ _) (fun _ l => (Averager.predictor P).seqProb_nonneg _ _) m _ 0 xs ?_ ?_).div ?_
  · exact levelsFor_spec m (xs.length + 1)
  · intro j hj
    rw [zero_add]
    have hd : GoodObs A W (xs.drop j ++ [o]) := (GoodObs.drop _ _ hx').snoc ho
    have hd' : GoodObs A W (xs.drop j) := GoodObs.drop _ _ hx'
    obtain ⟨r1, s1, c1, c2, c3⟩ := hH.factory j hj
    obtain ⟨v, e1, _, e3⟩ := c2.factory hP hC hSt
    rw [c3] at e1
    simp only [Except.ok.injEq] at e1
    subst e1
    have hT := FMN.allTrained_run hP hC hSt hf h0 (xs.take j) (GoodObs.take _ _ hx') r1 s1 c1
    rw [blockProb, blockProb, e3 _ hd, e3 _ hd', div_eq_inv_mul, div_eq_inv_mul]
    refine (Rg.sum _ fun g hg => ?_).scale (by positivity)
    have := hB.trained hlo hhi (hT.all g hg).2 hd
    rw [List.length_take, List.length_drop, min_eq_left hj, Nat.add_sub_cancel' hj] at this
    exact this
  · exact PTW.ptwProb_pos (Averager.updateLawful hP) hH.over hx' _ _

omit hP hf hlo hhi

section Examples

/-- KTBinary with weights between zero and one. -/
theorem ktb_lawful : KTBinary.predictor.UpdateLawful (fun s => 0 < s.c0 ∧ 0 < s.c1) [false, true] (fun w => 0 ≤ w ∧ w ≤ 1) :=
  ⟨fun s a h w hs ha hw => KTBinary.lawful.updateLawful.total s a h w hs ha hw.1,
    fun s h w hs hw => KTBinary.lawful.updateLawful.normalised s h w hs hw.1⟩

/-- **C142 (no bit is ever hopeless).** After `n` bits, partition trees, context trees, context trees over partition trees and forget-me-not with either
store, all over KTBinary, give each bit a probability of at least `1 / (2 (n + 1))` and at most `1 - 1 / (2 (n + 1))`: one more bit never costs more than
`log (2 (n + 1))`. -/
theorem C142_binary (m : ℕ) {κ : Type} [DecidableEq κ] (ctx : List Bool → List κ) (d : ℕ) (hc : ∀ h, (ctx h).length = d) (s0 : FMN (LogStore KTBinary) KTBinary)
    (h0 : FMN.init (LogStore.store KTBinary) KTBinary.predictor (KTBinary.init none) m = .ok s0) (s1 : FMN (LogStoreUniform KTBinary) KTBinary)
    (h1 : FMN.init (LogStoreUniform.store KTBinary) KTBinary.predictor (KTBinary.init none) m = .ok s1) :
    let B := KTBinary.predictor
    let f := KTBinary.init none
    (PTW.predictor B f m).Ranges (PTW.init f m) [false, true] (fun w => 0 ≤ w ∧ w ≤ 1) (ktLow 2) (ktHigh 2) ∧
    (CTW.predictor B f ctx).Ranges (CTW.init f) [false, true] (fun w => 0 ≤ w ∧ w ≤ 1) (ktLow 2) (ktHigh 2) ∧
    (CTW.predictor (PTW.predictor B f m) (PTW.init f m) ctx).Ranges (CTW.init (PTW.init f m)) [false, true] (fun w => 0 ≤ w ∧ w ≤ 1) (ktLow 2) (ktHigh 2) ∧
    (FMN.predictor (LogStore.store KTBinary) B m).Ranges s0 [false, true] (fun w => 0 ≤ w ∧ w ≤ 1) (ktLow 2) (ktHigh 2) ∧
    (FMN.predictor (LogStoreUniform.store KTBinary) B m).Ranges s1 [false, true] (fun w => 0 ≤ w ∧ w ≤ 1) (ktLow 2) (ktHigh 2) := by
  have l := ktLow_antitone 2 (by norm_num)
  have u := ktHigh_monotone 2 (by norm_num)
  have hf : 0 < (KTBinary.init none).c0 ∧ 0 < (KTBinary.init none).c1 := by norm_num [KTBinary.init]
  have hC : KTBinary.predictor.Copyable fun s => 0 < s.c0 ∧ 0 < s.c1 := fun s hs => ⟨s, rfl, hs, fun _ => rfl⟩
  have hp := C142_PTW _ _ _ _ _ _ ktb_lawful (KTBinary.init none) hf l u m C142_KTBinary
  exact ⟨hp, C142_CTW _ _ _ _ _ _ ktb_lawful _ hf l u ctx d hc C142_KTBinary,
    C142_CTW _ _ _ _ _ _ (PTW.updateLawful (m := m) ktb_lawful hf) _ ⟨[], by simp [GoodObs], PTW.inv_init, hf⟩ l u ctx d hc hp,
    C142_FMN _ _ _ _ _ _ ktb_lawful _ hf l u _ _ _ (LogStore.lawful _) hC m C142_KTBinary s0 h0,
    C142_FMN _ _ _ _ _ _ ktb_lawful _ hf l u _ _ _ (LogStoreUniform.lawful _) hC m C142_KTBinary s1 h1⟩

/-- There are such forget-me-not models. -/
example (m : ℕ) : ∃ s0, FMN.init (LogStore.store KTBinary) KTBinary.predictor (KTBinary.init none) m = .ok s0 := by
  obtain ⟨v, _, _, h, _⟩ := FMN.init_ok (m := m) ktb_lawful (fun s hs => ⟨s, rfl, hs, fun _ => rfl⟩) (LogStore.lawful _)
    (f := KTBinary.init none) (by norm_num [KTBinary.init])
  exact ⟨_, h⟩

end Examples

end Verif
