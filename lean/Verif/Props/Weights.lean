import Verif.Spec.Weights
import Verif.Props.Estimators
import Verif.Props.CTW
import Verif.Props.Mixtures

/-!
# Weights of updates (C136)

The claim is: only the total weight of every symbol matters to later answers, whatever numbers the weights are.  It holds for `KT` and `KTBinary`.  It is
false for `SAD`, where a weight of zero makes a new symbol impossible for ever, and for the mixtures, in which an update with weight zero still moves the
weights of the components.
-/

namespace Verif

open Predictor PyDict

namespace Weights

variable {α : Type} [DecidableEq α]

theorem weightOf_cons (a : α) (o : Obs α) (xs : List (Obs α)) : weightOf a (o :: xs) = (if o.sym = a then o.weight else 0) + weightOf a xs := by
  simp [weightOf]

/-- The state after any successful run of `KT`. -/
theorem kt_run {s t : KT α} {xs : List (Obs α)} {r : ℝ} (h : KT.predictor.run s xs = .ok (r, t)) :
    t.counts.keys = s.counts.keys ∧ t.sumCounts - t.counts.values.sum = s.sumCounts - s.counts.values.sum ∧
      ∀ a c, s.counts.get? a = some c → t.counts.get? a = some (c + weightOf a xs) := by
  induction xs generalizing s r with
  | nil =>
    simp only [Predictor.run, pure_eq_ok, Except.ok.injEq, Prod.mk.injEq] at h
    obtain ⟨-, rfl⟩ := h
    exact ⟨rfl, rfl, fun a c hc => by simpa [weightOf] using hc⟩
  | cons o xs ih =>
    obtain ⟨r1, u, r2, h1, h2, -⟩ := Predictor.run_cons_ok.mp h
    change s.update o.sym o.weight = _ at h1
    unfold KT.update at h1
    simp only [bind_eq_ok, pure_eq_ok, Except.ok.injEq, Prod.mk.injEq] at h1
    obtain ⟨q, -, c, hc, -, rfl⟩ := h1
    rw [getE_ok] at hc
    obtain ⟨k1, k2, k3⟩ := ih h2
    have hm : o.sym ∈ s.counts.keys := get?_isSome.mp ⟨c, hc⟩
    refine ⟨by rw [k1]; exact keys_set_of_mem _ hm, ?_, ?_⟩
    · rw [k2]
      simp only
      rw [sum_values_set hc]
      ring
    · intro a c' hc'
      rw [weightOf_cons]
      by_cases ha : a = o.sym
      · subst ha
        rw [hc, Option.some.injEq] at hc'
        subst hc'
        rw [k3 o.sym _ (get?_set_self _ _ _), if_pos rfl]
        congr 1
        ring
      · rw [k3 a c' (by simp only; rw [get?_set_other _ _ ha]; exact hc'), if_neg (Ne.symm ha), zero_add]

theorem dict_ext {d e : PyDict α ℝ} (hk : d.keys = e.keys) (hn : d.keys.Nodup) (h : ∀ a ∈ d.keys, d.get? a = e.get? a) : d = e := by
  induction d generalizing e with
  | nil =>
    cases e with
    | nil => rfl
    | cons p e => simp [PyDict.keys] at hk
  | cons p d ih =>
    obtain ⟨k, v⟩ := p
    cases e with
    | nil => simp [PyDict.keys] at hk
    | cons q e =>
      obtain ⟨k', v'⟩ := q
      simp only [keys_cons, List.cons.injEq] at hk
      obtain ⟨rfl, hk⟩ := hk
      simp only [keys_cons, List.nodup_cons] at hn
      have h0 := h k (by simp)
      simp only [PyDict.get?, if_true, Option.some.injEq] at h0
      subst h0
      congr 1
      refine ih hk hn.2 fun a ha => ?_
      have := h a (by simp [ha])
      have hne : k ≠ a := by rintro rfl; exact hn.1 ha
      simpa [PyDict.get?, hne] using this

/-- Two runs of `KT` with the same totals end in the same state. -/
theorem kt_same {s t t' : KT α} (hn : s.counts.keys.Nodup) {xs ys : List (Obs α)} {r r' : ℝ} (hxy : SameTotals xs ys)
    (h : KT.predictor.run s xs = .ok (r, t)) (h' : KT.predictor.run s ys = .ok (r', t')) : t = t' := by
  obtain ⟨k1, k2, k3⟩ := kt_run h
  obtain ⟨l1, l2, l3⟩ := kt_run h'
  have hc : t.counts = t'.counts := by
    refine dict_ext (k1.trans l1.symm) (k1 ▸ hn) fun a ha => ?_
    obtain ⟨c, hc⟩ := get?_isSome.mpr (k1 ▸ ha)
    rw [k3 a c hc, l3 a c hc, hxy a]
  obtain ⟨c, S⟩ := t
  obtain ⟨c', S'⟩ := t'
  simp only at hc k2 l2
  subst hc
  congr 1
  linarith

/-- The state after any successful run of `KTBinary`. -/
theorem ktb_run {s t : KTBinary} {xs : List (Obs Bool)} {r : ℝ} (h : KTBinary.predictor.run s xs = .ok (r, t)) :
    t = ⟨s.c0 + weightOf false xs, s.c1 + weightOf true xs⟩ := by
  induction xs generalizing s r with
  | nil =>
    simp only [Predictor.run, pure_eq_ok, Except.ok.injEq, Prod.mk.injEq] at h
    obtain ⟨-, rfl⟩ := h
    simp [weightOf]
  | cons o xs ih =>
    obtain ⟨r1, u, r2, h1, h2, -⟩ := Predictor.run_cons_ok.mp h
    change s.update o.sym o.weight = _ at h1
    unfold KTBinary.update at h1
    simp only [bind_eq_ok, pure_eq_ok, Except.ok.injEq, Prod.mk.injEq] at h1
    obtain ⟨q, -, -, rfl⟩ := h1
    rw [ih h2]
    obtain ⟨b, hh, w⟩ := o
    cases b <;> simp [KTBinary.bump, weightOf_cons] <;> ring

/-- Two states of `SAD` with the same numbers. -/
structure Alike (s t : SAD α) : Prop where
  n : s.n = t.n
  sum : s.sumCounts = t.sumCounts
  get : ∀ a, s.counts.get? a = t.counts.get? a
  nodup : s.counts.keys.Nodup
  nodup' : t.counts.keys.Nodup

theorem Alike.len {s t : SAD α} (h : Alike s t) : s.counts.length = t.counts.length := by
  have hk : ∀ a, a ∈ s.counts.keys ↔ a ∈ t.counts.keys := fun a => by
    rw [← get?_isSome, ← get?_isSome, h.get]
  rw [← length_keys, ← length_keys]
  exact ((List.perm_ext_iff_of_nodup h.nodup h.nodup').mpr hk).length_eq

theorem Alike.logPredict {s t : SAD α} (h : Alike s t) (a : α) : s.logPredict a = t.logPredict a := by
  simp only [SAD.logPredict, SAD.beta, h.len, h.sum, h.get, h.n]

theorem get?_bump (s : SAD α) (a b : α) (w : ℝ) :
    (s.bump a w).counts.get? b = if b = a then some ((s.counts.get? a).getD 0 + w) else s.counts.get? b := by
  unfold SAD.bump
  cases hc : s.counts.get? a with
  | none =>
    by_cases hb : b = a
    · subst hb; simp [get?_set_self]
    · simp [get?_set_other _ _ hb, hb]
  | some c =>
    by_cases hb : b = a
    · subst hb; simp [get?_set_self]
    · simp [get?_set_other _ _ hb, hb]

theorem nodup_bump {s : SAD α} (h : s.counts.keys.Nodup) (a : α) (w : ℝ) : (s.bump a w).counts.keys.Nodup := by
  unfold SAD.bump
  cases s.counts.get? a <;> exact nodup_keys_set h

theorem Alike.bump {s t : SAD α} (h : Alike s t) (a : α) (w : ℝ) : Alike (s.bump a w) (t.bump a w) where
  n := by rw [SAD.bump_n, SAD.bump_n, h.n]
  sum := by rw [SAD.bump_sum, SAD.bump_sum, h.sum]
  get := fun b => by rw [get?_bump, get?_bump, h.get, h.get]
  nodup := nodup_bump h.nodup a w
  nodup' := nodup_bump h.nodup' a w

theorem Alike.indist {s t : SAD α} (h : Alike s t) : Indist SAD.predictor s t := by
  refine ⟨Alike, fun s t h => ⟨fun a hh w => ?_, fun a hh => ?_⟩, h⟩
  · change SameResult _ (s.update a w) (t.update a w)
    rw [SAD.update_eq, SAD.update_eq, h.logPredict]
    cases t.logPredict a with
    | error e => rfl
    | ok r => exact ⟨rfl, h.bump a w⟩
  · simp only [SAD.predictor, h.logPredict]
    cases t.logPredict a with
    | error e => rfl
    | ok r => exact ⟨rfl, h⟩

/-- The state after any successful run of `SAD`. -/
theorem sad_run {s t : SAD α} (hn : s.counts.keys.Nodup) {xs : List (Obs α)} {r : ℝ} (h : SAD.predictor.run s xs = .ok (r, t)) :
    t.n = s.n ∧ t.sumCounts = s.sumCounts + totalWeight xs ∧ t.counts.keys.Nodup ∧
      ∀ a, t.counts.get? a = if a ∈ xs.map Obs.sym then some ((s.counts.get? a).getD 0 + weightOf a xs) else s.counts.get? a := by
  induction xs generalizing s r with
  | nil =>
    simp only [Predictor.run, pure_eq_ok, Except.ok.injEq, Prod.mk.injEq] at h
    obtain ⟨-, rfl⟩ := h
    exact ⟨rfl, by simp [totalWeight], hn, by simp⟩
  | cons o xs ih =>
    obtain ⟨r1, u, r2, h1, h2, -⟩ := Predictor.run_cons_ok.mp h
    change s.update o.sym o.weight = _ at h1
    rw [SAD.update_eq] at h1
    simp only [bind_eq_ok, pure_eq_ok, Except.ok.injEq, Prod.mk.injEq] at h1
    obtain ⟨q, -, -, rfl⟩ := h1
    obtain ⟨k1, k2, k3, k4⟩ := ih (nodup_bump hn _ _) h2
    refine ⟨by rw [k1, SAD.bump_n], ?_, k3, fun a => ?_⟩
    · rw [k2, SAD.bump_sum]
      simp only [totalWeight, List.map_cons, List.sum_cons]
      ring
    · rw [k4, get?_bump, weightOf_cons]
      by_cases ha : a = o.sym
      · subst ha
        have hz : o.sym ∉ xs.map Obs.sym → weightOf o.sym xs = 0 := by
          intro hx
          unfold weightOf
          refine List.sum_eq_zero fun y hy => ?_
          obtain ⟨p, hp, rfl⟩ := List.mem_map.mp hy
          rw [if_neg]
          intro hps
          exact hx (List.mem_map.mpr ⟨p, hp, hps⟩)
        by_cases hx : o.sym ∈ xs.map Obs.sym
        · rw [if_pos hx, if_pos rfl, if_pos (by simp), if_pos rfl]
          simp only [Option.getD_some]
          congr 1
          ring
        · rw [if_neg hx, if_pos rfl, if_pos (by simp), if_pos rfl, hz hx]
          congr 1
          ring
      · rw [if_neg ha, if_neg (Ne.symm ha), zero_add]
        simp [ha]

/-- The weights of all symbols add up to the total weight. -/
theorem totalWeight_eq (xs : List (Obs α)) (A : Finset α) (hA : ∀ o ∈ xs, o.sym ∈ A) : totalWeight xs = ∑ a ∈ A, weightOf a xs := by
  induction xs with
  | nil => simp [totalWeight, weightOf]
  | cons o xs ih =>
    have : totalWeight (o :: xs) = o.weight + totalWeight xs := by simp [totalWeight]
    rw [this, ih fun p hp => hA p (by simp [hp])]
    simp only [weightOf_cons, Finset.sum_add_distrib]
    rw [Finset.sum_ite_eq, if_pos (hA o (by simp))]

theorem sameTotals_total {xs ys : List (Obs α)} (h : SameTotals xs ys) : totalWeight xs = totalWeight ys := by
  let A : Finset α := (xs.map Obs.sym).toFinset ∪ (ys.map Obs.sym).toFinset
  rw [totalWeight_eq xs A (fun o ho => Finset.mem_union_left _ (List.mem_toFinset.mpr (List.mem_map_of_mem ho))),
    totalWeight_eq ys A (fun o ho => Finset.mem_union_right _ (List.mem_toFinset.mpr (List.mem_map_of_mem ho)))]
  exact Finset.sum_congr rfl fun a _ => h a

/-- A symbol with count zero cannot be predicted. -/
theorem sad_zero {s : SAD α} {a : α} (hg : s.counts.get? a = some 0) (hs : 0 ≤ s.sumCounts) : s.logPredict a = .error .valueError := by
  have hb : ∃ b, s.beta = .ok b ∧ 0 < b := by
    unfold SAD.beta
    by_cases h0 : s.sumCounts > 0
    · have hlen : (1 : ℝ) ≤ s.counts.length := by
        have : 0 < s.counts.length := List.length_pos_of_mem (mem_of_get? hg)
        exact_mod_cast this
      have hm : 0 < min (s.counts.length : ℝ) s.sumCounts := lt_min (by linarith) h0
      have hq : 1 < (s.sumCounts + 1) / min (s.counts.length : ℝ) s.sumCounts := by
        rw [lt_div_iff₀ hm]
        have := min_le_right (s.counts.length : ℝ) s.sumCounts
        linarith
      have hl := Real.log_pos hq
      refine ⟨min (s.counts.length : ℝ) s.sumCounts / (2 * Real.log ((s.sumCounts + 1) / min (s.counts.length : ℝ) s.sumCounts)), ?_, ?_⟩
      · simp only [if_pos h0, pyDiv_of_ne hm.ne', ok_bind, pyLog_of_pos (zero_lt_one.trans hq)]
        exact pyDiv_of_ne (by positivity)
      · positivity
    · exact ⟨1, by simp [h0], one_pos⟩
  obtain ⟨b, hb, hpos⟩ := hb
  simp [SAD.logPredict, hb, hg, pyDiv, pyLog, show s.sumCounts + b ≠ 0 by linarith]

/-- If only totals matter then the ratios of probabilities agree. -/
theorem ratio {σ : Type} {P : Predictor σ α} {s : σ} (hP : P.WeightsAdd s) {xs ys : List (Obs α)} (hxy : SameTotals xs ys) (o : Obs α)
    (hx : ∃ r t, P.run s (xs ++ [o]) = .ok (r, t)) (hy : ∃ r t, P.run s (ys ++ [o]) = .ok (r, t)) :
    P.seqProb s (xs ++ [o]) * P.seqProb s ys = P.seqProb s (ys ++ [o]) * P.seqProb s xs := by
  obtain ⟨r, t, hr⟩ := hx
  obtain ⟨r', t', hr'⟩ := hy
  obtain ⟨p, u, q, h1, h2, rfl⟩ := run_append_ok.mp hr
  obtain ⟨p', u', q', h1', h2', rfl⟩ := run_append_ok.mp hr'
  have ho := hP xs ys p p' u u' hxy h1 h1' [.update o.sym o.hist o.weight]
  obtain ⟨a, v, b, k1, k2, rfl⟩ := run_cons_ok.mp h2
  obtain ⟨a', v', b', k1', k2', rfl⟩ := run_cons_ok.mp h2'
  simp only [Predictor.run, pure_eq_ok, Except.ok.injEq, Prod.mk.injEq] at k2 k2'
  simp only [Predictor.outputs, Predictor.step, k1, k1', List.cons.injEq, Except.ok.injEq, and_true] at ho
  simp only [seqProb, hr, hr', h1, h1', probOf, ← k2.1, ← k2'.1, ho, Real.exp_add]
  ring

/-- Probabilities of `KTBinary`, one symbol after the other. -/
theorem ktb_cons (c d : ℝ) (hc : 0 < c) (hd : 0 < d) (b : Bool) (h : List Bool) (w : ℝ) (xs : List (Obs Bool)) :
    KTBinary.predictor.seqProb ⟨c, d⟩ (⟨b, h, w⟩ :: xs) =
      (if b then d else c) / (c + d) * KTBinary.predictor.seqProb (if b then ⟨c, d + w⟩ else ⟨c + w, d⟩) xs := by
  have hl : KTBinary.predictor.update ⟨c, d⟩ b h w =
      .ok (Real.log ((if b then d else c) / (c + d)), if b then ⟨c, d + w⟩ else ⟨c + w, d⟩) := by
    have hp : 0 < (if b then d else c) / (c + d) := by
      cases b
      · simp only [Bool.false_eq_true, if_false]; positivity
      · simp only [if_true]; positivity
    simp only [KTBinary.predictor, KTBinary.update, KTBinary.logPredict, KTBinary.get, KTBinary.bump, pyDiv_of_ne (show c + d ≠ 0 by positivity), ok_bind,
      pyLog_of_pos hp, pure_eq_ok]
  have hp : 0 < (if b then d else c) / (c + d) := by
    cases b
    · simp only [Bool.false_eq_true, if_false]; positivity
    · simp only [if_true]; positivity
  simp only [seqProb, Predictor.run, hl, ok_bind]
  cases KTBinary.predictor.run (if b then (⟨c, d + w⟩ : KTBinary) else ⟨c + w, d⟩) xs with
  | error e => simp [probOf]
  | ok q => simp only [ok_bind, pure_eq_ok, probOf]; rw [Real.exp_add, Real.exp_log hp]

/-- The context-tree mixture of depth one over binary contexts. -/
theorem ctwProb_one {β : Type} {base : List β → ℝ} (hb : base [] = 1) (S : List (List Bool × β)) : ctwProb base 1 S =
    1 / 2 * base (S.map Prod.snd) + 1 / 2 * (base ((subCtx true S).map Prod.snd) * base ((subCtx false S).map Prod.snd)) := by
  rw [ctwProb, prod_heads_subset hb 0 S (Finset.subset_univ _), Fintype.prod_bool]
  rfl

theorem subCtx_cons {β κ : Type} [DecidableEq κ] (c d : κ) (ds : List κ) (b : β) (S : List (List κ × β)) :
    subCtx c ((d :: ds, b) :: S) = if d = c then (ds, b) :: subCtx c S else subCtx c S := by
  by_cases h : d = c <;> simp [subCtx, List.filterMap_cons, h]

theorem ktb_nil (s : KTBinary) : KTBinary.predictor.seqProb s [] = 1 := by simp [seqProb, Predictor.run, probOf]

end Weights

open Weights

variable {α : Type} [DecidableEq α]

/-- **C136 (KT and KTBinary).** After updates with any weights, positive or not, all later answers of `KT` and `KTBinary` depend on the total weights only.
Missing from the claim: `SAD` and the mixtures. -/
theorem C136_KT_partial :
    (∀ s : KT α, s.counts.keys.Nodup → KT.predictor.WeightsAdd s) ∧ ∀ s : KTBinary, KTBinary.predictor.WeightsAdd s := by
  refine ⟨fun s hn xs ys r r' t t' hxy h h' cs => ?_, fun s xs ys r r' t t' hxy h h' cs => ?_⟩
  · rw [kt_same hn hxy h h']
  · rw [ktb_run h, ktb_run h', hxy false, hxy true]

/-- **C136 (nothing and back).** Hence an update with weight zero changes nothing, and an update with the opposite weight takes an update back. -/
theorem C136_take_back (s t : KT α) (hn : s.counts.keys.Nodup) (a : α) (g h : List α) (w r : ℝ) :
    (KT.predictor.update s a h 0 = .ok (r, t) → t = s) ∧
    (KT.predictor.run s [⟨a, g, w⟩, ⟨a, h, -w⟩] = .ok (r, t) → t = s) := by
  have h0 : KT.predictor.run s ([] : List (Obs α)) = .ok (0, s) := rfl
  constructor
  · intro hu
    have : KT.predictor.run s [⟨a, h, 0⟩] = .ok (r, t) := by simp [Predictor.run, hu]
    exact kt_same hn (fun b => by simp [weightOf]) this h0
  · intro hr
    refine kt_same hn (fun b => ?_) hr h0
    simp only [weightOf, List.map_cons, List.map_nil, List.sum_cons, List.sum_nil]
    split_ifs <;> ring

/-- **C136 (no exception).** Updates of `KT` with any weights raise nothing and predictions sum to one, as long as the counts stay positive. -/
theorem C136_positive (A : List α) (hA : A.Nodup) (hne : A ≠ []) (c : α → ℝ) (hc : ∀ a ∈ A, 0 < c a) (xs : List (Obs α)) (hx : ∀ o ∈ xs, o.sym ∈ A)
    (hp : ∀ n, ∀ a ∈ A, 0 < c a + weightOf a (xs.take n)) :
    ∃ r t, KT.predictor.run ⟨A.map fun a => (a, c a), (A.map c).sum⟩ xs = .ok (r, t) ∧
      (A.map fun a => probOf (KT.predictor.logPredict t a [])).sum = 1 ∧ ∀ a ∈ A, ∃ q, KT.predictor.logPredict t a [] = .ok (q, t) := by
  induction xs generalizing c with
  | nil =>
    have hg := KT.good_of_map c hc
    refine ⟨0, _, rfl, ?_, fun a ha => ?_⟩
    · have hS := hg.sum_pos hne
      have : (A.map fun a => probOf (KT.predictor.logPredict (⟨A.map fun a => (a, c a), (A.map c).sum⟩ : KT α) a [])) =
          A.map fun a => c a * ((A.map c).sum)⁻¹ := by
        refine List.map_congr_left fun a ha => ?_
        simp only [KT.predictor, hg.logPredict ha (KT.get?_map c ha), ok_bind, pure_eq_ok, probOf]
        rw [Real.exp_log (div_pos (hc a ha) hS), div_eq_mul_inv]
      rw [this, List.sum_map_mul_right]
      exact mul_inv_cancel₀ hS.ne'
    · exact ⟨Real.log (c a / (A.map c).sum), by simp only [KT.predictor, hg.logPredict ha (KT.get?_map c ha), ok_bind, pure_eq_ok]⟩
  | cons o xs ih =>
    have ha := hx o (by simp)
    have hg := KT.good_of_map c hc
    have hu := hg.update ha (KT.get?_map c ha) o.weight
    let c' : α → ℝ := Function.update c o.sym (c o.sym + o.weight)
    have hc' : ∀ b xs', c' b + weightOf b xs' = c b + weightOf b (o :: xs') := by
      intro b xs'
      rw [weightOf_cons]
      by_cases hb : b = o.sym
      · subst hb; simp only [c', Function.update_self, if_true]; ring
      · simp only [c', Function.update_of_ne hb, if_neg (Ne.symm hb)]; ring
    obtain ⟨r, t, h1, h2⟩ := ih c' (fun b hb => by
        have := hp 1 b hb
        rw [List.take_succ_cons, List.take_zero, ← hc' b []] at this
        simpa [weightOf] using this) (fun p hp' => hx p (by simp [hp'])) (fun n b hb => by
        rw [hc' b (xs.take n)]
        exact hp (n + 1) b hb)
    have hst : (⟨PyDict.set (A.map fun a => (a, c a)) o.sym (c o.sym + o.weight), (A.map c).sum + o.weight⟩ : KT α) =
        ⟨A.map fun a => (a, c' a), (A.map c').sum⟩ := by
      have hk : ∀ f : α → ℝ, PyDict.keys (A.map fun a => (a, f a)) = A := fun f => by simp [PyDict.keys, Function.comp_def]
      have hv : ∀ f : α → ℝ, PyDict.values (A.map fun a => (a, f a)) = A.map f := fun f => by simp [PyDict.values, Function.comp_def]
      have e : PyDict.set (A.map fun a => (a, c a)) o.sym (c o.sym + o.weight) = A.map fun a => (a, c' a) := by
        refine dict_ext ?_ ?_ fun b hb => ?_
        · rw [keys_set_of_mem _ (by rw [hk]; exact ha), hk, hk]
        · rw [keys_set_of_mem _ (by rw [hk]; exact ha), hk]; exact hA
        · rw [keys_set_of_mem _ (by rw [hk]; exact ha), hk] at hb
          rw [KT.get?_map c' hb]
          by_cases hbo : b = o.sym
          · subst hbo; rw [get?_set_self]; simp [c']
          · rw [get?_set_other _ _ hbo, KT.get?_map c hb]; simp [c', Function.update_of_ne hbo]
      have es := sum_values_set (KT.get?_map c ha) o.weight
      rw [e, hv, hv] at es
      rw [e, es]
    refine ⟨_, t, Predictor.run_cons_ok.mpr ⟨_, _, r, hu, ?_, rfl⟩, h2⟩
    rw [hst]
    exact h1

/-- Two updates and taking half of the first back. -/
example : ∃ r t, KT.predictor.run (⟨[false, true].map fun a => (a, 1 / 2), ([false, true].map fun _ => 1 / 2).sum⟩ : KT Bool)
    [⟨false, [], 1⟩, ⟨true, [], 1⟩, ⟨false, [], -1 / 2⟩] = .ok (r, t) := by
  obtain ⟨r, t, h, -⟩ := C136_positive [false, true] (by simp) (by simp) (fun _ => 1 / 2) (by norm_num)
    [⟨false, [], 1⟩, ⟨true, [], 1⟩, ⟨false, [], -1 / 2⟩] (by simp) (by
      intro n a _
      match n with
      | 0 => cases a <;> norm_num [weightOf]
      | 1 => cases a <;> norm_num [weightOf]
      | 2 => cases a <;> norm_num [weightOf]
      | n + 3 => cases a <;> norm_num [weightOf])
  exact ⟨r, t, h⟩

/-- **C136 (which counts can predict).** A `KT` whose cached total is right predicts all symbols if and only if all counts are positive or all are negative. -/
theorem C136_predictable (s : KT α) (hn : s.counts.keys.Nodup) (hne : s.counts ≠ []) (hs : s.sumCounts = s.counts.values.sum) :
    (∀ a ∈ s.counts.keys, ∃ r, KT.predictor.logPredict s a [] = .ok (r, s)) ↔ (∀ p ∈ s.counts, 0 < p.2) ∨ ∀ p ∈ s.counts, p.2 < 0 := by
  have key : ∀ p ∈ s.counts, ((∃ r, KT.predictor.logPredict s p.1 [] = .ok (r, s)) ↔ 0 < p.2 / s.sumCounts ∧ s.sumCounts ≠ 0) := by
    intro p hp
    have hg : s.counts.getE p.1 = .ok p.2 := getE_ok.mpr (get?_of_mem hn hp)
    simp only [KT.predictor, KT.logPredict, hg, ok_bind, pyDiv, pyLog]
    by_cases h0 : s.sumCounts = 0
    · simp [h0]
    · by_cases h1 : 0 < p.2 / s.sumCounts <;> simp [h0, h1]
  have hall : (∀ a ∈ s.counts.keys, ∃ r, KT.predictor.logPredict s a [] = .ok (r, s)) ↔ ∀ p ∈ s.counts, 0 < p.2 / s.sumCounts ∧ s.sumCounts ≠ 0 := by
    constructor
    · intro h p hp
      exact (key p hp).mp (h p.1 (List.mem_map.mpr ⟨p, hp, rfl⟩))
    · intro h a ha
      obtain ⟨p, hp, rfl⟩ := List.mem_map.mp ha
      exact (key p hp).mpr (h p hp)
  rw [hall]
  constructor
  · intro h
    obtain ⟨p0, hp0⟩ := List.exists_mem_of_ne_nil _ hne
    rcases lt_or_gt_of_ne (h p0 hp0).2 with hS | hS
    · right
      intro p hp
      by_contra hc
      have := div_nonpos_of_nonneg_of_nonpos (not_lt.mp hc) hS.le
      linarith [(h p hp).1]
    · left
      intro p hp
      by_contra hc
      have := div_nonpos_of_nonpos_of_nonneg (not_lt.mp hc) hS.le
      linarith [(h p hp).1]
  · have hv : s.counts.values ≠ [] := by simpa [PyDict.values] using hne
    rintro (h | h) p hp
    · have hS : 0 < s.sumCounts := by
        rw [hs]
        refine List.sum_pos _ (fun x hx => ?_) hv
        obtain ⟨q, hq, rfl⟩ := List.mem_map.mp hx
        exact h q hq
      exact ⟨div_pos (h p hp) hS, hS.ne'⟩
    · have hS : s.sumCounts < 0 := by
        rw [hs]
        have : 0 < (s.counts.values.map Neg.neg).sum := by
          refine List.sum_pos _ (fun x hx => ?_) (by simpa using hv)
          obtain ⟨y, hy, rfl⟩ := List.mem_map.mp hx
          obtain ⟨q, hq, rfl⟩ := List.mem_map.mp hy
          linarith [h q hq]
        rw [← List.sum_neg] at this
        linarith
      exact ⟨div_pos_of_neg_of_neg (h p hp) hS, hS.ne⟩

/-- **C136 (more than one).** A negative weight can make `KTBinary` predict 0 with "probability" 5/4, and refuse to predict 1. -/
theorem C136_above_one : ∃ r t, KTBinary.predictor.run (KTBinary.init none) [⟨false, [], -3⟩] = .ok (r, t) ∧
    KTBinary.predictor.predict t false [] = .ok (5 / 4, t) ∧ KTBinary.predictor.predict t true [] = .error .valueError := by
  refine ⟨Real.log (1 / 2), ⟨-5 / 2, 1 / 2⟩, ?_, ?_, ?_⟩
  · norm_num [Predictor.run, KTBinary.predictor, KTBinary.update, KTBinary.logPredict, KTBinary.init, KTBinary.get, KTBinary.bump, pyDiv, pyLog]
  · have : KTBinary.logPredict ⟨-5 / 2, 1 / 2⟩ false = .ok (Real.log (5 / 4)) := by
      norm_num [KTBinary.logPredict, KTBinary.get, pyDiv, pyLog]
    simp only [Predictor.predict, KTBinary.predictor, this, ok_bind, pure_eq_ok]
    rw [Real.exp_log (by norm_num)]
  · have : KTBinary.logPredict ⟨-5 / 2, 1 / 2⟩ true = .error .valueError := by
      norm_num [KTBinary.logPredict, KTBinary.get, pyDiv, pyLog]
    simp only [Predictor.predict, KTBinary.predictor, this, error_bind]

/-- **C136 (SAD).** The later answers of `SAD` depend on the total weights and on the set of symbols that were seen. -/
theorem C136_SAD_partial (s t t' : SAD α) (hn : s.counts.keys.Nodup) (xs ys : List (Obs α)) (r r' : ℝ) (hxy : SameTotals xs ys)
    (hsym : SameSymbols xs ys) (h : SAD.predictor.run s xs = .ok (r, t)) (h' : SAD.predictor.run s ys = .ok (r', t')) (cs : List (Call α)) :
    SAD.predictor.outputs t cs = SAD.predictor.outputs t' cs := by
  obtain ⟨k1, k2, k3, k4⟩ := sad_run hn h
  obtain ⟨l1, l2, l3, l4⟩ := sad_run hn h'
  refine Indist.outputs_eq (Alike.indist ⟨k1.trans l1.symm, ?_, fun a => ?_, k3, l3⟩) cs
  · rw [k2, l2, sameTotals_total hxy]
  · rw [k4, l4, hxy a]
    by_cases ha : a ∈ xs.map Obs.sym
    · rw [if_pos ha, if_pos ((hsym a).mp ha)]
    · rw [if_neg ha, if_neg fun hb => ha ((hsym a).mpr hb)]

/-- **C136 (the code violates it: SAD).** If the first update of a `SAD` with a symbol has weight zero then the symbol cannot be predicted and cannot be
learned any more, whatever else is observed. -/
theorem C136_SAD_zero (s t : SAD α) (hn : s.counts.keys.Nodup) (hs : 0 ≤ s.sumCounts) (a : α) (ha : a ∉ s.counts.keys) (h : List α) (r : ℝ)
    (hu : SAD.predictor.update s a h 0 = .ok (r, t)) (xs : List (Obs α)) (hx : ∀ o ∈ xs, 0 ≤ o.weight) (q : ℝ) (u : SAD α)
    (hr : SAD.predictor.run t xs = .ok (q, u)) (g : List α) (w : ℝ) :
    SAD.predictor.logPredict u a g = .error .valueError ∧ SAD.predictor.update u a g w = .error .valueError := by
  change s.update a 0 = _ at hu
  rw [SAD.update_eq] at hu
  simp only [bind_eq_ok, pure_eq_ok, Except.ok.injEq, Prod.mk.injEq] at hu
  obtain ⟨q0, -, -, rfl⟩ := hu
  have hz : (s.bump a 0).counts.get? a = some 0 := by rw [get?_bump, if_pos rfl, get?_eq_none.mpr ha]; simp
  have hz' : 0 ≤ (s.bump a 0).sumCounts := by rw [SAD.bump_sum]; linarith
  have key : ∀ (xs : List (Obs α)) (v : SAD α) (q : ℝ), (∀ o ∈ xs, 0 ≤ o.weight) → v.counts.get? a = some 0 → 0 ≤ v.sumCounts →
      SAD.predictor.run v xs = .ok (q, u) → u.counts.get? a = some 0 ∧ 0 ≤ u.sumCounts := by
    intro xs
    induction xs with
    | nil =>
      intro v q _ h1 h2 hr
      simp only [Predictor.run, pure_eq_ok, Except.ok.injEq, Prod.mk.injEq] at hr
      obtain ⟨-, rfl⟩ := hr
      exact ⟨h1, h2⟩
    | cons o xs ih =>
      intro v q hx h1 h2 hr
      obtain ⟨r1, v', r2, g1, g2, -⟩ := Predictor.run_cons_ok.mp hr
      change v.update o.sym o.weight = _ at g1
      rw [SAD.update_eq] at g1
      simp only [bind_eq_ok, pure_eq_ok, Except.ok.injEq, Prod.mk.injEq] at g1
      obtain ⟨q1, g1, -, rfl⟩ := g1
      have hne : a ≠ o.sym := by
        intro e
        rw [← e, sad_zero h1 h2] at g1
        exact absurd g1 (by simp)
      refine ih _ _ (fun p hp => hx p (by simp [hp])) ?_ ?_ g2
      · rw [get?_bump, if_neg hne, h1]
      · rw [SAD.bump_sum]
        linarith [hx o (by simp)]
  obtain ⟨k1, k2⟩ := key xs _ q hx hz hz' hr
  have := sad_zero k1 k2
  constructor
  · simp [SAD.predictor, this]
  · change u.update a w = _
    rw [SAD.update_eq, this]
    rfl

/-- A new `SAD` over two symbols accepts the update with weight zero. -/
example : ∃ r t, SAD.predictor.update (SAD.init 2 : SAD ℕ) 0 [] 0 = .ok (r, t) ∧ SAD.predictor.logPredict t 0 [] = .error .valueError := by
  have h : SAD.predictor.update (SAD.init 2 : SAD ℕ) 0 [] 0 = .ok (Real.log (1 / 2), ⟨2, [(0, 0)], 0⟩) := by
    norm_num [SAD.predictor, SAD.update, SAD.logPredict, SAD.beta, SAD.init, PyDict.get?, PyDict.set, PyDict.getE, pyDiv, pyLog]
  exact ⟨_, _, h, (C136_SAD_zero _ _ (by simp [SAD.init]) (by simp [SAD.init]) 0 (by simp [SAD.init]) [] _ h [] (by simp) 0 _ rfl [] 1).1⟩

/-- **C136 (the code violates it: mixtures).** In an `Averager` and in a `CTW` over `KTBinary`, an update with weight zero changes later answers. -/
theorem C136_mixtures :
    (∃ s, Averager.init [(⟨1, 3⟩ : KTBinary), ⟨3, 1⟩] = .ok s ∧ ¬ (Averager.predictor KTBinary.predictor).WeightsAdd s) ∧
    ¬ (CTW.predictor KTBinary.predictor (KTBinary.init none) (CTW.mkcontext 1 false)).WeightsAdd (CTW.init (KTBinary.init none)) := by
  constructor
  · obtain ⟨s, h0, -⟩ := C08_Averager_mixture KTBinary.predictor [(⟨1, 3⟩ : KTBinary), ⟨3, 1⟩] (by simp) []
    refine ⟨s, h0, fun hW => ?_⟩
    have hrun : ∀ xs : List (Obs Bool), (∀ o ∈ xs, 0 ≤ o.weight) → ∃ r t, (Averager.predictor KTBinary.predictor).run s xs = .ok (r, t) ∧
        Real.exp r = (KTBinary.predictor.seqProb ⟨1, 3⟩ xs + KTBinary.predictor.seqProb ⟨3, 1⟩ xs) / 2 := by
      intro xs hx
      obtain ⟨s', h0', h1, h2⟩ := C08_Averager_mixture KTBinary.predictor [(⟨1, 3⟩ : KTBinary), ⟨3, 1⟩] (by simp) xs
      rw [h0, Except.ok.injEq] at h0'
      subst h0'
      obtain ⟨r, t, hr⟩ := h1.mpr (by
        intro m hm
        simp only [List.mem_cons, List.not_mem_nil, or_false] at hm
        obtain ⟨r, t, h, -⟩ := KTBinary.lawful.updateLawful.run_ok (s := m) (xs := xs) (by rcases hm with rfl | rfl <;> norm_num)
          (fun o ho => ⟨by cases o.sym <;> simp, hx o ho⟩)
        exact ⟨r, t, h⟩)
      refine ⟨r, t, hr, ?_⟩
      rw [(h2 r t hr).1]
      simp
    have hprob : ∀ xs : List (Obs Bool), (∀ o ∈ xs, 0 ≤ o.weight) → (Averager.predictor KTBinary.predictor).seqProb s xs =
        (KTBinary.predictor.seqProb ⟨1, 3⟩ xs + KTBinary.predictor.seqProb ⟨3, 1⟩ xs) / 2 := by
      intro xs hx
      obtain ⟨r, t, hr, he⟩ := hrun xs hx
      rw [seqProb, hr, probOf, he]
    have ok : ∀ xs : List (Obs Bool), (∀ o ∈ xs, 0 ≤ o.weight) → ∃ r t, (Averager.predictor KTBinary.predictor).run s xs = .ok (r, t) := by
      intro xs hx
      obtain ⟨r, t, hr, -⟩ := hrun xs hx
      exact ⟨r, t, hr⟩
    have hc := ratio hW (xs := []) (ys := [⟨true, [], 0⟩]) (fun a => by simp [weightOf]) ⟨true, [], 1⟩ (ok _ (by simp)) (ok _ (by simp))
    rw [hprob _ (by simp), hprob _ (by simp), hprob _ (by simp), hprob _ (by simp)] at hc
    norm_num [ktb_cons, ktb_nil] at hc
  · intro hW
    have hlen : ∀ h : List Bool, (CTW.mkcontext 1 false h).length = 1 := fun h => by
      rw [CTW.mkcontext, pyTail, if_neg (by omega), List.length_append, List.length_replicate, List.length_drop]
      omega
    have hrun : ∀ xs : List (Obs Bool), (∀ o ∈ xs, 0 ≤ o.weight) → ∃ r t,
        (CTW.predictor KTBinary.predictor (KTBinary.init none) (CTW.mkcontext 1 false)).run (CTW.init (KTBinary.init none)) xs = .ok (r, t) := by
      intro xs hx
      exact C13_CTW_run_succeeds KTBinary.predictor (KTBinary.init none) (CTW.mkcontext 1 false) _ _ _ KTBinary.lawful.updateLawful
        (by norm_num [KTBinary.init]) 1 hlen xs (fun o ho => ⟨by cases o.sym <;> simp, hx o ho⟩)
    have hprob : ∀ xs : List (Obs Bool), (∀ o ∈ xs, 0 ≤ o.weight) →
        (CTW.predictor KTBinary.predictor (KTBinary.init none) (CTW.mkcontext 1 false)).seqProb (CTW.init (KTBinary.init none)) xs =
        ctwProb (KTBinary.predictor.seqProb (KTBinary.init none)) 1 (withCtx (CTW.mkcontext 1 false) xs) := by
      intro xs hx
      obtain ⟨r, t, hr⟩ := hrun xs hx
      rw [seqProb, hr, probOf, C13_CTW_closed_form _ _ _ 1 xs (fun o _ => hlen _) r t hr]
    have hc := ratio hW (xs := [⟨true, [false], 1⟩, ⟨false, [true], 1⟩]) (ys := [⟨true, [false], 1⟩, ⟨false, [true], 1⟩, ⟨true, [false], 0⟩])
      (fun a => by simp [weightOf]) ⟨true, [false], 1⟩ (hrun _ (by simp)) (hrun _ (by simp))
    rw [hprob _ (by simp), hprob _ (by simp), hprob _ (by simp), hprob _ (by simp)] at hc
    simp only [ctwProb_one (ktb_nil (KTBinary.init none))] at hc
    norm_num [withCtx, CTW.mkcontext, pyTail, subCtx_cons, subCtx_nil, KTBinary.init, ktb_cons, ktb_nil] at hc

end Verif
