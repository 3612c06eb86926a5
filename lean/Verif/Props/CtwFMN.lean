import Verif.Proofs.CtwFMN
import Verif.Props.FMN
import Verif.Props.Ctw

/-!
# C65, C66: `ctw.FMN`

The theorems hold for every order in which Python may enumerate the stored models, and for every store meeting
`Store.Lawful`.
-/

namespace Verif

open Predictor PTWNode

variable {S σ α : Type} (St : Store S σ) (add : S → σ → S) (Keep : S → σ → Prop) (Q : ProbSeq σ α)
  (ord : ℕ → List σ → List σ) (height : ℕ)

/-- The mean of the probabilities that models assign to a sequence, after their `log_prob` has been set to zero. -/
noncomputable def meanReset (ms : List σ) (ys : List (Obs α)) : ℝ :=
  (ms.map fun m => Q.toPredictor.seqProb (Q.setLP m 0) ys).sum / ms.length

theorem meanReset_nil {ms : List σ} (hne : ms ≠ []) : meanReset Q ms [] = 1 := by
  have hpos : (0 : ℝ) < ms.length := by exact_mod_cast List.length_pos_iff.mpr hne
  have : ∀ m : σ, Q.toPredictor.seqProb m [] = 1 := fun m => by simp [seqProb, Predictor.run, probOf]
  simp only [meanReset, this, List.map_const', List.sum_replicate, nsmul_eq_mul, mul_one]
  exact div_self hpos.ne'

/-- **C65 (success and limit).** A run succeeds if it has at most `2 ^ height` symbols; otherwise the assertion on the
height fails. -/
theorem C65_ctw_FMN_total (hSt : St.Lawful add Keep) (ho : ∀ t l, (ord t l).Perm l) (I : σ → Prop) (A : List α)
    (W : ℝ → Prop) (hB : CFMN.Base Q I A W) (f : σ) (hf : I f) (xs : List (Obs α))
    (hx : ∀ o ∈ xs, o.sym ∈ A ∧ W o.weight) :
    ∃ s0, CFMN.init St Q (ord 0) f = .ok s0 ∧
      (xs.length ≤ 2 ^ height → ∃ r s, (CFMN.probSeq St Q ord ord height).toPredictor.run s0 xs = .ok (r, s)) ∧
      (2 ^ height < xs.length →
        (CFMN.probSeq St Q ord ord height).toPredictor.run s0 xs = .error .assertionError) := by
  obtain ⟨s0, r, s, fr, ms, h1, h2⟩ := CFMN.hist_run (height := height) (xs := xs.take (2 ^ height)) hB hSt ho hf
    (GoodObs.take _ _ hx) (by rw [List.length_take]; omega)
  refine ⟨s0, h1, ?_, ?_⟩
  · intro hl
    have := h2.run
    rw [List.take_of_length_le hl] at this
    exact ⟨r, s, this⟩
  · intro hl
    have hd : xs = xs.take (2 ^ height) ++ xs.drop (2 ^ height) := (List.take_append_drop _ _).symm
    cases hdr : xs.drop (2 ^ height) with
    | nil =>
      have := congrArg List.length hdr
      rw [List.length_drop, List.length_nil] at this
      omega
    | cons o ys =>
      have hmem : o ∈ xs := List.mem_of_mem_drop (hdr ▸ List.mem_cons_self)
      have hlen : (xs.take (2 ^ height)).length = 2 ^ height := by rw [List.length_take]; omega
      have herr := (CFMN.hist_step hB hSt ho h2 (hx o hmem).1 (hx o hmem).2).2 hlen
      rw [hd, hdr]
      have happ : ∀ {s r s1} {us : List (Obs α)} {e : PyErr},
          (CFMN.probSeq St Q ord ord height).toPredictor.run s us = .ok (r, s1) →
          (CFMN.probSeq St Q ord ord height).toPredictor.update s1 o.sym o.hist o.weight = .error e →
          (CFMN.probSeq St Q ord ord height).toPredictor.run s (us ++ o :: ys) = .error e := by
        intro s r s1 us e hrun hupd
        induction us generalizing s r with
        | nil =>
          simp only [Predictor.run, pure_eq_ok, Except.ok.injEq, Prod.mk.injEq] at hrun
          obtain ⟨_, rfl⟩ := hrun
          simp only [List.nil_append, Predictor.run, hupd]
          rfl
        | cons u us ih =>
          obtain ⟨r1, s2, r2, k1, k2, _⟩ := run_cons_ok.mp hrun
          simp only [List.cons_append, Predictor.run, k1, ok_bind, ih k2]
          rfl
      exact happ h2.run herr

/-- **C65.** The probability of a sequence is the partition-tree mixture in which the predictor of a block starting at
time `t` is the uniform mixture of the models that the store holds at that time, each with its `log_prob` set to zero. -/
theorem C65_ctw_FMN_closed_form (hSt : St.Lawful add Keep) (ho : ∀ t l, (ord t l).Perm l) (I : σ → Prop) (A : List α)
    (W : ℝ → Prop) (hB : CFMN.Base Q I A W) (f : σ) (hf : I f) (xs : List (Obs α))
    (hx : ∀ o ∈ xs, o.sym ∈ A ∧ W o.weight) (s0 s : CFMN S σ) (r : ℝ) (h0 : CFMN.init St Q (ord 0) f = .ok s0)
    (hr : (CFMN.probSeq St Q ord ord height).toPredictor.run s0 xs = .ok (r, s)) :
    r = s.ptw.logProb ∧ ∃ stores : ℕ → List σ,
      (∀ t ≤ xs.length, ∃ r' s', (CFMN.probSeq St Q ord ord height).toPredictor.run s0 (xs.take t) = .ok (r', s') ∧
        stores t = St.items s'.store) ∧
      (∀ t, stores t ≠ []) ∧ Real.exp r = ptwProb (fun t => meanReset Q (stores t)) 0 height 0 xs := by
  have hlen : xs.length ≤ 2 ^ height := by
    obtain ⟨s1, h1, _, h3⟩ := C65_ctw_FMN_total St add Keep Q ord height hSt ho I A W hB f hf xs hx
    rw [h0] at h1
    simp only [Except.ok.injEq] at h1
    subst h1
    by_contra hc
    rw [h3 (by omega)] at hr
    simp at hr
  obtain ⟨s1, r1, s2, fr, ms, h1, hh⟩ := CFMN.hist_run (height := height) (xs := xs) hB hSt ho hf hx hlen
  rw [h0] at h1
  simp only [Except.ok.injEq] at h1
  subst h1
  have := hh.run
  rw [hr] at this
  simp only [Except.ok.injEq, Prod.mk.injEq] at this
  obtain ⟨rfl, rfl⟩ := this
  refine ⟨hh.total, ?_⟩
  have hex : ∀ t, ∃ l : List σ, l ≠ [] ∧ (t ≤ xs.length →
      (∃ r' s', (CFMN.probSeq St Q ord ord height).toPredictor.run s0 (xs.take t) = .ok (r', s') ∧
        l = St.items s'.store) ∧
      ∀ ys, GoodObs A W ys → blockProb (CAverager.probSeq Q).toPredictor fr t ys = meanReset Q l ys) := by
    intro t
    by_cases ht : t ≤ xs.length
    · obtain ⟨r', s', c1, c2, c3⟩ := hh.factory t ht
      exact ⟨St.items s'.store, List.ne_nil_of_mem (hSt.mem _ _ c2.keep), fun _ => ⟨⟨r', s', c1, rfl⟩,
        fun ys hy => CFMN.base_seqProb hB (ho t) c2.all c3 hy⟩⟩
    · exact ⟨[f], by simp, fun h => absurd h ht⟩
  choose stores hne hst using hex
  refine ⟨stores, fun t ht => (hst t ht).1, hne, ?_⟩
  rw [hh.total, hh.ptw.lp]
  refine ptwProb_congr_on (GoodObs A W) GoodObs.take GoodObs.drop (blockProb_nil _ _) (fun t => meanReset_nil Q (hne t)) height 0 xs hx ?_
  intro i ys hy hi
  exact (hst i (by omega)).2 ys hy

/-- **C65 (schedule).** After `n` observations the store has received, beside the first model, one model per observation:
the best component of the best predictor in the tree after that observation. -/
theorem C65_ctw_FMN_schedule (hSt : St.Lawful add Keep) (ho : ∀ t l, (ord t l).Perm l) (I : σ → Prop) (A : List α)
    (W : ℝ → Prop) (hB : CFMN.Base Q I A W) (f : σ) (hf : I f) (xs : List (Obs α))
    (hx : ∀ o ∈ xs, o.sym ∈ A ∧ W o.weight) (hl : xs.length ≤ 2 ^ height) :
    ∃ s0 r s ms, CFMN.init St Q (ord 0) f = .ok s0 ∧
      (CFMN.probSeq St Q ord ord height).toPredictor.run s0 xs = .ok (r, s) ∧
      s.store = (f :: ms).foldl add St.empty ∧ ms.length = xs.length ∧ f ∈ St.items s.store ∧
      ∀ (i : ℕ) (hi : i < ms.length), ∃ r' s' m,
        (CFMN.probSeq St Q ord ord height).toPredictor.run s0 (xs.take (i + 1)) = .ok (r', s') ∧
        s'.ptw.map (CAverager.probSeq Q) = .ok m ∧ m.map Q = .ok ms[i] := by
  obtain ⟨s0, r, s, fr, ms, h1, hh⟩ := CFMN.hist_run (height := height) (xs := xs) hB hSt ho hf hx hl
  exact ⟨s0, r, s, ms, h1, hh.run, hh.store, hh.count, hSt.mem _ _ hh.good.keep, hh.models⟩

/-- **C65 (size).** With the default store the number of models after `n` observations is `⌊log₂(n + 1)⌋ + 1`. -/
theorem C65_ctw_FMN_store_size (ho : ∀ t l, (ord t l).Perm l) (I : σ → Prop) (A : List α)
    (W : ℝ → Prop) (hB : CFMN.Base Q I A W) (f : σ) (hf : I f) (xs : List (Obs α))
    (hx : ∀ o ∈ xs, o.sym ∈ A ∧ W o.weight) (hl : xs.length ≤ 2 ^ height) :
    ∃ s0 r s, CFMN.init (LogStore.store σ) Q (ord 0) f = .ok s0 ∧
      (CFMN.probSeq (LogStore.store σ) Q ord ord height).toPredictor.run s0 xs = .ok (r, s) ∧
      s.store.items.length = Nat.log 2 (xs.length + 1) + 1 := by
  obtain ⟨s0, r, s, ms, h1, h2, h3, h4, _⟩ :=
    C65_ctw_FMN_schedule (LogStore.store σ) LogStore.add _ Q ord height (LogStore.lawful σ) ho I A W hB f hf xs hx hl
  refine ⟨s0, r, s, h1, h2, ?_⟩
  rw [h3]
  have := C31_LogStore_length (f :: ms) (by simp)
  rw [List.length_cons, h4] at this
  exact this

/-- **C66, partial.** After fewer than `2 ^ height` symbols, `log_predict` returns exactly what `update`
would return, whatever the order in which it sees the stored models, and the predicted probabilities sum to one.  Missing:
base models that stop being normalised when their `log_prob` is set to zero, as `CTW` and `PTW` do, where the claim is
false (`C66_ctw_FMN_CTW_not_normalised`). -/
theorem C66_ctw_FMN_predict_partial (hSt : St.Lawful add Keep) (ho : ∀ t l, (ord t l).Perm l) (I : σ → Prop) (A : List α)
    (W : ℝ → Prop) (hB : CFMN.Base Q I A W) (hP : Q.toPredictor.Lawful I A W) (hstab : CPNode.Stable Q I)
    (f : σ) (hf : I f) (xs : List (Obs α)) (hx : ∀ o ∈ xs, o.sym ∈ A ∧ W o.weight) (hl : xs.length < 2 ^ height)
    (w : ℝ) (hw : W w) (ord' : List σ → List σ) (ho' : ∀ l, (ord' l).Perm l) :
    ∃ s0 r s, CFMN.init St Q (ord 0) f = .ok s0 ∧
      (CFMN.probSeq St Q ord ord height).toPredictor.run s0 xs = .ok (r, s) ∧
      (∀ a ∈ A, ∃ q s' t, CFMN.update St Q ord height s a w = .ok (q, s') ∧
        CFMN.logPredict St Q ord' height s a = .ok (q, t)) ∧
      (A.map fun a => probOf (CFMN.logPredict St Q ord' height s a)).sum = 1 := by
  obtain ⟨s0, r, s, fr, ms, h1, hh⟩ := CFMN.hist_run (height := height) (xs := xs) hB hSt ho hf hx hl.le
  refine ⟨s0, r, s, h1, hh.run, ?_⟩
  have hlawA := CAverager.lawful hB.tracks hB.keep hP
  obtain ⟨v', hv', ho1, hz'⟩ := CFMN.base_ok hB ho' hh.good.all (List.ne_nil_of_mem (hSt.mem _ _ hh.good.keep))
  obtain ⟨_, s1, hrun1, _, hfac⟩ := hh.factory xs.length le_rfl
  rw [List.take_length, hh.run] at hrun1
  simp only [Except.ok.injEq, Prod.mk.injEq] at hrun1
  obtain ⟨rfl, rfl⟩ := hrun1
  have hfresh : ∀ a ∈ A, ∃ q u u', (CAverager.probSeq Q).logPredict (fr xs.length) a = .ok (q, u) ∧
      (CAverager.probSeq Q).logPredict v' a = .ok (q, u') := by
    intro a ha
    obtain ⟨q, _, k1, _⟩ := hlawA.update_ok _ a [] w (hh.over xs.length) ha hw
    obtain ⟨q', _, k1', _⟩ := hlawA.update_ok _ a [] w ho1 ha hw
    obtain ⟨u, k2⟩ := hlawA.coherent _ a [] w (hh.over xs.length) ha hw _ _ k1
    obtain ⟨u', k2'⟩ := hlawA.coherent _ a [] w ho1 ha hw _ _ k1'
    have hg : GoodObs A W [(⟨a, [], w⟩ : Obs α)] := by
      intro o ho
      rw [List.mem_singleton] at ho
      subst ho
      exact ⟨ha, hw⟩
    have e := CFMN.base_seqProb hB (ho _) hh.good.all hfac hg
    rw [← CFMN.base_seqProb hB ho' hh.good.all hv' hg, seqProb_of_run (run_cons_ok.mpr ⟨q, _, 0, k1, rfl, rfl⟩),
      seqProb_of_run (run_cons_ok.mpr ⟨q', _, 0, k1', rfl, rfl⟩), add_zero, add_zero] at e
    have := Real.exp_injective e
    subst this
    exact ⟨q, u, u', k2, k2'⟩
  have key : ∀ a ∈ A, ∃ q s' t, CFMN.update St Q ord height s a w = .ok (q, s') ∧
      s.ptw.update (CAverager.probSeq Q) (fr xs.length) height a w = .ok (q, s'.ptw) ∧
      CFMN.logPredict St Q ord' height s a = .ok (q, t) := by
    intro a ha
    obtain ⟨q, s', _, _, k1, k2, _⟩ := (CFMN.hist_step hB hSt ho hh (o := ⟨a, [], w⟩) ha hw).1 hl
    obtain ⟨t, k3, _⟩ := hh.ptw.predict CAverager.tracks hh.new hlawA hh.over (CAverager.stable hB.keep hstab)
      hh.good.tree ha hw k2
    obtain ⟨x, u, u', k4, k5⟩ := hfresh a ha
    refine ⟨q, s', ⟨t, s.store⟩, k1, k2, ?_⟩
    have : s.ptw.logPredict (CAverager.probSeq Q) v' height a = .ok (q, t) := by
      rw [← k3]
      simp only [CPTW.logPredict, CPNode.logPredict_fresh k4 k5]
    simp only [CFMN.logPredict, hv', ok_bind, this, pure_eq_ok]
  refine ⟨fun a ha => ?_, ?_⟩
  · obtain ⟨q, s', t, k1, _, k3⟩ := key a ha
    exact ⟨q, s', t, k1, k3⟩
  have : ∀ a ∈ A, probOf (CFMN.logPredict St Q ord' height s a) =
      ptwProb (blockProb (CAverager.probSeq Q).toPredictor fr) 0 height 0 (xs ++ [⟨a, [], w⟩]) *
        (Real.exp s.ptw.logProb)⁻¹ := by
    intro a ha
    obtain ⟨q, s', t, _, hu, ht⟩ := key a ha
    obtain ⟨h4, h5, _⟩ := hh.ptw.update (o := ⟨a, [], w⟩) CAverager.tracks hh.new hu
    rw [ht, probOf_ok, h5, Real.exp_sub, h4.lp, div_eq_mul_inv]
  rw [List.map_congr_left this, List.sum_map_mul_right,
    PTW.blockProb_sum hlawA.updateLawful hh.over hx [] hw height 0 (by simpa using hl), ← hh.ptw.lp,
    mul_inv_cancel₀ (Real.exp_pos _).ne']

/-- **C65 (regret).** Against any binary temporal partition of `2 ^ height` steps in which the predictor of each segment is
any model that the store holds when the segment starts, with its `log_prob` set to zero, `ctw.FMN` loses at most a factor
2 per bit of the description of the partition and the store size per segment. -/
theorem C65_ctw_FMN_regret (hSt : St.Lawful add Keep) (ho : ∀ t l, (ord t l).Perm l) (I : σ → Prop) (A : List α)
    (W : ℝ → Prop) (hB : CFMN.Base Q I A W) (f : σ) (hf : I f) (xs : List (Obs α))
    (hx : ∀ o ∈ xs, o.sym ∈ A ∧ W o.weight) (s0 s : CFMN S σ) (r : ℝ) (h0 : CFMN.init St Q (ord 0) f = .ok s0)
    (hr : (CFMN.probSeq St Q ord ord height).toPredictor.run s0 xs = .ok (r, s)) (T : TPart height)
    (stores : ℕ → List σ) (g : ℕ → σ)
    (hst : ∀ t ≤ xs.length, ∀ r' s', (CFMN.probSeq St Q ord ord height).toPredictor.run s0 (xs.take t) = .ok (r', s') →
      stores t = St.items s'.store)
    (hg : ∀ t ≤ xs.length, g t ∈ stores t) :
    (1/2 : ℝ) ^ T.cost * ((T.segments 0 0 xs).map fun q => if q.2 = [] then 1 else
      Q.toPredictor.seqProb (Q.setLP (g q.1) 0) q.2 / (stores q.1).length).prod ≤ Real.exp r := by
  obtain ⟨_, stores', h1, hne, h2⟩ := C65_ctw_FMN_closed_form St add Keep Q ord height hSt ho I A W hB f hf xs hx s0 s r h0 hr
  have heq : ∀ t ≤ xs.length, stores' t = stores t := by
    intro t ht
    obtain ⟨r', s', k1, k2⟩ := h1 t ht
    rw [k2, hst t ht r' s' k1]
  rw [h2]
  have hsum : ∀ (l : List σ) (ys : List (Obs α)), ∀ x ∈ l.map fun m => Q.toPredictor.seqProb (Q.setLP m 0) ys, 0 ≤ x := by
    intro l ys x hx
    obtain ⟨y, _, rfl⟩ := List.mem_map.mp hx
    exact seqProb_nonneg _ _ _
  have hnn : ∀ t ys, 0 ≤ meanReset Q (stores' t) ys := by
    intro t ys
    exact div_nonneg (List.sum_nonneg (hsum _ _)) (Nat.cast_nonneg _)
  refine le_trans ?_ (T.ptwProb_ge (m := 0) hnn 0 xs)
  apply mul_le_mul_of_nonneg_left _ (by positivity)
  have hseg := T.segments_start (m := 0) 0 xs
  generalize T.segments 0 0 xs = l at hseg
  induction l with
  | nil => simp
  | cons q l ih =>
    simp only [List.map_cons, List.prod_cons]
    refine mul_le_mul ?_ (ih (fun q' hq' => hseg q' (by simp [hq']))) ?_ (hnn _ _)
    · split_ifs with he
      · rw [he, meanReset_nil Q (hne q.1)]
      · have ht := (hseg q (by simp) he).2
        rw [heq q.1 (by omega)]
        apply div_le_div_of_nonneg_right _ (Nat.cast_nonneg _)
        exact List.single_le_sum (hsum _ _) _ (List.mem_map.mpr ⟨g q.1, hg q.1 (by omega), rfl⟩)
    · apply List.prod_nonneg
      intro x hx
      obtain ⟨y, _, rfl⟩ := List.mem_map.mp hx
      split_ifs
      · norm_num
      · exact div_nonneg (seqProb_nonneg _ _ _) (Nat.cast_nonneg _)

section KT

variable [DecidableEq α]

/-- `ctw.KT` over any non-empty alphabet can be the base model. -/
theorem C65_ctw_KT_base (A : List α) (hA : A.Nodup) (hne : A ≠ []) :
    CFMN.Base CKT.probSeq (CKT.Good A) A (fun w => 0 ≤ w) where
  tracks := CKT.tracks
  keep _ _ _ _ h := CKT.predict_lp h
  set _ _ := rfl
  zero _ h := h
  total := (CKT.lawful hA hne).updateLawful.total

/-- Setting `log_prob` to zero has no effect on the probabilities of models that do not read it, such as `ctw.KT`. -/
theorem C65_reset_detached (hD : Q.Detached) (ms : List σ) (ys : List (Obs α)) :
    meanReset Q ms ys = meanProb Q.toPredictor ms ys := by
  obtain ⟨R, hR, hR2⟩ := hD
  unfold meanReset meanProb
  congr 2
  apply List.map_congr_left
  intro m _
  exact ((hR.run (hR2 m 0) ys (fun _ _ => trivial)).probOf_eq).symm

/-- **C65 (default model).** `ctw.FMN(height, KT)` accepts exactly the sequences of at most `2 ^ height` symbols; the
probability it reports is the partition-tree mixture over uniform mixtures of the stored models; before the limit its
predictions are what `update` returns and sum to one. -/
theorem C65_ctw_FMN_KT (A : List α) (hA : A.Nodup) (hne : A ≠ []) (ord : ℕ → List (CKT α) → List (CKT α))
    (ho : ∀ t l, (ord t l).Perm l) (xs : List (Obs α)) (hx : ∀ o ∈ xs, o.sym ∈ A ∧ 0 ≤ o.weight) :
    ∃ f s0, CKT.init A none = .ok f ∧ CFMN.init (LogStore.store _) CKT.probSeq (ord 0) f = .ok s0 ∧
      (2 ^ height < xs.length →
        (CFMN.probSeq (LogStore.store _) CKT.probSeq ord ord height).toPredictor.run s0 xs = .error .assertionError) ∧
      (xs.length ≤ 2 ^ height → ∃ r s,
        (CFMN.probSeq (LogStore.store _) CKT.probSeq ord ord height).toPredictor.run s0 xs = .ok (r, s) ∧
        (∃ stores : ℕ → List (CKT α),
          (∀ t ≤ xs.length, ∃ r' s',
            (CFMN.probSeq (LogStore.store _) CKT.probSeq ord ord height).toPredictor.run s0 (xs.take t) = .ok (r', s') ∧
            stores t = s'.store.items) ∧
          Real.exp r = ptwProb (fun t => meanProb CKT.probSeq.toPredictor (stores t)) 0 height 0 xs) ∧
        (xs.length < 2 ^ height → ∀ (ord' : List (CKT α) → List (CKT α)), (∀ l, (ord' l).Perm l) → ∀ w, 0 ≤ w →
          (∀ a ∈ A, ∃ q s' t, CFMN.update (LogStore.store _) CKT.probSeq ord height s a w = .ok (q, s') ∧
            CFMN.logPredict (LogStore.store _) CKT.probSeq ord' height s a = .ok (q, t)) ∧
          (A.map fun a => probOf (CFMN.logPredict (LogStore.store _) CKT.probSeq ord' height s a)).sum = 1)) := by
  have hB := C65_ctw_KT_base A hA hne
  have hf := CKT.good_default hne
  obtain ⟨s0, h1, h2, h3⟩ := C65_ctw_FMN_total (LogStore.store _) LogStore.add _ CKT.probSeq ord height (LogStore.lawful _) ho
    _ A _ hB _ hf xs hx
  refine ⟨_, s0, CKT.init_default hA hne, h1, h3, fun hl => ?_⟩
  obtain ⟨r, s, hr⟩ := h2 hl
  refine ⟨r, s, hr, ?_, ?_⟩
  · obtain ⟨_, stores, k1, _, k2⟩ := C65_ctw_FMN_closed_form (LogStore.store _) LogStore.add _ CKT.probSeq ord height
      (LogStore.lawful _) ho _ A _ hB _ hf xs hx s0 s r h1 hr
    refine ⟨stores, k1, ?_⟩
    rw [k2]
    congr 1
    funext t ys
    exact C65_reset_detached _ C49_ctw_KT_detached.1 _ _
  · intro hlt ord' ho' w hw
    obtain ⟨s0', r', s', k1, k2, k3⟩ := C66_ctw_FMN_predict_partial (LogStore.store _) LogStore.add _ CKT.probSeq ord height
      (LogStore.lawful _) ho _ A _ hB (CKT.lawful hA hne) (CKT.stable _) _ hf xs hx hlt w hw ord' ho'
    rw [h1] at k1
    simp only [Except.ok.injEq] at k1
    subst k1
    rw [hr] at k2
    simp only [Except.ok.injEq, Prod.mk.injEq] at k2
    obtain ⟨rfl, rfl⟩ := k2
    exact k3

/-- C65 for `ctw.FMN(2, lambda: KT([0, 1, 2]))`, whatever the order of the set: it accepts 0 2 2 1, holds three models then, and no fifth symbol. -/
example (ord : ℕ → List (CKT ℕ) → List (CKT ℕ)) (ho : ∀ t l, (ord t l).Perm l) :
    ∃ f s0 r s, CKT.init [0, 1, 2] none = .ok f ∧ CFMN.init (LogStore.store _) CKT.probSeq (ord 0) f = .ok s0 ∧
      (CFMN.probSeq (LogStore.store _) CKT.probSeq ord ord 2).toPredictor.run s0 ([0, 2, 2, 1].map fun a => ⟨a, [], 1⟩) = .ok (r, s) ∧
      s.store.items.length = 3 ∧
      (CFMN.probSeq (LogStore.store _) CKT.probSeq ord ord 2).toPredictor.run s0 ([0, 2, 2, 1, 0].map fun a => ⟨a, [], 1⟩) = .error .assertionError := by
  have hA : ([0, 1, 2] : List ℕ).Nodup := by decide
  have hB := C65_ctw_KT_base [0, 1, 2] hA (by decide)
  have hf := CKT.init_default (A := [0, 1, 2]) hA (by decide)
  have hg := CKT.good_default (A := [0, 1, 2]) (by decide)
  obtain ⟨s0, r, s, h1, h2, h3⟩ := C65_ctw_FMN_store_size CKT.probSeq ord 2 ho _ _ _ hB _ hg ([0, 2, 2, 1].map fun a => ⟨a, [], 1⟩) (by simp) (by simp)
  obtain ⟨s1, g1, -, g2⟩ := C65_ctw_FMN_total (LogStore.store _) _ _ CKT.probSeq ord 2 (LogStore.lawful _) ho _ _ _ hB _ hg
    ([0, 2, 2, 1, 0].map fun a => ⟨a, [], 1⟩) (by simp)
  rw [h1] at g1
  cases g1
  exact ⟨_, s0, r, s, hf, h1, h2, h3.trans (by decide +kernel), g2 (by simp)⟩

end KT

section Witness

/-- A `ctw.CTW` of depth 0 over `KT([0, 1])`, given its counts, `log_prob` and history. -/
noncomputable def wCTW (c0 c1 l : ℝ) (h : List ℕ) : CCTW (CKT ℕ) ℕ := ⟨.mk ⟨[(0, c0), (1, c1)], l⟩ l [] fun _ => none, h⟩

/-- The methods of `ctw.CTW(0)`. -/
noncomputable def wQ : ProbSeq (CCTW (CKT ℕ) ℕ) ℕ := CCTW.probSeq CKT.probSeq ⟨[(0, 1/2), (1, 1/2)], 0⟩ 0 0

theorem wCTW_update (c0 c1 l x : ℝ) (h : List ℕ) (h0 : 0 < c0) (h1 : 0 < c1) :
    wQ.update (wQ.setLP (wCTW c0 c1 l h) x) 0 1 = .ok (l + (Real.log c0 - Real.log (c0 + c1)) - x,
      wCTW (c0 + 1) c1 (l + (Real.log c0 - Real.log (c0 + c1))) (h ++ [0])) ∧
    wQ.update (wQ.setLP (wCTW c0 c1 l h) x) 1 1 = .ok (l + (Real.log c1 - Real.log (c0 + c1)) - x,
      wCTW c0 (c1 + 1) (l + (Real.log c1 - Real.log (c0 + c1))) (h ++ [1])) := by
  have hs : 0 < c0 + c1 := by linarith
  constructor <;>
  simp [wQ, wCTW, CCTW.probSeq, CCTW.update, CCTWNode.update, CKT.probSeq, CKT.update, CKT.logPredict,
      CCTWNode.base, CCTWNode.lp, CCTWNode.keys, CCTWNode.children, PyDict.getE, PyDict.get?, PyDict.set,
      PyDict.values, pyLog_of_pos h0, pyLog_of_pos h1, pyLog_of_pos hs]

theorem wCTW_base : CFMN.Base wQ (fun s => ∃ c0 c1 l h x, 0 < c0 ∧ 0 < c1 ∧ s = wQ.setLP (wCTW c0 c1 l h) x) [0, 1]
    (fun w => w = 1) where
  tracks := CCTW.tracks
  keep := by
    intro s a r t h
    change s.logPredict CKT.probSeq _ 0 0 a = _ at h
    simp only [CCTW.logPredict, CCTWNode.logPredict, bind_eq_ok, pure_eq_ok, Except.ok.injEq, Prod.mk.injEq,
      Prod.exists] at h
    obtain ⟨_, _, ⟨_, _, _, _, rfl⟩, _, rfl⟩ := h
    rfl
  set _ _ := rfl
  zero := by
    rintro s ⟨c0, c1, l, h, x, h0, h1, rfl⟩
    exact ⟨c0, c1, l, h, 0, h0, h1, rfl⟩
  total := by
    rintro s a hh w ⟨c0, c1, l, h, x, h0, h1, rfl⟩ ha rfl
    obtain ⟨k0, k1⟩ := wCTW_update c0 c1 l x h h0 h1
    simp only [List.mem_cons, List.not_mem_nil, or_false] at ha
    rcases ha with rfl | rfl
    · exact ⟨_, _, k0, c0 + 1, c1, _, _, _, by linarith, h1, rfl⟩
    · exact ⟨_, _, k1, c0, c1 + 1, _, _, _, h0, by linarith, rfl⟩

/-- The probabilities of one and of two symbols. -/
theorem wCTW_probs (c0 c1 l : ℝ) (h : List ℕ) (h0 : 0 < c0) (h1 : 0 < c1) :
    wQ.toPredictor.seqProb (wQ.setLP (wCTW c0 c1 l h) 0) [⟨0, [], 1⟩] = Real.exp l * (c0 / (c0 + c1)) ∧
    wQ.toPredictor.seqProb (wQ.setLP (wCTW c0 c1 l h) 0) [⟨1, [], 1⟩] = Real.exp l * (c1 / (c0 + c1)) ∧
    wQ.toPredictor.seqProb (wQ.setLP (wCTW c0 c1 l h) 0) [⟨0, [], 1⟩, ⟨0, [], 1⟩] =
      Real.exp l * (c0 / (c0 + c1)) * ((c0 + 1) / (c0 + 1 + c1)) ∧
    wQ.toPredictor.seqProb (wQ.setLP (wCTW c0 c1 l h) 0) [⟨0, [], 1⟩, ⟨1, [], 1⟩] =
      Real.exp l * (c0 / (c0 + c1)) * (c1 / (c0 + 1 + c1)) := by
  obtain ⟨k0, k1⟩ := wCTW_update c0 c1 l 0 h h0 h1
  have hs : 0 < c0 + c1 := by linarith
  have hs' : 0 < c0 + 1 + c1 := by linarith
  have h0' : 0 < c0 + 1 := by linarith
  obtain ⟨j0, j1⟩ := wCTW_update (c0 + 1) c1 (l + (Real.log c0 - Real.log (c0 + c1)))
    (l + (Real.log c0 - Real.log (c0 + c1))) (h ++ [0]) h0' h1
  refine ⟨?_, ?_, ?_, ?_⟩
  · rw [seqProb_of_run (run_cons_ok.mpr ⟨_, _, 0, k0, rfl, rfl⟩)]
    simp only [sub_zero, add_zero, Real.exp_add, Real.exp_sub, Real.exp_log h0, Real.exp_log hs]
  · rw [seqProb_of_run (run_cons_ok.mpr ⟨_, _, 0, k1, rfl, rfl⟩)]
    simp only [sub_zero, add_zero, Real.exp_add, Real.exp_sub, Real.exp_log h1, Real.exp_log hs]
  · rw [seqProb_of_run (run_cons_ok.mpr ⟨_, _, _, k0, run_cons_ok.mpr ⟨_, _, 0, j0, rfl, rfl⟩, rfl⟩)]
    rw [show ∀ A B : ℝ, A - 0 + (A + B - A + 0) = A + B by intros; ring]
    simp only [Real.exp_add, Real.exp_sub, Real.exp_log h0, Real.exp_log hs, Real.exp_log h0', Real.exp_log hs']
  · rw [seqProb_of_run (run_cons_ok.mpr ⟨_, _, _, k0, run_cons_ok.mpr ⟨_, _, 0, j1, rfl, rfl⟩, rfl⟩)]
    rw [show ∀ A B : ℝ, A - 0 + (A + B - A + 0) = A + B by intros; ring]
    simp only [Real.exp_add, Real.exp_sub, Real.exp_log h0, Real.exp_log hs, Real.exp_log h1, Real.exp_log hs']

/-- **C66 (witness).** The claim is false for `ctw.CTW`: with `FMN(1, lambda: CTW(0))` over the alphabet `[0, 1]`, after
the symbol 0 the probabilities that `update` reports for 0 and 1 are 19/32 and 9/32. -/
theorem C66_ctw_FMN_CTW_not_normalised :
    ∃ (s0 s s' s'' : CFMN (LogStore (CCTW (CKT ℕ) ℕ)) (CCTW (CKT ℕ) ℕ)) (r q0 q1 : ℝ),
      let Q := CCTW.probSeq (CKT.probSeq (α := ℕ)) ⟨[(0, 1/2), (1, 1/2)], 0⟩ 0 0
      CFMN.init (LogStore.store _) Q id (CCTW.init ⟨[(0, 1/2), (1, 1/2)], 0⟩) = .ok s0 ∧
      CFMN.update (LogStore.store _) Q (fun _ => id) 1 s0 0 1 = .ok (r, s) ∧
      CFMN.update (LogStore.store _) Q (fun _ => id) 1 s 0 1 = .ok (q0, s') ∧
      CFMN.update (LogStore.store _) Q (fun _ => id) 1 s 1 1 = .ok (q1, s'') ∧
      Real.exp q0 = 19/32 ∧ Real.exp q1 = 9/32 := by
  let St := LogStore.store (CCTW (CKT ℕ) ℕ)
  let f := wCTW (1/2) (1/2) 0 []
  let ord : ℕ → List (CCTW (CKT ℕ) ℕ) → List (CCTW (CKT ℕ) ℕ) := fun _ => id
  have ho : ∀ t l, (ord t l).Perm l := fun _ l => .refl l
  have hf : ∃ c0 c1 l h x, 0 < c0 ∧ 0 < c1 ∧ f = wQ.setLP (wCTW c0 c1 l h) x :=
    ⟨1/2, 1/2, 0, [], 0, by norm_num, by norm_num, rfl⟩
  have hx : ∀ a : ℕ, a ∈ [0, 1] → ∀ o ∈ [(⟨0, [], 1⟩ : Obs ℕ), ⟨a, [], 1⟩], o.sym ∈ [0, 1] ∧ o.weight = 1 := by
    intro a ha o hm
    simp only [List.mem_cons, List.not_mem_nil, or_false] at hm
    rcases hm with rfl | rfl
    · simp
    · exact ⟨ha, rfl⟩
  have hx1 : ∀ o ∈ [(⟨0, [], 1⟩ : Obs ℕ)], o.sym ∈ [0, 1] ∧ o.weight = 1 := by
    intro o hm
    exact hx 0 (by simp) o (by simp only [List.mem_singleton] at hm; simp [hm])
  -- the first symbol
  have hv0 : CAverager.init wQ [f] = .ok ⟨[wQ.setLP f 0], Real.log (1 / (([f].length : ℕ) : ℝ)), 0⟩ :=
    CAverager.init_ok.mpr ⟨by simp, rfl⟩
  let v0 : CAverager (CCTW (CKT ℕ) ℕ) := ⟨[wQ.setLP f 0], Real.log (1 / (([f].length : ℕ) : ℝ)), 0⟩
  have h0 : CFMN.init St wQ (ord 0) f = .ok ⟨CPTW.init v0, [(f, true)]⟩ := by
    change (do
      let v ← CAverager.init wQ [f]
      pure (⟨CPTW.init v, [(f, true)]⟩ : CFMN (LogStore (CCTW (CKT ℕ) ℕ)) (CCTW (CKT ℕ) ℕ))) = _
    rw [hv0]
    rfl
  let m : CCTW (CKT ℕ) ℕ := wCTW (1/2 + 1) (1/2) (0 + (Real.log (1/2) - Real.log (1/2 + 1/2))) ([] ++ [0])
  have hm : wQ.update (wQ.setLP f 0) 0 1 = .ok (0 + (Real.log (1/2) - Real.log (1/2 + 1/2)) - 0, m) :=
    (wCTW_update (1/2) (1/2) 0 0 [] (by norm_num) (by norm_num)).1
  obtain ⟨r, s1, h1, h2⟩ : ∃ r s1, CFMN.update St wQ ord 1 ⟨CPTW.init v0, [(f, true)]⟩ 0 1 = .ok (r, s1) ∧
      s1.store = [(m, false), (f, true)] := by
    obtain ⟨l, hl⟩ : ∃ l, logsumexp [wQ.lp m] = .ok l := ⟨_, logsumexp_eq (by simp)⟩
    have hu : CAverager.update wQ v0 0 1 = .ok (v0.log1n + l - v0.logProb, { v0 with models := [m], logProb := v0.log1n + l }) := by
      simp only [CAverager.update, v0, CAverager.updateModels, hm, ok_bind, pure_eq_ok, List.map_cons, List.map_nil, hl]
    have hb : CFMN.base St wQ (ord 0) [(f, true)] = .ok v0 := hv0
    have hu' : (CAverager.probSeq wQ).update v0 0 1 = _ := hu
    simp only [CFMN.update, CPTW.init, CPNode.data_leaf, CPData.new, hb, ok_bind, CPTW.update, CPNode.update, if_true,
      CPNode.first, hu', pure_eq_ok, Nat.not_lt_zero, if_false, correctL_eq, CPTW.map, CPNode.mapNodes, Averager.maxByKey,
      CAverager.map, List.map_cons, List.map_nil]
    exact ⟨_, _, rfl, rfl⟩
  have hrun1 : (CFMN.probSeq St wQ ord ord 1).toPredictor.run ⟨CPTW.init v0, [(f, true)]⟩ [⟨0, [], 1⟩] = .ok (r + 0, s1) :=
    run_cons_ok.mpr ⟨r, s1, 0, h1, rfl, rfl⟩
  have hrun0 : (CFMN.probSeq St wQ ord ord 1).toPredictor.run ⟨CPTW.init v0, [(f, true)]⟩ [] =
    .ok (0, ⟨CPTW.init v0, [(f, true)]⟩) := rfl
  have p0 := wCTW_probs (1/2) (1/2) 0 [] (by norm_num) (by norm_num)
  have p1 := wCTW_probs (1/2 + 1) (1/2) (0 + (Real.log (1/2) - Real.log (1/2 + 1/2))) ([] ++ [0]) (by norm_num) (by norm_num)
  have he : Real.exp (0 + (Real.log (1/2) - Real.log (1/2 + 1/2))) = 1/2 := by
    rw [zero_add, Real.exp_sub, Real.exp_log (by norm_num), Real.exp_log (by norm_num)]; norm_num
  rw [he] at p1
  rw [Real.exp_zero] at p0
  have ht : ∀ (x : Obs ℕ) (l : List (Obs ℕ)), (x :: l).take 1 = [x] := fun _ _ => rfl
  have hd : ∀ (x : Obs ℕ) (l : List (Obs ℕ)), (x :: l).drop 1 = l := fun _ _ => rfl
  have hr1 : Real.exp r = 1/2 := by
    obtain ⟨_, stores, k1, k2, k3⟩ := C65_ctw_FMN_closed_form St LogStore.add _ wQ ord 1 (LogStore.lawful _) ho _
      [0, 1] _ wCTW_base f hf _ hx1 _ s1 _ h0 hrun1
    obtain ⟨r', s', k4, k5⟩ := k1 0 (by simp)
    rw [List.take_zero, hrun0] at k4
    simp only [Except.ok.injEq, Prod.mk.injEq] at k4
    obtain ⟨rfl, rfl⟩ := k4
    replace k5 : stores 0 = [f] := k5
    have hp : wQ.toPredictor.seqProb (wQ.setLP f 0) [⟨0, [], 1⟩] = 1/2 := by rw [p0.1]; norm_num
    rw [add_zero] at k3
    simp only [ptwProb, pow_zero, add_zero, Nat.zero_add, ht, hd, meanReset_nil wQ (k2 1), k5] at k3
    rw [k3]
    simp only [meanReset, List.map_cons, List.map_nil, List.sum_cons, List.sum_nil, hp, List.length_cons, List.length_nil]
    norm_num
  have hr2 : ∀ a ∈ [0, 1], ∃ q s', CFMN.update St wQ ord 1 s1 a 1 = .ok (q, s') ∧
      Real.exp q = wQ.toPredictor.seqProb (wQ.setLP f 0) [⟨0, [], 1⟩, ⟨a, [], 1⟩] +
        1/4 * (wQ.toPredictor.seqProb (wQ.setLP m 0) [⟨a, [], 1⟩] + wQ.toPredictor.seqProb (wQ.setLP f 0) [⟨a, [], 1⟩]) := by
    intro a ha
    obtain ⟨_, k1, k2, _⟩ := C65_ctw_FMN_total St LogStore.add _ wQ ord 1 (LogStore.lawful _) ho _
      [0, 1] _ wCTW_base f hf _ (hx a ha)
    rw [h0] at k1
    simp only [Except.ok.injEq] at k1
    subst k1
    obtain ⟨R, s2, k2⟩ := k2 (by simp)
    obtain ⟨r1, t1, r2, c1, c2, c3⟩ := run_cons_ok.mp k2
    obtain ⟨q, t2, r3, c4, c5, c6⟩ := run_cons_ok.mp c2
    change CFMN.update St wQ ord 1 _ 0 1 = _ at c1
    rw [h1] at c1
    simp only [Except.ok.injEq, Prod.mk.injEq] at c1
    obtain ⟨rfl, rfl⟩ := c1
    simp only [Predictor.run, pure_eq_ok, Except.ok.injEq, Prod.mk.injEq] at c5
    obtain ⟨rfl, rfl⟩ := c5
    refine ⟨q, _, c4, ?_⟩
    obtain ⟨_, stores, k1, _, k3⟩ := C65_ctw_FMN_closed_form St LogStore.add _ wQ ord 1 (LogStore.lawful _) ho _
      [0, 1] _ wCTW_base f hf _ (hx a ha) _ _ _ h0 k2
    obtain ⟨r', s', k4, k5⟩ := k1 0 (by simp)
    rw [List.take_zero, hrun0] at k4
    simp only [Except.ok.injEq, Prod.mk.injEq] at k4
    obtain ⟨rfl, rfl⟩ := k4
    replace k5 : stores 0 = [f] := k5
    obtain ⟨r', s', k6, k7⟩ := k1 1 (by simp)
    rw [List.take_succ_cons, List.take_zero, hrun1] at k6
    simp only [Except.ok.injEq, Prod.mk.injEq] at k6
    obtain ⟨rfl, rfl⟩ := k6
    replace k7 : stores 1 = [m, f] := by rw [k7, h2]; rfl
    have hp : wQ.toPredictor.seqProb (wQ.setLP f 0) [⟨0, [], 1⟩] = 1/2 := by rw [p0.1]; norm_num
    simp only [ptwProb, pow_zero, add_zero, Nat.zero_add, ht, hd, k5, k7] at k3
    rw [c3, c6, Real.exp_add, add_zero, hr1] at k3
    simp only [meanReset, List.map_cons, List.map_nil, List.sum_cons, List.sum_nil, hp, List.length_cons, List.length_nil] at k3
    push_cast at k3
    linarith
  obtain ⟨q0, s', g1, g2⟩ := hr2 0 (by simp)
  obtain ⟨q1, s'', g3, g4⟩ := hr2 1 (by simp)
  refine ⟨_, s1, s', s'', r, q0, q1, h0, h1, g1, g3, ?_, ?_⟩
  · rw [g2, p0.2.2.1, p0.1, p1.1]
    norm_num
  · rw [g4, p0.2.2.2, p0.2.1, p1.2.1]
    norm_num

end Witness

end Verif
