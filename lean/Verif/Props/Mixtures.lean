import Verif.Proofs.AveragerLawful

/-!
# C08-C12: `Averager` and `Factored`
-/

namespace Verif

open Predictor

section Averager

variable {σ α : Type} (P : Predictor σ α)

/-- **C08.** The probability an `Averager` over `ms` assigns to a sequence of observations is the mean of the
probabilities its components assign to it; it fails on a sequence exactly when some component does; and
its components end in the states they reach on their own, each with posterior weight proportional to the
probability it assigned. -/
theorem C08_Averager_mixture (ms : List σ) (hne : ms ≠ []) (xs : List (Obs α)) :
    ∃ s0, Averager.init ms = .ok s0 ∧
      ((∃ r s, (Averager.predictor P).run s0 xs = .ok (r, s)) ↔
        ∀ m ∈ ms, ∃ r t, P.run m xs = .ok (r, t)) ∧
      ∀ r s, (Averager.predictor P).run s0 xs = .ok (r, s) →
        Real.exp r = (ms.map fun m => P.seqProb m xs).sum / ms.length ∧
        List.Forall₂ (fun m q => ∃ r', P.run m xs = .ok (r', q.1) ∧
          Real.exp q.2 = P.seqProb m xs / ms.length) ms s.models := by
  have h0 : Averager.init ms = .ok _ := Averager.init_ok.mpr ⟨hne, rfl⟩
  have hi := Averager.inv_init h0
  have hp : 0 < (ms.length : ℝ) := by
    have := List.length_pos_iff.mpr hne
    exact_mod_cast this
  refine ⟨_, h0, ⟨?_, ?_⟩, ?_⟩
  · rintro ⟨r, s, hr⟩ m hm
    obtain ⟨f, _, _⟩ := Averager.run_ok hi hr
    simp only [List.forall₂_map_left_iff] at f
    obtain ⟨i, hi', rfl⟩ := List.mem_iff_getElem.mp hm
    have := (List.forall₂_iff_get.mp f).2 i hi' (f.length_eq ▸ hi')
    exact ⟨_, _, this⟩
  · intro ht
    refine Averager.run_total hi ?_
    intro p hp'
    simp only [List.mem_map] at hp'
    obtain ⟨m, hm, rfl⟩ := hp'
    exact ht m hm
  · intro r s hr
    obtain ⟨f, e, hi'⟩ := Averager.run_ok hi hr
    simp only [List.forall₂_map_left_iff, sub_zero] at f e
    have f' : List.Forall₂ (fun m (q : σ × ℝ) => ∃ r', P.run m xs = .ok (r', q.1) ∧
          Real.exp q.2 = P.seqProb m xs / ms.length) ms s.models := by
      refine f.imp ?_
      intro m q hq
      refine ⟨_, hq, ?_⟩
      rw [seqProb_of_run hq, Real.exp_sub, Real.exp_log (by positivity)]
      field_simp
    refine ⟨?_, f'⟩
    rw [e, hi'.sum]
    clear hi' hr f e hi h0
    have : ∀ (l : List σ) (l' : List (σ × ℝ)), List.Forall₂ (fun m (q : σ × ℝ) =>
        ∃ r', P.run m xs = .ok (r', q.1) ∧ Real.exp q.2 = P.seqProb m xs / ms.length) l l' →
        ((l'.map Prod.snd).map Real.exp).sum = (l.map fun m => P.seqProb m xs).sum / ms.length := by
      intro l l' hf
      induction hf with
      | nil => simp
      | cons hq _ ih =>
        obtain ⟨_, _, hq⟩ := hq
        simp only [List.map_cons, List.sum_cons, hq, ih, add_div]
    exact this _ _ f'

/-- `Averager([])` raises `ZeroDivisionError`, so the non-emptiness hypothesis of C08 is needed. -/
theorem C08_Averager_empty : Averager.init ([] : List σ) = .error .zeroDivisionError := by
  simp [Averager.init, pyDiv]

/-- **C09.** If the components are lawful, then in every state an `Averager` over them can reach by
predictions and updates, `log_predict` returns what `update` returns, neither raises, and the predicted
probabilities over the alphabet sum to one. -/
theorem C09_Averager_lawful (I : σ → Prop) (A : List α) (W : ℝ → Prop) (hP : P.Lawful I A W)
    (ms : List σ) (hm : ∀ m ∈ ms, I m) (s0 s : Averager σ) (h0 : Averager.init ms = .ok s0)
    (hr : Reach (Averager.predictor P) A W s0 s) (h : List α) :
    (∀ a ∈ A, ∀ w, W w → ∃ r s' t, (Averager.predictor P).update s a h w = .ok (r, s') ∧
      (Averager.predictor P).logPredict s a h = .ok (r, t)) ∧
    (∀ a ∈ A, ∃ p t, (Averager.predictor P).predict s a h = .ok (p, t) ∧ 0 < p) ∧
    (A.map fun a => probOf ((Averager.predictor P).logPredict s a h)).sum = 1 := by
  have hL := Averager.lawful hP
  have hs := hL.reach (Averager.over_init hm h0) hr
  refine ⟨?_, ?_, hL.normalised s h hs⟩
  · intro a ha w hw
    obtain ⟨r, s', hu, _⟩ := hL.update_ok s a h w hs ha hw
    obtain ⟨t, ht⟩ := hL.coherent s a h w hs ha hw r s' hu
    exact ⟨r, s', t, hu, ht⟩
  · intro a ha
    obtain ⟨r, t, ht, _⟩ := hL.predict_ok s a h hs ha
    exact ⟨Real.exp r, t, by simp [predict, ht], Real.exp_pos r⟩

/-- **C09 for components whose `update` is normalised but whose `log_predict` may disagree** (such as `PTW`):
the values `update` reports for the symbols of the alphabet still sum to one. -/
theorem C09_Averager_update_normalised (I : σ → Prop) (A : List α) (W : ℝ → Prop)
    (hP : P.UpdateLawful I A W) (ms : List σ) (hm : ∀ m ∈ ms, I m) (s0 s : Averager σ)
    (h0 : Averager.init ms = .ok s0) (xs : List (Obs α)) (hx : ∀ o ∈ xs, o.sym ∈ A ∧ W o.weight) (r : ℝ)
    (hr : (Averager.predictor P).run s0 xs = .ok (r, s)) (h : List α) (w : ℝ) (hw : W w) :
    (A.map fun a => probOf ((Averager.predictor P).update s a h w)).sum = 1 := by
  have hL := Averager.updateLawful hP
  obtain ⟨r', s', h1, h2⟩ := hL.run_ok (Averager.over_init hm h0) hx
  rw [h1] at hr
  simp only [Except.ok.injEq, Prod.mk.injEq] at hr
  exact hL.sum_probOf (hr.2 ▸ h2) hw h

/-- A concrete non-trivial case: an average of two `KT` estimators with different counts. -/
example (h : List ℕ) : ∃ s0, Averager.init [(⟨[(0, 1/2), (1, 1/2)], 1⟩ : KT ℕ), ⟨[(0, 3), (1, 1)], 4⟩] = .ok s0 ∧
    ([0, 1].map fun a => probOf ((Averager.predictor KT.predictor).logPredict s0 a h)).sum = 1 := by
  have h0 := Averager.init_ok (ms := [(⟨[(0, 1/2), (1, 1/2)], 1⟩ : KT ℕ), ⟨[(0, 3), (1, 1)], 4⟩]).mpr
    ⟨by simp, rfl⟩
  refine ⟨_, h0, (C09_Averager_lawful KT.predictor (KT.Good [0, 1]) [0, 1] _
    (KT.lawfulFull (by decide) (by decide)) _ ?_ _ _ h0 .refl h).2.2⟩
  intro m hm
  simp only [List.mem_cons, List.not_mem_nil, or_false] at hm
  rcases hm with rfl | rfl
  · refine ⟨rfl, ?_, by norm_num [PyDict.values]⟩
    intro p hp
    simp only [List.mem_cons, List.not_mem_nil, or_false] at hp
    rcases hp with rfl | rfl <;> norm_num
  · refine ⟨rfl, ?_, by norm_num [PyDict.values]⟩
    intro p hp
    simp only [List.mem_cons, List.not_mem_nil, or_false] at hp
    rcases hp with rfl | rfl <;> norm_num

/-- **C10.** The cumulative log loss of an `Averager` over `n` models exceeds that of each component by at most
`log n`, on every sequence. -/
theorem C10_Averager_regret (ms : List σ) (s0 s : Averager σ) (h0 : Averager.init ms = .ok s0)
    (xs : List (Obs α)) (r : ℝ) (hr : (Averager.predictor P).run s0 xs = .ok (r, s)) (m : σ) (hm : m ∈ ms) :
    ∃ r' t, P.run m xs = .ok (r', t) ∧ -r ≤ -r' + Real.log ms.length := by
  have hne : ms ≠ [] := List.ne_nil_of_mem hm
  obtain ⟨s0', h0', hiff, hmix⟩ := C08_Averager_mixture P ms hne xs
  rw [h0] at h0'
  simp only [Except.ok.injEq] at h0'
  subst h0'
  obtain ⟨r', t, hr'⟩ := hiff.mp ⟨r, s, hr⟩ m hm
  refine ⟨r', t, hr', ?_⟩
  have h1 := (hmix r s hr).1
  have hp : 0 < (ms.length : ℝ) := by
    have := List.length_pos_iff.mpr hne
    exact_mod_cast this
  have h2 : Real.exp r' ≤ (ms.map fun m => P.seqProb m xs).sum := by
    rw [← seqProb_of_run hr']
    apply List.single_le_sum
    · intro x hx
      obtain ⟨y, _, rfl⟩ := List.mem_map.mp hx
      exact P.seqProb_nonneg _ _
    · exact List.mem_map.mpr ⟨m, hm, rfl⟩
  have h3 : Real.exp r' ≤ Real.exp (r + Real.log ms.length) := by
    rw [Real.exp_add, Real.exp_log hp, h1]
    field_simp
    exact h2
  linarith [Real.exp_le_exp.mp h3]

/-- **C11.** `map()` on a non-empty `Averager` returns the first component whose log weight is maximal. -/
theorem C11_Averager_map (s : Averager σ) (hne : s.models ≠ []) :
    ∃ i, ∃ hi : i < s.models.length, s.map = .ok (s.models[i]).1 ∧
      (∀ p ∈ s.models, p.2 ≤ (s.models[i]).2) ∧ ∀ j (hj : j < i), (s.models[j]).2 < (s.models[i]).2 := by
  obtain ⟨models, lp⟩ := s
  cases models with
  | nil => exact absurd rfl hne
  | cons x xs =>
    obtain ⟨i, hi, h1, h2, h3⟩ := Averager.maxByKey_spec x xs
    exact ⟨i, hi, by simp only [Averager.map, h1], h2, h3⟩

/-- **C11, in terms of sequences.** After a run, `map()` returns the final state of a component that assigned the
observed sequence a maximal probability, the first such in the order given. -/
theorem C11_Averager_map_best (ms : List σ) (s0 s : Averager σ) (h0 : Averager.init ms = .ok s0)
    (xs : List (Obs α)) (r : ℝ) (hr : (Averager.predictor P).run s0 xs = .ok (r, s)) :
    ∃ i, ∃ hi : i < ms.length, ∃ r' t, P.run ms[i] xs = .ok (r', t) ∧ s.map = .ok t ∧
      (∀ m ∈ ms, P.seqProb m xs ≤ P.seqProb ms[i] xs) ∧
      ∀ j (hj : j < i), P.seqProb ms[j] xs < P.seqProb ms[i] xs := by
  obtain ⟨hne, -⟩ := Averager.init_ok.mp h0
  obtain ⟨s0', h0', hiff, hmix⟩ := C08_Averager_mixture P ms hne xs
  rw [h0] at h0'
  simp only [Except.ok.injEq] at h0'
  subst h0'
  obtain ⟨-, f⟩ := hmix r s hr
  have hl := f.length_eq
  have hg := (List.forall₂_iff_get.mp f).2
  simp only [List.get_eq_getElem] at hg
  have hp : 0 < (ms.length : ℝ) := by
    have := List.length_pos_iff.mpr hne
    exact_mod_cast this
  have hsne : s.models ≠ [] := by
    intro h
    rw [h] at hl
    exact hne (List.eq_nil_of_length_eq_zero (by simpa using hl))
  obtain ⟨i, hi, h1, h2, h3⟩ := C11_Averager_map s hsne
  obtain ⟨r', hr', hw⟩ := hg i (by omega) hi
  refine ⟨i, by omega, r', _, hr', h1, ?_, ?_⟩
  · intro m hm
    obtain ⟨j, hj, rfl⟩ := List.mem_iff_getElem.mp hm
    obtain ⟨_, _, hwj⟩ := hg j hj (by omega)
    have := Real.exp_le_exp.mpr (h2 (s.models[j]'(by omega)) (List.getElem_mem _))
    rw [hw, hwj] at this
    exact (div_le_div_iff_of_pos_right hp).mp this
  · intro j hj
    obtain ⟨_, _, hwj⟩ := hg j (by omega) (by omega)
    have := Real.exp_lt_exp.mpr (h3 j hj)
    rw [hw, hwj] at this
    exact (div_lt_div_iff_of_pos_right hp).mp this

/-- Ties go to the earlier component. -/
example : (⟨[(1, -2), (2, -1), (3, -1)], 0⟩ : Averager ℕ).map = .ok 2 := by
  norm_num [Averager.map, Averager.maxByKey]

end Averager

section Factored

variable {σ α : Type} (P : Predictor σ α)

/-- **C12.** With `k ≥ 1` factors and a history of length `t`, `update` and `log_predict` call the method of
factor `t mod k`, return its value or raise its exception, and leave every other factor as it was.
(The weight passed on is 1 whatever the caller's weight: see `C12_Factored_drops_weight`.) -/
theorem C12_Factored_routes_partial (s : Factored σ) (a : α) (h : List α) (w : ℝ)
    (hk : 0 < s.factors.length) :
    ∃ hi : h.length % s.factors.length < s.factors.length,
      (∀ e, P.update s.factors[h.length % s.factors.length] a h 1 = .error e →
        (Factored.predictor P).update s a h w = .error e) ∧
      (∀ r m', P.update s.factors[h.length % s.factors.length] a h 1 = .ok (r, m') →
        ∃ s', (Factored.predictor P).update s a h w = .ok (r, s') ∧
          s'.factors.length = s.factors.length ∧
          s'.factors[h.length % s.factors.length]? = some m' ∧
          ∀ j, j ≠ h.length % s.factors.length → s'.factors[j]? = s.factors[j]?) ∧
      (∀ e, P.logPredict s.factors[h.length % s.factors.length] a h = .error e →
        (Factored.predictor P).logPredict s a h = .error e) ∧
      (∀ r m', P.logPredict s.factors[h.length % s.factors.length] a h = .ok (r, m') →
        ∃ s', (Factored.predictor P).logPredict s a h = .ok (r, s') ∧
          s'.factors.length = s.factors.length ∧
          s'.factors[h.length % s.factors.length]? = some m' ∧
          ∀ j, j ≠ h.length % s.factors.length → s'.factors[j]? = s.factors[j]?) := by
  have hi := Nat.mod_lt h.length hk
  have hidx : s.index h = .ok (h.length % s.factors.length) := by
    simp [Factored.index, hk.ne']
  have hget : pyGet s.factors (h.length % s.factors.length) = .ok s.factors[h.length % s.factors.length] := by
    simp [pyGet, List.getElem?_eq_getElem hi]
  refine ⟨hi, ?_, ?_, ?_, ?_⟩
  · intro e he
    simp [Factored.predictor, Factored.update, hidx, hget, he]
  · intro r m' hu
    refine ⟨⟨s.factors.set (h.length % s.factors.length) m'⟩, ?_, by simp, by simp [hi], ?_⟩
    · simp [Factored.predictor, Factored.update, hidx, hget, hu]
    · intro j hj
      simp [List.getElem?_set_ne (Ne.symm hj)]
  · intro e he
    simp [Factored.predictor, Factored.logPredict, hidx, hget, he]
  · intro r m' hu
    refine ⟨⟨s.factors.set (h.length % s.factors.length) m'⟩, ?_, by simp, by simp [hi], ?_⟩
    · simp [Factored.predictor, Factored.logPredict, hidx, hget, hu]
    · intro j hj
      simp [List.getElem?_set_ne (Ne.symm hj)]

/-- **C12 (no factors).** -/
theorem C12_Factored_empty (a : α) (h : List α) (w : ℝ) :
    (Factored.predictor P).update ⟨[]⟩ a h w = .error .zeroDivisionError ∧
    (Factored.predictor P).logPredict ⟨[]⟩ a h = .error .zeroDivisionError := by
  constructor <;> rfl

/-- **C12 (defect).** `Factored` ignores the weight it is given: a factor updated through it with weight 5 ends in
a state different from the one its own `update` with weight 5 leads to. -/
theorem C12_Factored_drops_weight :
    (∀ (s : Factored σ) (a : α) (h : List α) (w w' : ℝ),
      (Factored.predictor P).update s a h w = (Factored.predictor P).update s a h w') ∧
    ∃ (r : ℝ) (s : Factored KTBinary) (r' : ℝ) (b : KTBinary),
      (Factored.predictor KTBinary.predictor).update ⟨[KTBinary.init none]⟩ true [] 5 = .ok (r, s) ∧
      KTBinary.predictor.update (KTBinary.init none) true [] 5 = .ok (r', b) ∧ s.factors ≠ [b] := by
  refine ⟨fun _ _ _ _ _ => rfl, ?_⟩
  have hlp : (KTBinary.init none).logPredict true = .ok (Real.log (1/2)) := by
    norm_num [KTBinary.logPredict, KTBinary.init, KTBinary.get, pyDiv, pyLog]
  have hu : ∀ w, KTBinary.predictor.update (KTBinary.init none) true [] w =
      .ok (Real.log (1/2), (KTBinary.init none).bump true w) := by
    intro w
    change KTBinary.update _ _ _ = _
    simp [KTBinary.update, hlp]
  refine ⟨Real.log (1/2), ⟨[(KTBinary.init none).bump true 1]⟩, _, (KTBinary.init none).bump true 5, ?_,
    hu 5, ?_⟩
  · simp [Factored.predictor, Factored.update, Factored.index, pyGet, hu 1]
  · norm_num [KTBinary.bump, KTBinary.init]

/-- The observations that factor `i` of `k` receives, as the code passes them on. -/
def factorObs (k i : ℕ) (xs : List (Obs α)) : List (Obs α) :=
  (xs.filter fun o => o.hist.length % k = i).map fun o => ⟨o.sym, o.hist, 1⟩

/-- **C12 (whole runs).** A run of `Factored` is the independent runs of its factors, each on the observations at
its positions; the returned total is the sum of their totals. -/
theorem C12_Factored_run (s s' : Factored σ) (xs : List (Obs α)) (r : ℝ)
    (hr : (Factored.predictor P).run s xs = .ok (r, s')) :
    ∃ rs : List ℝ, rs.length = s.factors.length ∧ r = rs.sum ∧ s'.factors.length = s.factors.length ∧
      ∀ (i : ℕ) (m : σ), s.factors[i]? = some m → ∃ ri m', rs[i]? = some ri ∧ s'.factors[i]? = some m' ∧
        P.run m (factorObs s.factors.length i xs) = .ok (ri, m') := by
  induction xs generalizing s r with
  | nil =>
    simp only [Predictor.run, pure_eq_ok, Except.ok.injEq, Prod.mk.injEq] at hr
    obtain ⟨rfl, rfl⟩ := hr
    refine ⟨List.replicate s.factors.length 0, by simp, by simp, rfl, ?_⟩
    intro i m hm
    have hi : i < s.factors.length := (List.getElem?_eq_some_iff.mp hm).1
    exact ⟨0, m, by simp [hi], hm, by simp [factorObs, Predictor.run]⟩
  | cons o os ih =>
    obtain ⟨r1, s1, r2, h1, h2, rfl⟩ := Predictor.run_cons_ok.mp hr
    have hk : 0 < s.factors.length := by
      by_contra h0
      have : s = ⟨[]⟩ := by
        obtain ⟨f⟩ := s
        simp only [not_lt, Nat.le_zero, List.length_eq_zero_iff] at h0
        rw [h0]
      rw [this, (C12_Factored_empty P o.sym o.hist o.weight).1] at h1
      simp at h1
    obtain ⟨hi, e1, o1, -, -⟩ := C12_Factored_routes_partial P s o.sym o.hist o.weight hk
    cases hu : P.update s.factors[o.hist.length % s.factors.length] o.sym o.hist 1 with
    | error e =>
      rw [e1 e hu] at h1
      simp at h1
    | ok p =>
      obtain ⟨q, m1⟩ := p
      obtain ⟨s1', h1', hl, hm1, hoth⟩ := o1 q m1 hu
      rw [h1] at h1'
      simp only [Except.ok.injEq, Prod.mk.injEq] at h1'
      obtain ⟨rfl, rfl⟩ := h1'
      obtain ⟨rs, hrl, rfl, hl', hall⟩ := ih s1 _ h2
      have hir : o.hist.length % s.factors.length < rs.length := by omega
      refine ⟨rs.set (o.hist.length % s.factors.length) (r1 + rs[o.hist.length % s.factors.length]),
        by simp [hrl, hl], ?_, by omega, ?_⟩
      · generalize o.hist.length % s.factors.length = i at hir
        clear hall hrl hr h1 h2 hm1 hoth hu e1 o1
        induction rs generalizing i with
        | nil => simp at hir
        | cons x rs ih =>
          cases i with
          | zero => simp [add_assoc]
          | succ i =>
            have := ih i (by simpa using hir)
            simp only [List.set_cons_succ, List.sum_cons, List.getElem_cons_succ]
            rw [← this]
            ring
      · intro i m hm
        by_cases hi' : i = o.hist.length % s.factors.length
        · subst hi'
          rw [List.getElem?_eq_getElem hi, Option.some.injEq] at hm
          subst hm
          obtain ⟨ri, m', hri, hm', hrun⟩ := hall _ m1 hm1
          rw [List.getElem?_eq_getElem hir, Option.some.injEq] at hri
          subst hri
          refine ⟨r1 + rs[o.hist.length % s.factors.length], m', by simp [hir], hm', ?_⟩
          rw [hl] at hrun
          have : factorObs s.factors.length (o.hist.length % s.factors.length) (o :: os) =
              ⟨o.sym, o.hist, 1⟩ :: factorObs s.factors.length (o.hist.length % s.factors.length) os := by
            simp [factorObs]
          rw [this]
          exact Predictor.run_cons_ok.mpr ⟨_, _, _, hu, hrun, rfl⟩
        · have : s1.factors[i]? = some m := by rw [hoth i hi', hm]
          obtain ⟨ri, m', hri, hm', hrun⟩ := hall _ m this
          refine ⟨ri, m', ?_, hm', ?_⟩
          · rw [List.getElem?_set_ne (Ne.symm hi')]
            exact hri
          · have : factorObs s.factors.length i (o :: os) = factorObs s.factors.length i os := by
              simp [factorObs, Ne.symm hi']
            rw [this, ← hl]
            exact hrun

/-- Of four observations, factor 1 of 2 receives the second and the fourth. -/
example : factorObs 2 1 ([⟨0, [], 1⟩, ⟨1, [0], 1⟩, ⟨2, [0, 1], 1⟩, ⟨3, [0, 1, 2], 1⟩] : List (Obs ℕ)) =
    [⟨1, [0], 1⟩, ⟨3, [0, 1, 2], 1⟩] := by
  simp [factorObs]

end Factored

end Verif
