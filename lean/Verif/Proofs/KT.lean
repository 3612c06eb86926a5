import Verif.Model.KT
import Verif.Spec.Predictor
import Verif.Proofs.LogSumExp
import Mathlib.Algebra.BigOperators.Ring.List
import Mathlib.Algebra.Order.BigOperators.Group.List

/-! Lemmas about `KT`. -/

set_option linter.unusedSectionVars false

namespace Verif

open PyDict

namespace Predictor

variable {σ α : Type} {P : Predictor σ α}

theorem run_cons (s : σ) (o : Obs α) (os : List (Obs α)) :
    P.run s (o :: os) = (do
      let (r, s') ← P.update s o.sym o.hist o.weight
      let (r', s'') ← P.run s' os
      pure (r + r', s'')) := rfl

theorem run_cons_ok {s : σ} {o : Obs α} {os : List (Obs α)} {r : ℝ} {s'' : σ} :
    P.run s (o :: os) = .ok (r, s'') ↔ ∃ r1 s' r2, P.update s o.sym o.hist o.weight = .ok (r1, s') ∧
      P.run s' os = .ok (r2, s'') ∧ r = r1 + r2 := by
  rw [run_cons]
  constructor
  · intro h
    obtain ⟨⟨r1, s'⟩, h1, h⟩ := bind_eq_ok.mp h
    obtain ⟨⟨r2, t⟩, h2, h⟩ := bind_eq_ok.mp h
    simp only [pure_eq_ok, Except.ok.injEq, Prod.mk.injEq] at h
    exact ⟨r1, s', r2, h1, by rw [h2, h.2], h.1.symm⟩
  · rintro ⟨r1, s', r2, h1, h2, rfl⟩
    simp [h1, h2]

theorem run_append_ok {s : σ} {xs ys : List (Obs α)} {r : ℝ} {s'' : σ} :
    P.run s (xs ++ ys) = .ok (r, s'') ↔ ∃ r1 s' r2, P.run s xs = .ok (r1, s') ∧
      P.run s' ys = .ok (r2, s'') ∧ r = r1 + r2 := by
  induction xs generalizing s r with
  | nil =>
    simp only [List.nil_append]
    constructor
    · intro h
      exact ⟨0, s, r, by simp [run], h, by simp⟩
    · rintro ⟨r1, s', r2, h1, h2, rfl⟩
      simp only [run, pure_eq_ok, Except.ok.injEq, Prod.mk.injEq] at h1
      obtain ⟨rfl, rfl⟩ := h1
      simpa using h2
  | cons o xs ih =>
    simp only [List.cons_append, run_cons_ok, ih]
    constructor
    · rintro ⟨a, t, b, h1, ⟨c, u, d, h2, h3, rfl⟩, rfl⟩
      exact ⟨a + c, u, d, ⟨a, t, c, h1, h2, rfl⟩, h3, by ring⟩
    · rintro ⟨a, t, b, ⟨c, u, d, h1, h2, rfl⟩, h3, rfl⟩
      exact ⟨c, u, d + b, h1, ⟨d, t, b, h2, h3, rfl⟩, by ring⟩

/-- A lawful predictor never raises on a run of valid observations. -/
theorem UpdateLawful.run_ok {Inv : σ → Prop} {A : List α} {W : ℝ → Prop}
    (hP : P.UpdateLawful Inv A W) {s : σ} (hs : Inv s) {xs : List (Obs α)}
    (hx : ∀ o ∈ xs, o.sym ∈ A ∧ W o.weight) : ∃ r s', P.run s xs = .ok (r, s') ∧ Inv s' := by
  induction xs generalizing s with
  | nil => exact ⟨0, s, rfl, hs⟩
  | cons o xs ih =>
    obtain ⟨r1, s1, h1, hs1⟩ := hP.total s o.sym o.hist o.weight hs (hx o (by simp)).1 (hx o (by simp)).2
    obtain ⟨r2, s2, h2, hs2⟩ := ih hs1 (fun o ho => hx o (by simp [ho]))
    exact ⟨r1 + r2, s2, run_cons_ok.mpr ⟨r1, s1, r2, h1, h2, rfl⟩, hs2⟩

end Predictor

namespace KT

variable {α : Type} [DecidableEq α]

/-- The invariant of a `KT` over the alphabet `A`. -/
structure Good (A : List α) (s : KT α) : Prop where
  keys : s.counts.keys = A
  pos : ∀ p ∈ s.counts, 0 < p.2
  sum : s.sumCounts = s.counts.values.sum

theorem Good.sum_pos {A : List α} {s : KT α} (h : Good A s) (hA : A ≠ []) : 0 < s.sumCounts := by
  rw [h.sum]
  apply List.sum_pos
  · intro x hx
    obtain ⟨p, hp, rfl⟩ := List.mem_map.mp hx
    exact h.pos p hp
  · intro h0
    apply hA
    rw [← h.keys]
    simp only [PyDict.values, List.map_eq_nil_iff] at h0
    simp [h0]

theorem Good.get {A : List α} {s : KT α} (h : Good A s) {a : α} (ha : a ∈ A) :
    ∃ c, s.counts.get? a = some c ∧ 0 < c := by
  obtain ⟨c, hc⟩ := get?_isSome.mpr (h.keys ▸ ha)
  exact ⟨c, hc, h.pos _ (mem_of_get? hc)⟩

theorem Good.logPredict {A : List α} {s : KT α} (h : Good A s) {a : α} (ha : a ∈ A) {c : ℝ}
    (hc : s.counts.get? a = some c) : s.logPredict a = .ok (Real.log (c / s.sumCounts)) := by
  have hS := h.sum_pos (List.ne_nil_of_mem ha)
  have hc0 := h.pos _ (mem_of_get? hc)
  unfold KT.logPredict
  rw [getE_ok.mpr hc]
  simp only [ok_bind]
  rw [pyDiv_of_ne hS.ne']
  simp only [ok_bind]
  exact pyLog_of_pos (div_pos hc0 hS)

theorem Good.update {A : List α} {s : KT α} (h : Good A s) {a : α} (ha : a ∈ A) {c : ℝ}
    (hc : s.counts.get? a = some c) (w : ℝ) :
    s.update a w = .ok (Real.log (c / s.sumCounts),
      { counts := s.counts.set a (c + w), sumCounts := s.sumCounts + w }) := by
  unfold KT.update
  rw [h.logPredict ha hc, getE_ok.mpr hc]
  simp

theorem Good.step {A : List α} {s : KT α} (h : Good A s) {a : α} (ha : a ∈ A) {c : ℝ}
    (hc : s.counts.get? a = some c) {w : ℝ} (hw : 0 ≤ w) :
    Good A { counts := s.counts.set a (c + w), sumCounts := s.sumCounts + w } where
  keys := by rw [keys_set_of_mem _ (h.keys ▸ ha), h.keys]
  pos := by
    intro p hp
    have hc0 := h.pos _ (mem_of_get? hc)
    rcases mem_set hp with rfl | hp
    · simp only
      linarith
    · exact h.pos p hp
  sum := by rw [sum_values_set hc, h.sum]

theorem sum_map_get {d : PyDict α ℝ} (hd : d.keys.Nodup) (g : α → ℝ)
    (hg : ∀ a c, d.get? a = some c → g a = c) : (d.keys.map g).sum = d.values.sum := by
  have : d.keys.map g = d.values := by
    unfold PyDict.keys PyDict.values
    rw [List.map_map]
    apply List.map_congr_left
    intro p hp
    obtain ⟨k, v⟩ := p
    exact hg k v (get?_of_mem hd hp)
  rw [this]

theorem lawful {A : List α} (hA : A.Nodup) (hne : A ≠ []) :
    (predictor (α := α)).UpdateLawful (Good A) A (fun w => 0 ≤ w) where
  total := by
    intro s a h w hs ha hw
    obtain ⟨c, hc, _⟩ := hs.get ha
    exact ⟨_, _, hs.update ha hc w, hs.step ha hc hw⟩
  normalised := by
    intro s h w hs hw f hf
    have hS := hs.sum_pos hne
    have h1 : ∀ a ∈ A, ∃ c, s.counts.get? a = some c ∧ Real.exp (f a) = c / s.sumCounts := by
      intro a ha
      obtain ⟨c, hc, hc0⟩ := hs.get ha
      obtain ⟨s', hs'⟩ := hf a ha
      have := hs.update ha hc w
      have h2 : f a = Real.log (c / s.sumCounts) := by
        have h3 := this.symm.trans hs'
        simp only [Except.ok.injEq, Prod.mk.injEq] at h3
        exact h3.1.symm
      refine ⟨c, hc, ?_⟩
      rw [h2, Real.exp_log (div_pos hc0 hS)]
    have h2 : A.map (fun a => Real.exp (f a)) = A.map fun a => (s.counts.get? a).getD 0 * s.sumCounts⁻¹ := by
      apply List.map_congr_left
      intro a ha
      obtain ⟨c, hc, he⟩ := h1 a ha
      rw [he, hc]
      simp [div_eq_mul_inv]
    rw [h2, List.sum_map_mul_right]
    have h3 := sum_map_get (d := s.counts) (hs.keys ▸ hA) (fun a => (s.counts.get? a).getD 0)
      (by intro a c hc; simp [hc])
    rw [hs.keys] at h3
    rw [h3, ← hs.sum, mul_inv_cancel₀ hS.ne']

theorem coherent {A : List α} :
    (predictor (α := α)).Coherent (Good A) A (fun w => 0 ≤ w) := by
  intro s a h w hs ha hw r s' hu
  obtain ⟨c, hc, _⟩ := hs.get ha
  have := (hs.update ha hc w).symm.trans hu
  simp only [Except.ok.injEq, Prod.mk.injEq] at this
  refine ⟨s, ?_⟩
  simp only [predictor, hs.logPredict ha hc, ok_bind, pure_eq_ok, Except.ok.injEq, Prod.mk.injEq, and_true]
  exact this.1

theorem comprehension_ok {f : α → Py ℝ} {g : α → ℝ} {A : List α} (hf : ∀ a ∈ A, f a = .ok (g a))
    (hA : A.Nodup) (d : PyDict α ℝ) (hd : ∀ a ∈ A, a ∉ d.keys) :
    comprehension f A d = .ok (d ++ A.map fun a => (a, g a)) := by
  induction A generalizing d with
  | nil => simp [comprehension]
  | cons a A ih =>
    simp only [List.nodup_cons] at hA
    simp only [comprehension, hf a (by simp), ok_bind]
    have hset : d.set a (g a) = d ++ [(a, g a)] := by
      have hna := hd a (by simp)
      clear ih hd
      induction d with
      | nil => rfl
      | cons p d ih2 =>
        obtain ⟨k, v⟩ := p
        simp only [keys_cons, List.mem_cons, not_or] at hna
        simp [PyDict.set, Ne.symm hna.1, ih2 hna.2]
    rw [ih (fun b hb => hf b (by simp [hb])) hA.2]
    · rw [hset]
      simp
    · intro b hb
      rw [hset]
      simp only [PyDict.keys, List.map_append, List.map_cons, List.map_nil, List.mem_append,
        List.mem_singleton, not_or]
      refine ⟨hd b (by simp [hb]), ?_⟩
      rintro rfl
      exact hA.1 hb

/-- The initial state with the given count for every symbol. -/
theorem init_default {A : List α} (hA : A.Nodup) (hne : A ≠ []) :
    init A none = .ok { counts := A.map fun a => (a, 1 / (A.length : ℝ)), sumCounts := 1 } := by
  have hl : (A.length : ℝ) ≠ 0 := by
    simpa using hne
  unfold init
  simp only
  rw [comprehension_ok (g := fun _ => 1 / (A.length : ℝ)) (fun a _ => pyDiv_of_ne hl) hA [] (by simp)]
  simp only [List.nil_append, ok_bind, pure_eq_ok, Except.ok.injEq, KT.mk.injEq, true_and]
  simp only [PyDict.values, List.map_map]
  have : (Prod.snd ∘ fun a : α => (a, 1 / (A.length : ℝ))) = fun _ => 1 / (A.length : ℝ) := rfl
  rw [this, List.map_const', List.sum_replicate, nsmul_eq_mul]
  field_simp

theorem init_counts {A : List α} (hA : A.Nodup) {d : PyDict α ℝ} (hd : d ≠ []) (g : α → ℝ)
    (hg : ∀ a ∈ A, d.get? a = some (g a)) :
    init A (some d) = .ok { counts := A.map fun a => (a, g a), sumCounts := (A.map g).sum } := by
  cases d with
  | nil => exact absurd rfl hd
  | cons p d =>
    unfold init
    simp only
    rw [comprehension_ok (g := g) (fun a ha => getE_ok.mpr (hg a ha)) hA [] (by simp)]
    simp only [List.nil_append, ok_bind, pure_eq_ok, Except.ok.injEq, KT.mk.injEq, true_and]
    simp only [PyDict.values, List.map_map]
    rfl

theorem good_of_map {A : List α} (g : α → ℝ) (hg : ∀ a ∈ A, 0 < g a) :
    Good A { counts := A.map fun a => (a, g a), sumCounts := (A.map g).sum } where
  keys := by
    simp only [PyDict.keys, List.map_map]
    have : (Prod.fst ∘ fun a : α => (a, g a)) = id := rfl
    rw [this, List.map_id]
  pos := by
    intro p hp
    obtain ⟨a, ha, rfl⟩ := List.mem_map.mp hp
    exact hg a ha
  sum := by
    simp only [PyDict.values, List.map_map]
    rfl

theorem good_default {A : List α} (hne : A ≠ []) :
    Good A { counts := A.map fun a => (a, 1 / (A.length : ℝ)), sumCounts := 1 } := by
  have h := good_of_map (A := A) (fun _ => 1 / (A.length : ℝ)) (by
    intro a ha
    have : 0 < A.length := List.length_pos_of_mem ha
    positivity)
  have hl : (A.length : ℝ) ≠ 0 := by
    simpa using hne
  rw [List.map_const', List.sum_replicate, nsmul_eq_mul, mul_one_div_cancel hl] at h
  exact h

theorem get?_map {A : List α} (g : α → ℝ) {a : α} (ha : a ∈ A) :
    PyDict.get? (A.map fun a => (a, g a)) a = some (g a) := by
  induction A with
  | nil => simp at ha
  | cons b A ih =>
    by_cases h : b = a
    · simp [PyDict.get?, h]
    · simp only [List.mem_cons, Ne.symm h, false_or] at ha
      simp [PyDict.get?, h, ih ha]

/-- The counts after a run are the initial counts plus the observed weights. -/
theorem run_counts {A : List α} {s s' : KT α} (hs : Good A s) {xs : List (Obs α)}
    (hx : ∀ o ∈ xs, o.sym ∈ A ∧ 0 ≤ o.weight) {r : ℝ} (h : predictor.run s xs = .ok (r, s')) :
    Good A s' ∧ s'.sumCounts = s.sumCounts + totalWeight xs ∧
    ∀ a c, s.counts.get? a = some c → s'.counts.get? a = some (c + weightOf a xs) := by
  induction xs generalizing s r with
  | nil =>
    simp only [Predictor.run, pure_eq_ok, Except.ok.injEq, Prod.mk.injEq] at h
    obtain ⟨_, rfl⟩ := h
    refine ⟨hs, ?_, ?_⟩
    · simp [totalWeight]
    · intro a c hc
      simp [weightOf, hc]
  | cons o xs ih =>
    obtain ⟨r1, t, r2, h1, h2, rfl⟩ := Predictor.run_cons_ok.mp h
    obtain ⟨ha, hw⟩ := hx o (by simp)
    obtain ⟨c, hc, _⟩ := hs.get ha
    have hu : predictor.update s o.sym o.hist o.weight = _ := hs.update ha hc o.weight
    rw [hu] at h1
    simp only [Except.ok.injEq, Prod.mk.injEq] at h1
    obtain ⟨_, rfl⟩ := h1
    obtain ⟨hg, hsum, hcnt⟩ := ih (hs.step ha hc hw) (fun o ho => hx o (by simp [ho])) h2
    refine ⟨hg, ?_, ?_⟩
    · rw [hsum]
      simp only [totalWeight, List.map_cons, List.sum_cons]
      ring
    · intro a c' hc'
      by_cases hao : a = o.sym
      · subst hao
        rw [hc] at hc'
        simp only [Option.some.injEq] at hc'
        subst hc'
        rw [hcnt o.sym (c + o.weight) (get?_set_self _ _ _)]
        simp only [weightOf, List.map_cons, List.sum_cons, if_true]
        congr 1
        ring
      · rw [hcnt a c' (by rw [get?_set_other _ _ hao]; exact hc')]
        simp only [weightOf, List.map_cons, List.sum_cons, if_neg (Ne.symm hao), zero_add]

end KT

end Verif
