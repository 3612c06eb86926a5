import Verif.Props.Estimators
import Verif.Proofs.Range

/-!
# C161: what the answers of a KT estimator reveal

A caller can find out from two answers how often a symbol has been seen, so that two estimators answer alike exactly if they have seen the
same symbols equally often.
-/

namespace Verif

open Predictor

namespace Reveal

variable {α : Type} [DecidableEq α]

/-- The question: a symbol, with any history. -/
def ask (a : α) : Obs α := ⟨a, [], 1⟩

theorem once {A : List α} {s : KT α} (h : KT.Good A s) {a : α} (ha : a ∈ A) {c : ℝ} (hc : s.counts.get? a = some c) :
    KT.predictor.seqProb s [ask a] = c / s.sumCounts := by
  have hS := h.sum_pos (List.ne_nil_of_mem ha)
  have hc0 := h.pos _ (PyDict.mem_of_get? hc)
  have hr : KT.predictor.run s [ask a] = .ok (Real.log (c / s.sumCounts) + 0, { counts := s.counts.set a (c + 1), sumCounts := s.sumCounts + 1 }) := by
    rw [run_cons_ok]
    exact ⟨_, _, 0, h.update ha hc 1, rfl, rfl⟩
  rw [seqProb_of_run hr, add_zero, Real.exp_log (div_pos hc0 hS)]

theorem twice {A : List α} {s : KT α} (h : KT.Good A s) {a : α} (ha : a ∈ A) {c : ℝ} (hc : s.counts.get? a = some c) :
    KT.predictor.seqProb s [ask a, ask a] = c / s.sumCounts * ((c + 1) / (s.sumCounts + 1)) := by
  have hS := h.sum_pos (List.ne_nil_of_mem ha)
  have hc0 := h.pos _ (PyDict.mem_of_get? hc)
  have h' := h.step ha hc zero_le_one
  have hr : KT.predictor.run s [ask a, ask a] = .ok (Real.log (c / s.sumCounts) + (Real.log ((c + 1) / (s.sumCounts + 1)) + 0),
      { counts := (s.counts.set a (c + 1)).set a (c + 1 + 1), sumCounts := s.sumCounts + 1 + 1 }) := by
    rw [run_cons_ok]
    refine ⟨_, _, _, h.update ha hc 1, ?_, rfl⟩
    rw [run_cons_ok]
    exact ⟨_, _, 0, h'.update ha (PyDict.get?_set_self _ _ _) 1, rfl, rfl⟩
  rw [seqProb_of_run hr, add_zero, Real.exp_add, Real.exp_log (div_pos hc0 hS), Real.exp_log (by positivity)]

theorem lt_sum {A : List α} (hA : A.Nodup) (hk : 2 ≤ A.length) {s : KT α} (h : KT.Good A s) {a : α} (ha : a ∈ A) {c : ℝ}
    (hc : s.counts.get? a = some c) : c < s.sumCounts := by
  obtain ⟨b, hb, hne⟩ : ∃ b ∈ A, b ≠ a := by
    by_contra hno
    push Not at hno
    have : A.length ≤ 1 := by
      rcases A with _ | ⟨x, _ | ⟨y, l⟩⟩
      · simp
      · simp
      · have h1 := hno x (by simp)
        have h2 := hno y (by simp)
        subst h1
        subst h2
        simp at hA
    omega
  obtain ⟨e, he, he0⟩ := h.get hb
  -- remove `b`: the sum of the others is at least `c`
  have h1 : (PyDict.set s.counts a 0).values.sum = s.sumCounts - c := by
    have := PyDict.sum_values_set (d := s.counts) hc (-c)
    rw [add_neg_cancel] at this
    rw [this, h.sum]
    ring
  have h2 : PyDict.get? (PyDict.set s.counts a 0) b = some e := by rw [PyDict.get?_set_other _ _ hne, he]
  have h3 : 0 < (PyDict.set s.counts a 0).values.sum := by
    refine he0.trans_le (List.single_le_sum ?_ _ (List.mem_map_of_mem (PyDict.mem_of_get? h2)))
    intro x hx
    obtain ⟨p, hp, rfl⟩ := List.mem_map.mp hx
    rcases PyDict.mem_set hp with rfl | hp
    · exact le_rfl
    · exact (h.pos p hp).le
  linarith

theorem arith {c S : ℝ} (hc : 0 < c) (h : c < S) :
    c / S < (c + 1) / (S + 1) ∧ (1 - (c + 1) / (S + 1)) / ((c + 1) / (S + 1) - c / S) = S := by
  have hS : 0 < S := hc.trans h
  have e : (c + 1) / (S + 1) - c / S = (S - c) / (S * (S + 1)) := by
    field_simp
    ring
  have e2 : 1 - (c + 1) / (S + 1) = (S - c) / (S + 1) := by
    field_simp
    ring
  have hd : 0 < S - c := by linarith
  constructor
  · have : 0 < (c + 1) / (S + 1) - c / S := by rw [e]; positivity
    linarith
  · rw [e, e2]
    field_simp

theorem count_weight (a : α) : ∀ xs : List (Obs α), (∀ o ∈ xs, o.weight = 1) → weightOf a xs = (xs.map Obs.sym).count a
  | [], _ => by simp [weightOf]
  | o :: xs, h => by
    have ih := count_weight a xs fun o ho => h o (by simp [ho])
    simp only [weightOf] at ih ⊢
    rw [List.map_cons, List.sum_cons, ih, List.map_cons, List.count_cons]
    by_cases e : o.sym = a
    · simp [e, h o (by simp)]
      ring
    · simp [e]

theorem total_weight : ∀ xs : List (Obs α), (∀ o ∈ xs, o.weight = 1) → totalWeight xs = xs.length
  | [], _ => by simp [totalWeight]
  | o :: xs, h => by
    have ih := total_weight xs fun o ho => h o (by simp [ho])
    simp only [totalWeight] at ih ⊢
    rw [List.map_cons, List.sum_cons, ih, h o (by simp), List.length_cons]
    push_cast
    ring

/-- After a run of a new estimator. -/
theorem after {A : List α} (hA : A.Nodup) (hne : A ≠ []) {s0 s : KT α} (h0 : KT.init A none = .ok s0) {xs : List (Obs α)}
    (hx : ∀ o ∈ xs, o.sym ∈ A ∧ o.weight = 1) {r : ℝ} (hr : KT.predictor.run s0 xs = .ok (r, s)) :
    KT.Good A s ∧ s.sumCounts = xs.length + 1 ∧
      ∀ a ∈ A, s.counts.get? a = some (1 / (A.length : ℝ) + (xs.map Obs.sym).count a) := by
  rw [KT.init_default hA hne] at h0
  cases h0
  obtain ⟨h1, h2, h3⟩ := KT.run_counts (KT.good_default hne) (fun o ho => ⟨(hx o ho).1, by rw [(hx o ho).2]; exact zero_le_one⟩) hr
  refine ⟨h1, ?_, fun a ha => ?_⟩
  · rw [h2, total_weight xs fun o ho => (hx o ho).2]
    ring
  · rw [h3 a _ (KT.get?_map _ ha), count_weight a xs fun o ho => (hx o ho).2]

end Reveal

open Reveal

variable {α : Type} [DecidableEq α] (A : List α) (hA : A.Nodup)

include hA

/-- **C161 (what is revealed).** Over at least two symbols: let `p` be the probability that a `KT` estimator gives to a symbol, and `p'` what
it gives to it once it has seen it again.  Then `p < p'`, the estimator has seen `(1 - p') / (p' - p) - 1` symbols, and this one
`p (1 - p') / (p' - p) - 1 / k` times, where `k` is the size of the alphabet. -/
theorem C161_KT_reveals (hk : 2 ≤ A.length) (s0 s : KT α) (h0 : KT.init A none = .ok s0) (xs : List (Obs α))
    (hx : ∀ o ∈ xs, o.sym ∈ A ∧ o.weight = 1) (r : ℝ) (hr : KT.predictor.run s0 xs = .ok (r, s)) (a : α) (ha : a ∈ A) (p p' : ℝ)
    (hp : p = KT.predictor.seqProb s [ask a]) (hp' : p * p' = KT.predictor.seqProb s [ask a, ask a]) :
    p < p' ∧ (xs.length : ℝ) = (1 - p') / (p' - p) - 1 ∧
      ((xs.map Obs.sym).count a : ℝ) = p * ((1 - p') / (p' - p)) - 1 / A.length := by
  have hne : A ≠ [] := List.ne_nil_of_mem ha
  obtain ⟨h1, h2, h3⟩ := after hA hne h0 hx hr
  have hc := h3 a ha
  have hlt := lt_sum hA hk h1 ha hc
  have hc0 := h1.pos _ (PyDict.mem_of_get? hc)
  rw [once h1 ha hc] at hp
  rw [twice h1 ha hc, ← hp] at hp'
  have hS : 0 < s.sumCounts := hc0.trans hlt
  have hp0 : 0 < p := by rw [hp]; exact div_pos hc0 hS
  have hp'2 := mul_left_cancel₀ hp0.ne' hp'
  obtain ⟨a1, a2⟩ := arith hc0 hlt
  rw [← hp, ← hp'2] at a1 a2
  refine ⟨a1, ?_, ?_⟩
  · rw [a2, h2]
    ring
  · rw [a2, hp]
    field_simp
    ring

/-- **C161 (exactly).** Over at least two symbols, two `KT` estimators that have seen `xs` and `ys` give all sequences the same probability
exactly if the one has seen every symbol as often as the other; otherwise there is a symbol that, alone or twice, they give different
probabilities. -/
theorem C161_KT_exactly (hk : 2 ≤ A.length) (s0 s t : KT α) (h0 : KT.init A none = .ok s0) (xs ys : List (Obs α))
    (hx : ∀ o ∈ xs, o.sym ∈ A ∧ o.weight = 1) (hy : ∀ o ∈ ys, o.sym ∈ A ∧ o.weight = 1) (r q : ℝ)
    (hr : KT.predictor.run s0 xs = .ok (r, s)) (hq : KT.predictor.run s0 ys = .ok (q, t)) :
    ((∀ zs : List (Obs α), KT.predictor.seqProb s zs = KT.predictor.seqProb t zs) ↔ (xs.map Obs.sym).Perm (ys.map Obs.sym)) ∧
      (¬ (xs.map Obs.sym).Perm (ys.map Obs.sym) → ∃ a ∈ A, KT.predictor.seqProb s [ask a] ≠ KT.predictor.seqProb t [ask a] ∨
        KT.predictor.seqProb s [ask a, ask a] ≠ KT.predictor.seqProb t [ask a, ask a]) := by
  have hne : A ≠ [] := by
    rintro rfl
    simp at hk
  have key : (∀ a ∈ A, KT.predictor.seqProb s [ask a] = KT.predictor.seqProb t [ask a] ∧
      KT.predictor.seqProb s [ask a, ask a] = KT.predictor.seqProb t [ask a, ask a]) → (xs.map Obs.sym).Perm (ys.map Obs.sym) := by
    intro h
    rw [List.perm_iff_count]
    intro a
    by_cases ha : a ∈ A
    · obtain ⟨e1, e2⟩ := h a ha
      have hpos : 0 < KT.predictor.seqProb s [ask a] := by
        obtain ⟨g1, g2, g3⟩ := after hA hne h0 hx hr
        rw [once g1 ha (g3 a ha)]
        exact div_pos (g1.pos _ (PyDict.mem_of_get? (g3 a ha))) (g1.sum_pos hne)
      have b1 := (C161_KT_reveals A hA hk s0 s h0 xs hx r hr a ha _ (KT.predictor.seqProb s [ask a, ask a] / KT.predictor.seqProb s [ask a])
        rfl (by field_simp)).2.2
      have b2 := (C161_KT_reveals A hA hk s0 t h0 ys hy q hq a ha _ (KT.predictor.seqProb t [ask a, ask a] / KT.predictor.seqProb t [ask a])
        rfl (by rw [← e1]; field_simp)).2.2
      rw [e1, e2, ← b2] at b1
      exact_mod_cast b1
    · rw [List.count_eq_zero_of_not_mem, List.count_eq_zero_of_not_mem]
      · intro h
        obtain ⟨o, ho, rfl⟩ := List.mem_map.mp h
        exact ha (hy o ho).1
      · intro h
        obtain ⟨o, ho, rfl⟩ := List.mem_map.mp h
        exact ha (hx o ho).1
  refine ⟨⟨fun h => key fun a _ => ⟨h _, h _⟩, fun h zs => ?_⟩, fun h => ?_⟩
  · obtain ⟨r', u, h1, h2⟩ := C03_KT_exchangeable A hA hne none trivial s0 h0 1 zero_le_one xs ys hx (fun o ho => (hy o ho).2) h
    rw [hr] at h1
    rw [hq] at h2
    cases h1
    cases h2
    rfl
  · by_contra hno
    push Not at hno
    exact h (key hno)

omit hA in
/-- **C161 (one symbol).** Over one symbol the answers reveal nothing: every sequence of the symbol has probability one, whatever was seen. -/
theorem C161_KT_one (a : α) (s0 s : KT α) (h0 : KT.init [a] none = .ok s0) (xs zs : List (Obs α))
    (hx : ∀ o ∈ xs, o.sym = a ∧ o.weight = 1) (hz : ∀ o ∈ zs, o.sym = a ∧ o.weight = 1) (r : ℝ)
    (hr : KT.predictor.run s0 xs = .ok (r, s)) : KT.predictor.seqProb s zs = 1 := by
  have hA : [a].Nodup := by simp
  have hne : [a] ≠ [] := by simp
  obtain ⟨g, -, -⟩ := after hA hne h0 (fun o ho => ⟨by simp [(hx o ho).1], (hx o ho).2⟩) hr
  clear hr hx
  induction zs generalizing s with
  | nil => simp [seqProb, Predictor.run, probOf]
  | cons o zs ih =>
    obtain ⟨e1, e2⟩ := hz o (by simp)
    have ha : o.sym ∈ [a] := by simp [e1]
    obtain ⟨c, hc, hc0⟩ := g.get ha
    have hS : s.sumCounts = c := by
      have hk := g.keys
      rw [g.sum]
      rcases hcs : s.counts with _ | ⟨⟨x, v⟩, _ | ⟨y, l⟩⟩
      · rw [hcs] at hk
        simp [PyDict.keys] at hk
      · rw [hcs] at hk hc
        simp only [PyDict.keys, List.map_cons, List.map_nil, List.cons.injEq, and_true] at hk
        simp [PyDict.get?, hk, e1] at hc
        simp [PyDict.values, hc]
      · rw [hcs] at hk
        simp [PyDict.keys] at hk
    have hu := g.update ha hc o.weight
    rw [hS, div_self hc0.ne', Real.log_one] at hu
    have hrun : KT.predictor.run s [o] = .ok (0 + 0, { counts := s.counts.set o.sym (c + o.weight), sumCounts := c + o.weight }) := by
      rw [run_cons_ok]
      exact ⟨_, _, 0, hu, rfl, rfl⟩
    have := seqProb_append_of_run hrun zs
    rw [List.singleton_append] at this
    rw [this, add_zero, Real.exp_zero, one_mul]
    have g' := g.step ha hc (w := o.weight) (by rw [e2]; exact zero_le_one)
    rw [hS] at g'
    exact ih _ (fun o ho => hz o (by simp [ho])) g'

omit hA in
/-- After `1 0 1` an estimator over bits gives `1` the probability `5/8` and, once it has seen it again, `7/10`; from this a caller finds that
it has seen three symbols, and `1` twice. -/
example (s0 s : KT ℕ) (h0 : KT.init [0, 1] none = .ok s0) (r : ℝ) (hr : KT.predictor.run s0 [ask 1, ask 0, ask 1] = .ok (r, s)) :
    KT.predictor.seqProb s [ask 1] = 5 / 8 ∧ KT.predictor.seqProb s [ask 1, ask 1] = 5 / 8 * (7 / 10) ∧
      (1 - 7 / 10 : ℝ) / (7 / 10 - 5 / 8) - 1 = 3 ∧ 5 / 8 * ((1 - 7 / 10 : ℝ) / (7 / 10 - 5 / 8)) - 1 / 2 = 2 := by
  obtain ⟨g, e, h⟩ := after (by simp) (by simp) h0 (by simp [ask]) hr
  have h1 := h 1 (by simp)
  norm_num [ask, List.count_cons] at h1 e
  refine ⟨?_, ?_, by norm_num, by norm_num⟩
  · rw [once g (by simp) h1, e]
    norm_num
  · rw [twice g (by simp) h1, e]
    norm_num

end Verif
