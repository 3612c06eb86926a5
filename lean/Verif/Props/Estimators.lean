import Verif.Proofs.Seq
import Verif.Proofs.SAD

/-!
# C01-C07: estimators, log-sum-exp and the sequence helpers
-/

namespace Verif

open PyDict

section KT

variable {α : Type} [DecidableEq α]

/-- The `counts` argument of `KT` is acceptable for the alphabet: missing, empty, or a positive count for
every symbol. -/
def CountsOk (A : List α) : Option (PyDict α ℝ) → Prop
  | none => True
  | some d => d = [] ∨ ∀ a ∈ A, ∃ c, 0 < c ∧ d.get? a = some c

theorem kt_init_good {A : List α} (hA : A.Nodup) (hne : A ≠ []) {counts : Option (PyDict α ℝ)}
    (hc : CountsOk A counts) : ∃ s0, KT.init A counts = .ok s0 ∧ KT.Good A s0 := by
  match counts, hc with
  | none, _ => exact ⟨_, KT.init_default hA hne, KT.good_default hne⟩
  | some [], _ => exact ⟨_, KT.init_default hA hne, KT.good_default hne⟩
  | some (p :: d), hc =>
    have h : ∀ a ∈ A, ∃ c, 0 < c ∧ PyDict.get? (p :: d) a = some c := by
      rcases hc with h | h
      · simp at h
      · exact h
    have h' : ∀ a ∈ A, PyDict.get? (p :: d) a = some ((PyDict.get? (p :: d) a).getD 0) := by
      intro a ha
      obtain ⟨c, _, hc⟩ := h a ha
      simp [hc]
    refine ⟨_, KT.init_counts hA (by simp) (fun a => (PyDict.get? (p :: d) a).getD 0) h', ?_⟩
    apply KT.good_of_map
    intro a ha
    obtain ⟨c, hc0, hc⟩ := h a ha
    simpa [hc] using hc0

/-- **C01.** For a duplicate-free non-empty alphabet and acceptable initial counts, constructing a `KT` and
updating it with any sequence of alphabet symbols of non-negative weight succeeds; in the state reached
every alphabet symbol has a positive predicted probability, these sum to exactly 1, and a further update
with an alphabet symbol succeeds. -/
theorem C01_KT_normalised (A : List α) (hA : A.Nodup) (hne : A ≠ []) (counts : Option (PyDict α ℝ))
    (hc : CountsOk A counts) (xs : List (Obs α)) (hx : ∀ o ∈ xs, o.sym ∈ A ∧ 0 ≤ o.weight) :
    ∃ s0 r s, KT.init A counts = .ok s0 ∧ KT.predictor.run s0 xs = .ok (r, s) ∧
      (∀ h, ∃ p : α → ℝ, (∀ a ∈ A, KT.predictor.predict s a h = .ok (p a, s) ∧ 0 < p a) ∧
        (A.map p).sum = 1) ∧
      (∀ a ∈ A, ∀ h w, 0 ≤ w → ∃ r' s', KT.predictor.update s a h w = .ok (r', s')) := by
  obtain ⟨s0, h0, hg0⟩ := kt_init_good hA hne hc
  obtain ⟨r, s, hr, hg⟩ := (KT.lawful hA hne).run_ok hg0 hx
  refine ⟨s0, r, s, h0, hr, ?_, ?_⟩
  · intro h
    have hS := hg.sum_pos hne
    refine ⟨fun a => (s.counts.get? a).getD 0 / s.sumCounts, ?_, ?_⟩
    · intro a ha
      obtain ⟨c, hc, hc0⟩ := hg.get ha
      have hp := hg.logPredict ha hc
      constructor
      · simp only [Predictor.predict, KT.predictor, hp, ok_bind, pure_eq_ok, hc, Option.getD_some]
        rw [Real.exp_log (div_pos hc0 hS)]
      · simp only [hc, Option.getD_some]
        exact div_pos hc0 hS
    · have h1 := KT.sum_map_get (d := s.counts) (hg.keys ▸ hA) (fun a => (s.counts.get? a).getD 0)
        (by intro a c hc; simp [hc])
      rw [hg.keys] at h1
      simp only [div_eq_mul_inv]
      rw [List.sum_map_mul_right, h1, ← hg.sum, mul_inv_cancel₀ hS.ne']
  · intro a ha h w hw
    obtain ⟨r', s', hu, _⟩ := (KT.lawful hA hne).total s a h w hg ha hw
    exact ⟨r', s', hu⟩

/-- A concrete case of C01's hypotheses: alphabet `[0,1,2]`, three updates with different weights. -/
example : ∃ s0 r s, KT.init [0, 1, 2] none = .ok s0 ∧
    KT.predictor.run s0 [⟨0, [], 1⟩, ⟨2, [0], 1/2⟩, ⟨0, [0, 2], 3⟩] = .ok (r, s) := by
  obtain ⟨s0, r, s, h0, hr, _⟩ := C01_KT_normalised [0, 1, 2] (by decide) (by decide) none trivial
    [⟨0, [], 1⟩, ⟨2, [0], 1/2⟩, ⟨0, [0, 2], 3⟩] (by intro o ho; fin_cases ho <;> norm_num)
  exact ⟨s0, r, s, h0, hr⟩

/-- **C02 (coherence and frame).** In any state whatever, a successful `update` returned what `log_predict`
returns in the old state; only the observed symbol's count changed, by exactly the weight, and the cached
total changed by the weight. -/
theorem C02_KT_update_frame (s s' : KT α) (a : α) (h : List α) (w r : ℝ)
    (hu : KT.predictor.update s a h w = .ok (r, s')) :
    KT.predictor.logPredict s a h = .ok (r, s) ∧
    (∃ c, s.counts.get? a = some c ∧ s'.counts.get? a = some (c + w)) ∧
    (∀ b, b ≠ a → s'.counts.get? b = s.counts.get? b) ∧
    s'.counts.keys = s.counts.keys ∧ s'.sumCounts = s.sumCounts + w := by
  change s.update a w = .ok (r, s') at hu
  unfold KT.update at hu
  obtain ⟨rv, h1, hu⟩ := bind_eq_ok.mp hu
  obtain ⟨c, h2, hu⟩ := bind_eq_ok.mp hu
  simp only [pure_eq_ok, Except.ok.injEq, Prod.mk.injEq] at hu
  obtain ⟨rfl, rfl⟩ := hu
  have hc := getE_ok.mp h2
  refine ⟨by simp [KT.predictor, h1], ⟨c, hc, get?_set_self _ _ _⟩, ?_, ?_, rfl⟩
  · intro b hb
    exact get?_set_other _ _ hb
  · exact keys_set_of_mem _ (get?_isSome.mp ⟨c, hc⟩)

/-- **C02 (cached total).** In every state reachable from a constructed `KT` the cached total is the sum of the
counts and the set of symbols is the alphabet. -/
theorem C02_KT_cached_total (A : List α) (hA : A.Nodup) (hne : A ≠ []) (counts : Option (PyDict α ℝ))
    (hc : CountsOk A counts) (s0 s : KT α) (h0 : KT.init A counts = .ok s0) (xs : List (Obs α))
    (hx : ∀ o ∈ xs, o.sym ∈ A ∧ 0 ≤ o.weight) (r : ℝ) (hr : KT.predictor.run s0 xs = .ok (r, s)) :
    s.sumCounts = s.counts.values.sum ∧ s.counts.keys = A := by
  obtain ⟨s0', h0', hg0⟩ := kt_init_good hA hne hc
  rw [h0] at h0'
  simp only [Except.ok.injEq] at h0'
  subst h0'
  have := (KT.run_counts hg0 hx hr).1
  exact ⟨this.sum, this.keys⟩

/-- **C02 (unknown symbol).** A symbol that is not in the table raises `KeyError`, from both methods.  `update`
calls `log_predict` before its first assignment, so nothing has changed by then. -/
theorem C02_KT_unknown_symbol (s : KT α) (a : α) (h : List α) (w : ℝ) (ha : a ∉ s.counts.keys) :
    KT.predictor.update s a h w = .error .keyError ∧
    KT.predictor.logPredict s a h = .error .keyError := by
  have h1 : s.logPredict a = .error .keyError := by
    simp [KT.logPredict, PyDict.getE, get?_eq_none.mpr ha]
  constructor
  · change s.update a w = _
    simp [KT.update, h1]
  · simp [KT.predictor, h1]

/-- A reachable state in which a successful update exists, so the hypotheses of C02 are met. -/
example : ∃ r s', KT.predictor.update ⟨[(0, 1/2), (1, 1/2)], 1⟩ (0 : ℕ) [] 1 = .ok (r, s') := by
  refine ⟨_, _, KT.Good.update (A := [0, 1]) ⟨rfl, ?_, ?_⟩ (by simp) rfl 1⟩
  · intro p hp
    simp only [List.mem_cons, List.not_mem_nil, or_false] at hp
    rcases hp with rfl | rfl <;> norm_num
  · norm_num [PyDict.values]

example : KT.predictor.update (⟨[(0, 1/2), (1, 1/2)], 1⟩ : KT ℕ) 7 [] 1 = .error .keyError :=
  (C02_KT_unknown_symbol _ 7 [] 1 (by simp)).1

/-- **C03 (closed form).** With the default prior, after any updates the predicted probability of `a` is
`(n_a + 1/k) / (n + 1)`. -/
theorem C03_KT_closed_form (A : List α) (hA : A.Nodup) (hne : A ≠ []) (s0 s : KT α)
    (h0 : KT.init A none = .ok s0) (xs : List (Obs α)) (hx : ∀ o ∈ xs, o.sym ∈ A ∧ 0 ≤ o.weight) (r : ℝ)
    (hr : KT.predictor.run s0 xs = .ok (r, s)) (a : α) (ha : a ∈ A) (h : List α) :
    KT.predictor.predict s a h =
      .ok ((weightOf a xs + 1 / (A.length : ℝ)) / (totalWeight xs + 1), s) := by
  rw [KT.init_default hA hne] at h0
  simp only [Except.ok.injEq] at h0
  subst h0
  obtain ⟨hg, hs, hcnt⟩ := KT.run_counts (KT.good_default hne) hx hr
  have h1 := hcnt a (1 / (A.length : ℝ)) (KT.get?_map _ ha)
  obtain ⟨c, hc, hc0⟩ := hg.get ha
  rw [h1] at hc
  simp only [Option.some.injEq] at hc
  have hS := hg.sum_pos hne
  simp only [Predictor.predict, KT.predictor, hg.logPredict ha h1, ok_bind, pure_eq_ok]
  rw [Real.exp_log (div_pos (hc ▸ hc0) hS)]
  simp only at hs
  rw [hs, add_comm (1 / (A.length : ℝ)), add_comm (1:ℝ)]

/-- **C03 (order independence).** Two runs over the same symbols in a different order, all with one weight,
return the same total log probability and reach the same state. -/
theorem C03_KT_exchangeable (A : List α) (hA : A.Nodup) (hne : A ≠ []) (counts : Option (PyDict α ℝ))
    (hc : CountsOk A counts) (s0 : KT α) (h0 : KT.init A counts = .ok s0) (w : ℝ) (hw : 0 ≤ w)
    (xs ys : List (Obs α)) (hx : ∀ o ∈ xs, o.sym ∈ A ∧ o.weight = w) (hy : ∀ o ∈ ys, o.weight = w)
    (hp : (xs.map Obs.sym).Perm (ys.map Obs.sym)) :
    ∃ r s, KT.predictor.run s0 xs = .ok (r, s) ∧ KT.predictor.run s0 ys = .ok (r, s) := by
  obtain ⟨s0', h0', hg0⟩ := kt_init_good hA hne hc
  rw [h0] at h0'
  simp only [Except.ok.injEq] at h0'
  subst h0'
  obtain ⟨r, s, hr, _⟩ := (KT.lawful hA hne).run_ok hg0
    (xs := xs) (fun o ho => ⟨(hx o ho).1, by rw [(hx o ho).2]; exact hw⟩)
  refine ⟨r, s, hr, ?_⟩
  rw [KT.run_eq_runSyms (fun o ho => (hx o ho).2)] at hr
  rw [KT.run_eq_runSyms hy]
  apply KT.runSyms_perm hw hp hg0 _ hr
  intro a ha
  obtain ⟨o, ho, rfl⟩ := List.mem_map.mp ha
  exact (hx o ho).1

/-- The sequences `0 1 1` and `1 0 1` get the same total. -/
example : ∃ s0 r s, KT.init [0, 1] none = .ok s0 ∧
    KT.predictor.run s0 [⟨0, [], 1⟩, ⟨1, [0], 1⟩, ⟨1, [0, 1], 1⟩] = .ok (r, s) ∧
    KT.predictor.run s0 [⟨1, [], 1⟩, ⟨0, [1], 1⟩, ⟨1, [1, 0], 1⟩] = .ok (r, s) := by
  have h0 := KT.init_default (A := [0, 1]) (by decide) (by decide)
  obtain ⟨r, s, h1, h2⟩ := C03_KT_exchangeable [0, 1] (by decide) (by decide) none trivial _ h0 1 zero_le_one
    [⟨0, [], 1⟩, ⟨1, [0], 1⟩, ⟨1, [0, 1], 1⟩] [⟨1, [], 1⟩, ⟨0, [1], 1⟩, ⟨1, [1, 0], 1⟩]
    (by intro o ho; fin_cases ho <;> norm_num) (by intro o ho; fin_cases ho <;> norm_num)
    (by decide)
  exact ⟨_, r, s, h0, h1, h2⟩

end KT

section KTBinary

/-- The `KT` over `[false, true]` with the same counts. -/
def KTBinary.toKT (b : KTBinary) : KT Bool := ⟨[(false, b.c0), (true, b.c1)], b.c0 + b.c1⟩

/-- **C04.** `KTBinary` and `KT((0,1))` start in corresponding states, and from corresponding states every
`update` and `log_predict` returns the same value or raises the same exception, leading again to
corresponding states: no sequence of calls distinguishes them. -/
theorem C04_KTBinary_eq_KT :
    KT.init [false, true] none = .ok (KTBinary.init none).toKT ∧
    (∀ a b : ℝ, KT.init [false, true] (some [(false, a), (true, b)]) =
      .ok (KTBinary.init (some (a, b))).toKT) ∧
    ∀ (s : KTBinary) (x : Bool) (h : List Bool) (w : ℝ),
      KT.predictor.update s.toKT x h w =
        (KTBinary.predictor.update s x h w).map (fun p => (p.1, p.2.toKT)) ∧
      KT.predictor.logPredict s.toKT x h =
        (KTBinary.predictor.logPredict s x h).map (fun p => (p.1, p.2.toKT)) := by
  refine ⟨?_, ?_, ?_⟩
  · rw [KT.init_default (by decide) (by decide)]
    norm_num [KTBinary.init, KTBinary.toKT]
  · intro a b
    rw [KT.init_counts (by decide) (by simp) (fun x => if x then b else a) (by
      intro x hx
      fin_cases hx <;> simp [PyDict.get?])]
    simp [KTBinary.init, KTBinary.toKT]
  · intro s x h w
    have key : s.toKT.logPredict x = s.logPredict x := by
      cases x <;>
      simp [KT.logPredict, KTBinary.logPredict, KTBinary.toKT, PyDict.getE, PyDict.get?, KTBinary.get]
    constructor
    · simp only [KT.predictor, KTBinary.predictor, KT.update, KTBinary.update, key]
      cases s.logPredict x with
      | error e => simp [Except.map]
      | ok r =>
        cases x
        · simp [Except.map, KTBinary.toKT, PyDict.getE, PyDict.get?, PyDict.set, KTBinary.bump]
          ring
        · simp [Except.map, KTBinary.toKT, PyDict.getE, PyDict.get?, PyDict.set, KTBinary.bump]
          ring
    · simp only [KT.predictor, KTBinary.predictor, key]
      cases s.logPredict x with
      | error e => simp [Except.map]
      | ok r => simp [Except.map]

/-- **C04 (runs).** Consequently whole runs agree. -/
theorem C04_KTBinary_runs (s : KTBinary) (xs : List (Obs Bool)) :
    KT.predictor.run s.toKT xs = (KTBinary.predictor.run s xs).map (fun p => (p.1, p.2.toKT)) := by
  induction xs generalizing s with
  | nil => rfl
  | cons o xs ih =>
    simp only [Predictor.run]
    rw [(C04_KTBinary_eq_KT.2.2 s o.sym o.hist o.weight).1]
    cases KTBinary.predictor.update s o.sym o.hist o.weight with
    | error e => rfl
    | ok p =>
      simp only [Except.map, ok_bind, ih]
      cases KTBinary.predictor.run p.2 xs <;> rfl

end KTBinary

section SAD

variable {α : Type} [DecidableEq α]

/-- **C05.** Over an alphabet of `n = |A|` symbols and after any updates of positive weight: every symbol of
the alphabet has a positive predicted probability; while some symbol is unseen these sum to 1; once all
have been seen they sum to `S/(S+β) < 1` with `S` the total weight and
`β = min(n,S) / (2 log((S+1)/min(n,S)))`; and then a symbol outside the alphabet raises
`ZeroDivisionError`. -/
theorem C05_SAD_mass (A : List α) (hA : A.Nodup) (hne : A ≠ []) (xs : List (Obs α))
    (hx : ∀ o ∈ xs, o.sym ∈ A ∧ 0 < o.weight) :
    ∃ r s, SAD.predictor.run (SAD.init A.length) xs = .ok (r, s) ∧
      ∀ h, ∃ p : α → ℝ, (∀ a ∈ A, SAD.predictor.predict s a h = .ok (p a, s) ∧ 0 < p a) ∧
        ((∃ a ∈ A, a ∉ xs.map Obs.sym) → (A.map p).sum = 1) ∧
        ((∀ a ∈ A, a ∈ xs.map Obs.sym) →
          (A.map p).sum = totalWeight xs / (totalWeight xs +
            min (A.length : ℝ) (totalWeight xs) /
              (2 * Real.log ((totalWeight xs + 1) / min (A.length : ℝ) (totalWeight xs)))) ∧
          (A.map p).sum < 1 ∧
          ∀ b ∉ A, ∀ w, SAD.predictor.update s b h w = .error .zeroDivisionError) := by
  obtain ⟨r, s, hr, ho, hs, hk⟩ := (SAD.over_init A).run hx
  refine ⟨r, s, hr, ?_⟩
  intro h
  have hkeys : ∀ b, b ∈ s.counts.keys ↔ b ∈ xs.map Obs.sym := by
    intro b
    rw [hk]
    simp [SAD.init]
  have hS : s.sumCounts = totalWeight xs := by
    rw [hs]
    simp [SAD.init]
  have hex : ∀ a, ∃ q, a ∈ A → s.logPredict a = .ok q := by
    intro a
    by_cases ha : a ∈ A
    · obtain ⟨q, hq⟩ := ho.logPredict ha
      exact ⟨q, fun _ => hq⟩
    · exact ⟨0, fun h => absurd h ha⟩
  choose q hq using hex
  have hm := ho.mass hA (fun a => Real.exp (q a)) (by
    intro a ha
    refine ⟨?_, Real.exp_pos _⟩
    rw [Real.log_exp]
    exact hq a ha)
  refine ⟨fun a => Real.exp (q a), ?_, ?_, ?_⟩
  · intro a ha
    refine ⟨?_, Real.exp_pos _⟩
    simp [Predictor.predict, SAD.predictor, hq a ha]
  · rintro ⟨a, ha, hn⟩
    exact hm.1 ⟨a, ha, fun h' => hn ((hkeys a).mp h')⟩
  · intro hall
    have h1 := hm.2 (fun a ha => (hkeys a).mpr (hall a ha))
    have hcne : s.counts ≠ [] := by
      obtain ⟨a, ha⟩ := List.exists_mem_of_ne_nil A hne
      intro h0
      have := (hkeys a).mpr (hall a ha)
      rw [h0] at this
      simp at this
    have hSpos := ho.sum_pos hcne
    have hlen : s.counts.length = A.length := by
      apply le_antisymm ho.len_le
      rw [← PyDict.length_keys]
      exact (List.subperm_of_subset hA (fun a ha => (hkeys a).mpr (hall a ha))).length_le
    have hb : 0 < SAD.betaVal A.length s.sumCounts := by
      rw [← hlen]
      exact ho.beta.2
    refine ⟨?_, ?_, ?_⟩
    · rw [h1, hS]
      rw [hS] at hSpos
      simp [SAD.betaVal, hSpos]
    · rw [h1, div_lt_one (by linarith)]
      linarith
    · intro b hb' w
      have hnone : s.counts.get? b = none :=
        get?_eq_none.mpr (fun hm => hb' (ho.keys b hm))
      have := ho.logPredict_full hnone (by rw [ho.size, hlen])
      change s.update b w = _
      rw [SAD.update_eq, this]
      rfl

/-- Both branches of C05 occur: after `a a` over `{a,b}` one symbol is unseen; after `a b` none is. -/
example : (∃ a ∈ [0, 1], a ∉ ([⟨0, [], 1⟩, ⟨0, [0], 1⟩] : List (Obs ℕ)).map Obs.sym) ∧
    (∀ a ∈ [0, 1], a ∈ ([⟨0, [], 1⟩, ⟨1, [0], 1⟩] : List (Obs ℕ)).map Obs.sym) := by
  simp

/-- `SAD`'s `update` returns the `log_predict` of the old state (C05's coherence). -/
theorem C05_SAD_coherent (s s' : SAD α) (a : α) (h : List α) (w r : ℝ)
    (hu : SAD.predictor.update s a h w = .ok (r, s')) : SAD.predictor.logPredict s a h = .ok (r, s) := by
  change s.update a w = _ at hu
  rw [SAD.update_eq] at hu
  obtain ⟨q, h1, hu⟩ := bind_eq_ok.mp hu
  simp only [pure_eq_ok, Except.ok.injEq, Prod.mk.injEq] at hu
  simp [SAD.predictor, h1, hu.1]

end SAD

section LogSumExp

/-- **C06.** `logsumexp` is the log of the sum of exponentials; it exponentiates no positive number and takes
the log of a number that is at least 1; it raises `ValueError` on no arguments. -/
theorem C06_logsumexp (v : ℝ) (vs : List ℝ) :
    logsumexp (v :: vs) = .ok (Real.log (((v :: vs).map Real.exp).sum)) ∧
    (∀ u ∈ v :: vs, u - maxOf v vs ≤ 0) ∧
    1 ≤ ((v :: vs).map fun u => Real.exp (u - maxOf v vs)).sum ∧
    logsumexp [] = .error .valueError := by
  refine ⟨logsumexp_eq (by simp), ?_, ?_, rfl⟩
  · intro u hu
    linarith [le_maxOf hu]
  · have hm := maxOf_mem v vs
    have h1 : Real.exp (maxOf v vs - maxOf v vs) ∈ (v :: vs).map fun u => Real.exp (u - maxOf v vs) :=
      List.mem_map.mpr ⟨_, hm, rfl⟩
    rw [sub_self, Real.exp_zero] at h1
    apply List.single_le_sum _ _ h1
    intro x hx
    obtain ⟨y, _, rfl⟩ := List.mem_map.mp hx
    exact (Real.exp_pos _).le

/-- **C06 (order).** Reordering the arguments changes nothing. -/
theorem C06_logsumexp_perm (l l' : List ℝ) (hp : l.Perm l') : logsumexp l = logsumexp l' := by
  by_cases h : l = []
  · subst h
    rw [List.nil_perm.mp hp]
  · have h' : l' ≠ [] := by
      rintro rfl
      exact h (List.perm_nil.mp hp)
    rw [logsumexp_eq h, logsumexp_eq h', (hp.map Real.exp).sum_eq]

/-- **C06 (two arguments).** `logsumexp2` is exact, commutative, and agrees with `logsumexp`. -/
theorem C06_logsumexp2 (a b : ℝ) :
    logsumexp2 a b = Real.log (Real.exp a + Real.exp b) ∧ logsumexp2 a b = logsumexp2 b a ∧
    logsumexp [a, b] = .ok (logsumexp2 a b) := by
  refine ⟨logsumexp2_eq a b, ?_, ?_⟩
  · rw [logsumexp2_eq, logsumexp2_eq, add_comm]
  · rw [logsumexp_eq (by simp), logsumexp2_eq]
    simp

end LogSumExp

section Seq

variable {σ α : Type} (P : Predictor σ α)

/-- **C07, partial.** For a non-empty sequence `update_seq` succeeds exactly when the individual updates do,
returns the sum of their values, leaves the model in their final state, and gives the history back unchanged.
Missing: the empty sequence, for which the code loses the history (`C07_update_seq_empty`). -/
theorem C07_update_seq_partial (s : σ) (seq hist : List α) (w : ℝ) (hne : seq ≠ []) (r : ℝ) (s' : σ)
    (hist' : List α) :
    P.updateSeq s seq hist w = .ok (r, s', hist') ↔
      P.run s (seqObs hist w seq) = .ok (r, s') ∧ hist' = hist := by
  unfold Predictor.updateSeq
  constructor
  · intro h
    obtain ⟨⟨r1, s1, h1⟩, hl, h⟩ := bind_eq_ok.mp h
    obtain ⟨q, hq, rfl, rfl⟩ := Predictor.updateSeqLoop_ok.mp hl
    simp only [pure_eq_ok, Except.ok.injEq, Prod.mk.injEq, Predictor.pyDelTail_append hne] at h
    obtain ⟨rfl, rfl, rfl⟩ := h
    simpa using hq
  · rintro ⟨hr, rfl⟩
    rw [Predictor.updateSeqLoop_ok.mpr ⟨r, hr, rfl, rfl⟩]
    simp [Predictor.pyDelTail_append hne]

/-- **C07, partial**, for `log_predict_seq`; missing again is the empty sequence. -/
theorem C07_log_predict_seq_partial (s : σ) (seq hist : List α) (hne : seq ≠ []) (r : ℝ) (s' : σ)
    (hist' : List α) :
    P.logPredictSeq s seq hist = .ok (r, s', hist') ↔
      P.predRun s (seqObs hist 1 seq) = .ok (r, s') ∧ hist' = hist := by
  unfold Predictor.logPredictSeq
  constructor
  · intro h
    obtain ⟨⟨r1, s1, h1⟩, hl, h⟩ := bind_eq_ok.mp h
    obtain ⟨q, hq, rfl, rfl⟩ := (Predictor.logPredictSeqLoop_ok (w := 1)).mp hl
    simp only [pure_eq_ok, Except.ok.injEq, Prod.mk.injEq, Predictor.pyDelTail_append hne] at h
    obtain ⟨rfl, rfl, rfl⟩ := h
    simpa using hq
  · rintro ⟨hr, rfl⟩
    rw [(Predictor.logPredictSeqLoop_ok (w := 1)).mpr ⟨r, hr, rfl, rfl⟩]
    simp [Predictor.pyDelTail_append hne]

/-- **C07 fails for the empty sequence**: whatever the model and the history, `update_seq([], history)` and
`log_predict_seq([], history)` return 0, leave the model alone, and empty the caller's history. -/
theorem C07_update_seq_empty (s : σ) (hist : List α) (w : ℝ) :
    P.updateSeq s [] hist w = .ok (0, s, []) ∧ P.logPredictSeq s [] hist = .ok (0, s, []) := by
  constructor <;> rfl

/-- Hence the full C07 is false: there are a model and a history that `update_seq` does not give back. -/
theorem C07_full_is_false :
    ¬ ∀ (s : KTBinary) (seq hist : List Bool) (w r : ℝ) (s' : KTBinary) (hist' : List Bool),
      KTBinary.predictor.updateSeq s seq hist w = .ok (r, s', hist') → hist' = hist := by
  intro h
  have := h (KTBinary.init none) [] [true] 1 0 (KTBinary.init none) [] rfl
  simp at this

/-- The observations of presenting `0 1` after the history `1`. -/
example : seqObs [1] 1 [0, 1] = [⟨0, [1], 1⟩, ⟨1, [1, 0], 1⟩] := by
  simp [seqObs, List.zipIdx]

end Seq

end Verif
