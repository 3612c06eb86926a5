import Verif.Proofs.KT
import Mathlib.Data.List.Perm.Subperm
import Mathlib.Data.Finset.Card

/-! Lemmas about `SAD`. -/

set_option linter.unusedSectionVars false

namespace Verif

open PyDict

namespace SAD

variable {α : Type} [DecidableEq α]

/-- The value of `beta` once `S > 0` weight has been observed on `k` distinct symbols. -/
noncomputable def betaVal (k : ℕ) (S : ℝ) : ℝ :=
  if S > 0 then min (k : ℝ) S / (2 * Real.log ((S + 1) / min (k : ℝ) S)) else 1

/-- The invariant of a `SAD` state: positive counts, cached sum, no duplicate keys. -/
structure Good (s : SAD α) : Prop where
  nodup : s.counts.keys.Nodup
  pos : ∀ p ∈ s.counts, 0 < p.2
  sum : s.sumCounts = s.counts.values.sum

theorem Good.sum_pos {s : SAD α} (h : Good s) (hne : s.counts ≠ []) : 0 < s.sumCounts := by
  rw [h.sum]
  apply List.sum_pos
  · intro x hx
    obtain ⟨p, hp, rfl⟩ := List.mem_map.mp hx
    exact h.pos p hp
  · simpa [PyDict.values] using hne

theorem Good.sum_nonneg {s : SAD α} (h : Good s) : 0 ≤ s.sumCounts := by
  by_cases hne : s.counts = []
  · rw [h.sum, hne]
    simp
  · exact (h.sum_pos hne).le

theorem Good.ne_nil {s : SAD α} (h : Good s) (hS : 0 < s.sumCounts) : s.counts ≠ [] := by
  intro h0
  rw [h.sum, h0] at hS
  simp at hS

theorem betaVal_pos {k : ℕ} {S : ℝ} (hk : 0 < S → 0 < k) : 0 < betaVal k S := by
  unfold betaVal
  split_ifs with hS
  · have hk' : (0:ℝ) < k := by exact_mod_cast hk hS
    have hm : 0 < min (k : ℝ) S := lt_min hk' hS
    apply div_pos hm
    apply mul_pos two_pos
    apply Real.log_pos
    rw [lt_div_iff₀ hm]
    have : min (k : ℝ) S ≤ S := min_le_right _ _
    linarith
  · norm_num

theorem Good.beta {s : SAD α} (h : Good s) :
    s.beta = .ok (betaVal s.counts.length s.sumCounts) ∧ 0 < betaVal s.counts.length s.sumCounts := by
  have hpos : 0 < betaVal s.counts.length s.sumCounts :=
    betaVal_pos (fun hS => List.length_pos_of_ne_nil (h.ne_nil hS))
  refine ⟨?_, hpos⟩
  unfold SAD.beta
  by_cases hS : 0 < s.sumCounts
  · have hk' : (0:ℝ) < (s.counts.length : ℝ) := by
      exact_mod_cast List.length_pos_of_ne_nil (h.ne_nil hS)
    have hm : 0 < min (s.counts.length : ℝ) s.sumCounts := lt_min hk' hS
    have hq : 1 < (s.sumCounts + 1) / min (s.counts.length : ℝ) s.sumCounts := by
      rw [lt_div_iff₀ hm]
      have : min (s.counts.length : ℝ) s.sumCounts ≤ s.sumCounts := min_le_right _ _
      linarith
    have hl := Real.log_pos hq
    simp only [gt_iff_lt, hS, if_true]
    rw [pyDiv_of_ne hm.ne']
    simp only [ok_bind]
    rw [pyLog_of_pos (by linarith)]
    simp only [ok_bind]
    rw [pyDiv_of_ne (by positivity)]
    simp [betaVal, hS]
  · simp [hS, betaVal]

theorem Good.logPredict_seen {s : SAD α} (h : Good s) {a : α} {c : ℝ} (hc : s.counts.get? a = some c) :
    s.logPredict a = .ok (Real.log (c / (s.sumCounts + betaVal s.counts.length s.sumCounts))) := by
  have hb := h.beta
  have h0 := h.sum_nonneg
  have hc0 := h.pos _ (mem_of_get? hc)
  unfold SAD.logPredict
  rw [hb.1]
  simp only [ok_bind, hc]
  rw [pyDiv_of_ne (by linarith [hb.2])]
  simp only [ok_bind]
  exact pyLog_of_pos (div_pos hc0 (by linarith [hb.2]))

theorem Good.logPredict_new {s : SAD α} (h : Good s) {a : α} (hc : s.counts.get? a = none)
    (hn : (s.counts.length : ℤ) < s.n) :
    s.logPredict a = .ok (Real.log (betaVal s.counts.length s.sumCounts /
      (((s.n : ℝ) - s.counts.length) * (s.sumCounts + betaVal s.counts.length s.sumCounts)))) := by
  have hb := h.beta
  have h0 := h.sum_nonneg
  have hn' : (0:ℝ) < (s.n : ℝ) - s.counts.length := by
    have : ((s.counts.length : ℤ) : ℝ) < (s.n : ℝ) := by exact_mod_cast hn
    push_cast at this
    linarith
  have hd : 0 < ((s.n : ℝ) - s.counts.length) * (s.sumCounts + betaVal s.counts.length s.sumCounts) :=
    mul_pos hn' (by linarith [hb.2])
  unfold SAD.logPredict
  rw [hb.1]
  simp only [ok_bind, hc]
  rw [pyDiv_of_ne hd.ne']
  simp only [ok_bind]
  exact pyLog_of_pos (div_pos hb.2 hd)

theorem Good.logPredict_full {s : SAD α} (h : Good s) {a : α} (hc : s.counts.get? a = none)
    (hn : (s.counts.length : ℤ) = s.n) : s.logPredict a = .error .zeroDivisionError := by
  unfold SAD.logPredict
  rw [h.beta.1]
  simp only [ok_bind, hc]
  have : ((s.n : ℝ) - s.counts.length) = 0 := by
    rw [← hn]
    simp
  rw [this, zero_mul]
  simp [pyDiv]

/-- The state after a successful update. -/
noncomputable def bump (s : SAD α) (a : α) (w : ℝ) : SAD α :=
  match s.counts.get? a with
  | some c => { n := s.n, counts := s.counts.set a (c + w), sumCounts := s.sumCounts + w }
  | none => { n := s.n, counts := s.counts.set a w, sumCounts := s.sumCounts + w }

theorem update_eq (s : SAD α) (a : α) (w : ℝ) :
    s.update a w = (do let r ← s.logPredict a; pure (r, s.bump a w)) := by
  unfold SAD.update bump
  cases s.logPredict a with
  | error e => simp
  | ok r =>
    simp only [ok_bind]
    cases hc : s.counts.get? a with
    | some c => simp [getE_ok.mpr hc]
    | none => simp [getE_ok.mpr (get?_set_self s.counts a 0), set_set]

theorem Good.bump {s : SAD α} (h : Good s) (a : α) {w : ℝ} (hw : 0 < w) : Good (s.bump a w) := by
  unfold SAD.bump
  cases hc : s.counts.get? a with
  | some c =>
    have hc0 := h.pos _ (mem_of_get? hc)
    refine ⟨nodup_keys_set h.nodup, ?_, ?_⟩
    · intro p hp
      rcases mem_set hp with rfl | hp
      · simp only
        linarith
      · exact h.pos p hp
    · simp only
      rw [sum_values_set hc, h.sum]
  | none =>
    refine ⟨nodup_keys_set h.nodup, ?_, ?_⟩
    · intro p hp
      rcases mem_set hp with rfl | hp
      · exact hw
      · exact h.pos p hp
    · simp only
      rw [sum_values_set_new hc, h.sum]

theorem bump_n (s : SAD α) (a : α) (w : ℝ) : (s.bump a w).n = s.n := by
  unfold bump
  cases s.counts.get? a <;> rfl

theorem bump_sum (s : SAD α) (a : α) (w : ℝ) : (s.bump a w).sumCounts = s.sumCounts + w := by
  unfold bump
  cases s.counts.get? a <;> rfl

theorem mem_keys_bump (s : SAD α) (a b : α) (w : ℝ) :
    b ∈ (s.bump a w).counts.keys ↔ b = a ∨ b ∈ s.counts.keys := by
  unfold bump
  cases s.counts.get? a <;> exact mem_keys_set

/-- Keys are drawn from the alphabet, whose size is `n`. -/
structure Over (A : List α) (s : SAD α) : Prop extends Good s where
  keys : ∀ a ∈ s.counts.keys, a ∈ A
  size : s.n = A.length

theorem Over.len_le {A : List α} {s : SAD α} (h : Over A s) : s.counts.length ≤ A.length := by
  rw [← PyDict.length_keys]
  exact (List.subperm_of_subset h.nodup h.keys).length_le

theorem Over.len_lt {A : List α} {s : SAD α} (h : Over A s) {a : α} (ha : a ∈ A)
    (hn : a ∉ s.counts.keys) : s.counts.length < A.length := by
  have : (a :: s.counts.keys).Subperm A := by
    apply List.subperm_of_subset
    · exact List.nodup_cons.mpr ⟨hn, h.nodup⟩
    · intro b hb
      rcases List.mem_cons.mp hb with rfl | hb
      · exact ha
      · exact h.keys b hb
  have := this.length_le
  simp only [List.length_cons, PyDict.length_keys] at this
  omega

theorem Over.logPredict {A : List α} {s : SAD α} (h : Over A s) {a : α} (ha : a ∈ A) :
    ∃ r, s.logPredict a = .ok r := by
  cases hc : s.counts.get? a with
  | some c => exact ⟨_, h.logPredict_seen hc⟩
  | none =>
    refine ⟨_, h.logPredict_new hc ?_⟩
    rw [h.size]
    exact_mod_cast h.len_lt ha (get?_eq_none.mp hc)

theorem Over.bump {A : List α} {s : SAD α} (h : Over A s) {a : α} (ha : a ∈ A) {w : ℝ} (hw : 0 < w) :
    Over A (s.bump a w) where
  toGood := h.toGood.bump a hw
  keys := by
    intro b hb
    rcases (mem_keys_bump s a b w).mp hb with rfl | hb
    · exact ha
    · exact h.keys b hb
  size := by rw [bump_n, h.size]

theorem over_init (A : List α) : Over A (init A.length : SAD α) where
  nodup := by simp [init]
  pos := by simp [init]
  sum := by simp [init]
  keys := by simp [init]
  size := by simp [init]

theorem Over.run {A : List α} {s : SAD α} (h : Over A s) {xs : List (Obs α)}
    (hx : ∀ o ∈ xs, o.sym ∈ A ∧ 0 < o.weight) :
    ∃ r s', predictor.run s xs = .ok (r, s') ∧ Over A s' ∧
      s'.sumCounts = s.sumCounts + totalWeight xs ∧
      (∀ b, b ∈ s'.counts.keys ↔ b ∈ s.counts.keys ∨ b ∈ xs.map Obs.sym) := by
  induction xs generalizing s with
  | nil => exact ⟨0, s, rfl, h, by simp [totalWeight], by simp⟩
  | cons o xs ih =>
    obtain ⟨ha, hw⟩ := hx o (by simp)
    obtain ⟨r1, h1⟩ := h.logPredict ha
    obtain ⟨r2, s2, h2, ho, hs, hk⟩ := ih (h.bump ha hw) (fun o ho => hx o (by simp [ho]))
    refine ⟨r1 + r2, s2, Predictor.run_cons_ok.mpr ⟨r1, s.bump o.sym o.weight, r2, ?_, h2, rfl⟩, ho, ?_, ?_⟩
    · simp only [predictor]
      rw [update_eq, h1]
      rfl
    · rw [hs, bump_sum]
      simp only [totalWeight, List.map_cons, List.sum_cons]
      ring
    · intro b
      rw [hk, mem_keys_bump]
      simp only [List.map_cons, List.mem_cons]
      tauto

/-- The mass given to the whole alphabet. -/
theorem Over.mass {A : List α} (hA : A.Nodup) {s : SAD α} (h : Over A s) (p : α → ℝ)
    (hp : ∀ a ∈ A, s.logPredict a = .ok (Real.log (p a)) ∧ 0 < p a) :
    ((∃ a ∈ A, a ∉ s.counts.keys) → (A.map p).sum = 1) ∧
    ((∀ a ∈ A, a ∈ s.counts.keys) →
      (A.map p).sum = s.sumCounts / (s.sumCounts + betaVal A.length s.sumCounts)) := by
  set β := betaVal s.counts.length s.sumCounts with hβ
  have hb := h.beta.2
  rw [← hβ] at hb
  have hD : 0 < s.sumCounts + β := by linarith [h.sum_nonneg]
  have hinj : ∀ a ∈ A, ∀ q, 0 < q → s.logPredict a = .ok (Real.log q) → p a = q := by
    intro a ha q hq he
    have := (hp a ha).1.symm.trans he
    simp only [Except.ok.injEq] at this
    exact Real.log_injOn_pos (hp a ha).2 hq this
  -- split the alphabet into seen and unseen symbols
  have hperm : (A.filter fun a => a ∈ s.counts.keys).Perm s.counts.keys := by
    apply (List.perm_ext_iff_of_nodup (hA.filter _) h.nodup).mpr
    intro a
    simp only [List.mem_filter, decide_eq_true_eq]
    exact ⟨fun h => h.2, fun ha => ⟨h.keys a ha, ha⟩⟩
  have hsplit : (A.map p).sum = ((A.filter fun a => a ∈ s.counts.keys).map p).sum +
      ((A.filter fun a => a ∉ s.counts.keys).map p).sum := by
    have := (List.filter_append_perm (fun a => decide (a ∈ s.counts.keys)) A)
    have h2 := (this.map p).sum_eq
    rw [List.map_append, List.sum_append] at h2
    rw [← h2]
    congr 4
    funext a
    simp
  have hseen : ((A.filter fun a => a ∈ s.counts.keys).map p).sum = s.sumCounts / (s.sumCounts + β) := by
    rw [(hperm.map p).sum_eq]
    have h1 : s.counts.keys.map p =
        s.counts.keys.map fun a => (s.counts.get? a).getD 0 * (s.sumCounts + β)⁻¹ := by
      apply List.map_congr_left
      intro a ha
      obtain ⟨c, hc⟩ := get?_isSome.mpr ha
      have hc0 := h.pos _ (mem_of_get? hc)
      rw [hinj a (h.keys a ha) _ (div_pos hc0 hD) (h.logPredict_seen hc), hc]
      simp [div_eq_mul_inv]
    rw [h1, List.sum_map_mul_right,
      KT.sum_map_get h.nodup (fun a => (s.counts.get? a).getD 0) (by intro a c hc; simp [hc]),
      ← h.sum, div_eq_mul_inv]
  constructor
  · rintro ⟨a0, ha0, hn0⟩
    have hlt := h.len_lt ha0 hn0
    have hn' : (0:ℝ) < (s.n : ℝ) - s.counts.length := by
      rw [h.size]
      have : (s.counts.length : ℝ) < A.length := by exact_mod_cast hlt
      push_cast
      linarith
    have hlen : ((A.filter fun a => a ∉ s.counts.keys).length : ℝ) = (s.n : ℝ) - s.counts.length := by
      have h1 := (List.filter_append_perm (fun a => decide (a ∈ s.counts.keys)) A).length_eq
      have h2 := hperm.length_eq
      rw [List.length_append, h2, PyDict.length_keys] at h1
      rw [h.size]
      have h3 : (A.filter fun a => a ∉ s.counts.keys).length =
          (A.filter fun a => !decide (a ∈ s.counts.keys)).length := by
        congr 2
        funext a
        simp
      rw [h3]
      have h4 : ((s.counts.length + (A.filter fun a => !decide (a ∈ s.counts.keys)).length : ℕ) : ℝ)
          = (A.length : ℝ) := by exact_mod_cast h1
      push_cast at h4 ⊢
      linarith
    have hnew : ((A.filter fun a => a ∉ s.counts.keys).map p).sum = β / (s.sumCounts + β) := by
      have h1 : (A.filter fun a => a ∉ s.counts.keys).map p =
          (A.filter fun a => a ∉ s.counts.keys).map
            fun _ => β / (((s.n : ℝ) - s.counts.length) * (s.sumCounts + β)) := by
        apply List.map_congr_left
        intro a ha
        simp only [decide_not, List.mem_filter, Bool.not_eq_eq_eq_not, Bool.not_true,
          decide_eq_false_iff_not] at ha
        apply hinj a ha.1 _ (div_pos hb (mul_pos hn' hD))
        exact h.logPredict_new (get?_eq_none.mpr ha.2) (by rw [h.size]; exact_mod_cast hlt)
      rw [h1, List.map_const', List.sum_replicate, nsmul_eq_mul, hlen]
      field_simp
    rw [hsplit, hseen, hnew, ← add_div, div_self hD.ne']
  · intro hall
    have h1 : (A.filter fun a => a ∉ s.counts.keys) = [] := by
      apply List.filter_eq_nil_iff.mpr
      intro a ha
      simp [hall a ha]
    have h2 : s.counts.length = A.length := by
      apply le_antisymm h.len_le
      rw [← PyDict.length_keys]
      exact (List.subperm_of_subset hA hall).length_le
    rw [hsplit, hseen, h1, hβ, h2]
    simp

end SAD

end Verif
