import Verif.Proofs.Memory
import Verif.Props.FMN
import Verif.Props.Stores
import Verif.Props.PTW

/-!
# C129: memory and work of partition tree weighting and of forget-me-not
-/

namespace Verif

open Memory

variable {S σ α : Type} {P : Predictor σ α}

/-- **C129 (which models).** After any symbols, the base models of a `PTW` are new models that have seen exactly the symbols since the beginnings of the blocks
of `2 ^ j` symbols, `j ≥ m`, that the last symbol is in: one for each different beginning, the earliest first. -/
theorem C129_PTW_models (fresh : σ) (m : ℕ) (xs : List (Obs α)) (hne : xs ≠ []) (r : ℝ) (s : PTW σ)
    (hr : (PTW.predictor P fresh m).run (PTW.init fresh m) xs = .ok (r, s)) :
    ∃ ss : List ℕ, ss.Pairwise (· < ·) ∧ (∀ st, st ∈ ss ↔ IsStart m xs.length st) ∧
      List.Forall₂ (fun st b => ∃ r, P.run fresh (xs.drop st) = .ok (r, b)) ss s.tree.bases := by
  have hi := PTW.run_inv (m := m) (PTW.inv_init (P := P) (fr := fun _ => fresh)) hr
  rw [List.nil_append] at hi
  obtain ⟨ss, h1, h2, _, _, h4⟩ := rep_starts hi.rep hne
  exact ⟨ss, h1, h2, h4⟩

/-- **C129 (how many).** Their number is one more than the number of ones in the binary notation of the number of blocks of `2 ^ m` symbols before the last
symbol. -/
theorem C129_PTW_count (fresh : σ) (m : ℕ) (xs : List (Obs α)) (hne : xs ≠ []) (r : ℝ) (s : PTW σ)
    (hr : (PTW.predictor P fresh m).run (PTW.init fresh m) xs = .ok (r, s)) :
    s.tree.bases.length = ones ((xs.length - 1) / 2 ^ m) + 1 := by
  have hi := PTW.run_inv (m := m) (PTW.inv_init (P := P) (fr := fun _ => fresh)) hr
  rw [List.nil_append] at hi
  obtain ⟨ss, _, _, h3, _, h4⟩ := rep_starts hi.rep hne
  rw [← h4.length_eq, h3]

/-- **C129 (work).** Every model that is held has been updated with every symbol since its beginning, so that an update makes one update of every model held
after it.  In the first `2 ^ (m + k)` updates these are `k / 2 + 1` on average. -/
theorem C129_PTW_work (fresh : σ) (m k : ℕ) (xs : List (Obs α)) (hl : xs.length = 2 ^ (m + k)) (num : ℕ → ℕ)
    (hn : ∀ i, i < xs.length → ∃ r s, (PTW.predictor P fresh m).run (PTW.init fresh m) (xs.take (i + 1)) = .ok (r, s) ∧ num i = s.tree.bases.length) :
    2 * ∑ i ∈ Finset.range xs.length, num i = xs.length * (k + 2) := by
  have h : ∀ i ∈ Finset.range xs.length, num i = ones (i / 2 ^ m) + 1 := by
    intro i hi
    have hi' := Finset.mem_range.mp hi
    obtain ⟨r, s, h1, h2⟩ := hn i hi'
    have hlen : (xs.take (i + 1)).length = i + 1 := by rw [List.length_take]; omega
    rw [h2, C129_PTW_count fresh m _ (by intro h; rw [h] at hlen; cases hlen) r s h1, hlen, Nat.add_sub_cancel]
  rw [Finset.sum_congr rfl h, hl, pow_add, sum_blocks m (fun i => ones i + 1), Finset.sum_add_distrib, mul_add, mul_add, mul_left_comm, sum_ones,
    Finset.sum_const, Finset.card_range]
  simp only [smul_eq_mul]
  ring

variable {St : Store S σ} {add : S → σ → S} {Keep : S → σ → Prop}

theorem Memory.fmn_models (hSt : St.Lawful add Keep) (I : σ → Prop) (A : List α) (W : ℝ → Prop) (hP : P.UpdateLawful I A W) (hC : P.Copyable I) (f : σ) (hf : I f)
    (m : ℕ) (xs : List (Obs α)) (hx : ∀ o ∈ xs, o.sym ∈ A ∧ W o.weight) (hne : xs ≠ []) :
    ∃ s0 r s, FMN.init St P f m = .ok s0 ∧ (FMN.predictor St P m).run s0 xs = .ok (r, s) ∧
      (∃ ms : List σ, ms.length = xs.length / 2 ^ m ∧ s.store = (f :: ms).foldl add St.empty) ∧
      ∃ ss : List ℕ, ss.Pairwise (· < ·) ∧ (∀ st, st ∈ ss ↔ IsStart m xs.length st) ∧ ss.length = ones ((xs.length - 1) / 2 ^ m) + 1 ∧
        (∀ st ∈ ss, st < xs.length) ∧
        List.Forall₂ (fun st (a : Averager σ) => ∃ ms : List σ, ms.length = st / 2 ^ m ∧
          a.models.length = (St.items ((f :: ms).foldl add St.empty)).length) ss s.ptw.tree.bases := by
  obtain ⟨s0, r, s, fr, ms, h1, h2, h3⟩ := FMN.hist_run (m := m) hP hC hSt hf (xs := xs) hx
  obtain ⟨ss, g1, g2, g3, g5, g4⟩ := rep_starts h3.ptw.rep hne
  refine ⟨s0, r, s, h1, h3.run, ⟨ms, h3.count, h3.store⟩, ss, g1, g2, g3, g5, ?_⟩
  have : List.Forall₂ (fun st (a : Averager σ) => st < xs.length ∧ ∃ r, (Averager.predictor P).run (fr (0 + st)) (xs.drop st) = .ok (r, a))
      ss s.ptw.tree.bases := by
    rw [List.forall₂_iff_get] at g4 ⊢
    exact ⟨g4.1, fun i h h' => ⟨g5 _ (List.get_mem _ _), g4.2 i h h'⟩⟩
  refine this.imp fun st a ⟨hst, r, hr⟩ => ?_
  rw [Nat.zero_add] at hr
  obtain ⟨r', s', c1, _, c3⟩ := h3.factory st hst.le
  obtain ⟨s0', q, t, fr', ms', d1, _, d3⟩ := FMN.hist_run (m := m) hP hC hSt hf (xs := xs.take st) (fun o ho => hx o (List.mem_of_mem_take ho))
  rw [h1] at d1
  cases d1
  have e := d3.run
  rw [c1] at e
  cases e
  refine ⟨ms', ?_, ?_⟩
  · rw [d3.count, List.length_take, min_eq_left hst.le]
  · rw [run_length _ hr, modelFactory_length c3, d3.store]

/-- **C129 (forget-me-not with LogStore).** In the tree of an `FMN` the mixture for the block that begins at `st` has exactly `log₂(st / 2 ^ m + 1) + 1`
components, rounded down; and the store has `log₂(n / 2 ^ m + 1) + 1` models.  In all there are at most the number of nodes and one more times the size of the
store. -/
theorem C129_FMN_LogStore (I : σ → Prop) (A : List α) (W : ℝ → Prop) (hP : P.UpdateLawful I A W) (hC : P.Copyable I) (f : σ) (hf : I f)
    (m : ℕ) (xs : List (Obs α)) (hx : ∀ o ∈ xs, o.sym ∈ A ∧ W o.weight) (hne : xs ≠ []) :
    ∃ s0 r s, FMN.init (LogStore.store σ) P f m = .ok s0 ∧ (FMN.predictor (LogStore.store σ) P m).run s0 xs = .ok (r, s) ∧
      s.store.items.length = Nat.log 2 (xs.length / 2 ^ m + 1) + 1 ∧
      (∃ ss : List ℕ, ss.Pairwise (· < ·) ∧ (∀ st, st ∈ ss ↔ IsStart m xs.length st) ∧
        s.ptw.tree.bases.map (fun a => a.models.length) = ss.map fun st => Nat.log 2 (st / 2 ^ m + 1) + 1) ∧
      held (LogStore.store σ) s ≤ (ones ((xs.length - 1) / 2 ^ m) + 2) * (Nat.log 2 (xs.length / 2 ^ m + 1) + 1) := by
  obtain ⟨s0, r, s, h1, h2, ⟨ms, h3, h4⟩, ss, g1, g2, g3, g5, g4⟩ := Memory.fmn_models (C34_stores_lawful σ).1 I A W hP hC f hf m xs hx hne
  have hsize : ∀ ms : List σ, ((LogStore.store σ).items ((f :: ms).foldl LogStore.add (LogStore.store σ).empty)).length = Nat.log 2 (ms.length + 1) + 1 :=
    fun ms => C31_LogStore_length (f :: ms) (by simp)
  have hst : s.store.items.length = Nat.log 2 (xs.length / 2 ^ m + 1) + 1 := by
    have := hsize ms
    rw [h3, ← h4] at this
    exact this
  have hmap : s.ptw.tree.bases.map (fun a => a.models.length) = ss.map fun st => Nat.log 2 (st / 2 ^ m + 1) + 1 := by
    clear g1 g2 g3 g5 h4 h2 hst
    generalize s.ptw.tree.bases = bs at g4
    induction g4 with
    | nil => rfl
    | cons h _ ih =>
      obtain ⟨ms', k1, k2⟩ := h
      rw [List.map_cons, List.map_cons, ih, k2, hsize, k1]
  refine ⟨s0, r, s, h1, h2, hst, ⟨ss, g1, g2, hmap⟩, ?_⟩
  rw [held, hmap, show (LogStore.store σ).items s.store = s.store.items from rfl, hst]
  have hle : (ss.map fun st => Nat.log 2 (st / 2 ^ m + 1) + 1).sum ≤ (ss.map fun st => Nat.log 2 (st / 2 ^ m + 1) + 1).length • (Nat.log 2 (xs.length / 2 ^ m + 1) + 1) := by
    refine List.sum_le_card_nsmul _ _ ?_
    intro x hx
    obtain ⟨st, hs, rfl⟩ := List.mem_map.mp hx
    have : st / 2 ^ m ≤ xs.length / 2 ^ m := Nat.div_le_div_right (g5 st hs).le
    have := Nat.log_mono_right (b := 2) (show st / 2 ^ m + 1 ≤ xs.length / 2 ^ m + 1 by omega)
    omega
  rw [List.length_map, g3, smul_eq_mul] at hle
  calc _ ≤ (ones ((xs.length - 1) / 2 ^ m) + 1) * (Nat.log 2 (xs.length / 2 ^ m + 1) + 1) + (Nat.log 2 (xs.length / 2 ^ m + 1) + 1) := by omega
    _ = _ := by ring

/-- **C129 (forget-me-not with LogStoreUniform).** The same bound with one model more for each mixture and for the store. -/
theorem C129_FMN_LogStoreUniform (I : σ → Prop) (A : List α) (W : ℝ → Prop) (hP : P.UpdateLawful I A W) (hC : P.Copyable I) (f : σ) (hf : I f)
    (m : ℕ) (xs : List (Obs α)) (hx : ∀ o ∈ xs, o.sym ∈ A ∧ W o.weight) (hne : xs ≠ []) :
    ∃ s0 r s, FMN.init (LogStoreUniform.store σ) P f m = .ok s0 ∧ (FMN.predictor (LogStoreUniform.store σ) P m).run s0 xs = .ok (r, s) ∧
      held (LogStoreUniform.store σ) s ≤ (ones ((xs.length - 1) / 2 ^ m) + 2) * (Nat.log 2 (xs.length / 2 ^ m + 1) + 2) := by
  obtain ⟨s0, r, s, h1, h2, ⟨ms, h3, h4⟩, ss, g1, g2, g3, g5, g4⟩ := Memory.fmn_models (C34_stores_lawful σ).2 I A W hP hC f hf m xs hx hne
  have hsize : ∀ ms : List σ, ((LogStoreUniform.store σ).items ((f :: ms).foldl LogStoreUniform.add (LogStoreUniform.store σ).empty)).length ≤
      Nat.log 2 (ms.length + 1) + 2 := fun ms => by
    have := C32_LogStoreUniform_size (f :: ms) (by simp)
    simpa [LogStoreUniform.store, LogStoreUniform.list] using this
  have hst := hsize ms
  rw [h3, ← h4] at hst
  refine ⟨s0, r, s, h1, h2, ?_⟩
  have hle : (s.ptw.tree.bases.map fun a => a.models.length).sum ≤
      (s.ptw.tree.bases.map fun a => a.models.length).length • (Nat.log 2 (xs.length / 2 ^ m + 1) + 2) := by
    refine List.sum_le_card_nsmul _ _ ?_
    intro x hx
    obtain ⟨a, ha, rfl⟩ := List.mem_map.mp hx
    obtain ⟨i, hi, rfl⟩ := List.getElem_of_mem ha
    have hi' : i < ss.length := by rw [g4.length_eq]; exact hi
    obtain ⟨ms', k1, k2⟩ := (List.forall₂_iff_get.mp g4).2 i hi' hi
    have hs := g5 _ (List.getElem_mem hi')
    simp only [List.get_eq_getElem] at k1 k2
    have h5 := hsize ms'
    rw [← k2, k1] at h5
    have : ss[i] / 2 ^ m ≤ xs.length / 2 ^ m := Nat.div_le_div_right hs.le
    have := Nat.log_mono_right (b := 2) (show ss[i] / 2 ^ m + 1 ≤ xs.length / 2 ^ m + 1 by omega)
    omega
  rw [List.length_map, ← g4.length_eq, g3, smul_eq_mul] at hle
  rw [held]
  calc _ ≤ (ones ((xs.length - 1) / 2 ^ m) + 1) * (Nat.log 2 (xs.length / 2 ^ m + 1) + 2) + (Nat.log 2 (xs.length / 2 ^ m + 1) + 2) := by omega
    _ = _ := by ring

/-- After 23 symbols with blocks of at least two the models begin at 0, 16, 20 and 22: the eleven blocks before the last symbol are `1011` in binary notation. -/
example : ones (22 / 2 ^ 1) + 1 = 4 ∧ ∀ st, IsStart 1 23 st ↔ st ∈ [0, 16, 20, 22] := by
  constructor
  · simp [ones]
  · intro st
    constructor
    · rintro ⟨j, hj, rfl⟩
      rcases Nat.lt_or_ge j 5 with h | h
      · interval_cases j <;> simp
      · rw [Nat.div_eq_of_lt (lt_of_lt_of_le (by norm_num) (Nat.pow_le_pow_right (by norm_num) h))]
        simp
    · simp only [List.mem_cons, List.not_mem_nil, or_false]
      rintro (rfl | rfl | rfl | rfl)
      · exact ⟨5, by norm_num, by norm_num⟩
      · exact ⟨3, by norm_num, by norm_num⟩
      · exact ⟨2, by norm_num, by norm_num⟩
      · exact ⟨1, by norm_num, by norm_num⟩

/-- `KTBinary` meets the hypotheses: after 23 bits the mixtures have 1, 4, 4 and 4 components and the store 4 models. -/
example (xs : List (Obs Bool)) (hl : xs.length = 23) (hw : ∀ o ∈ xs, 0 ≤ o.weight) :
    ∃ s0 r s, FMN.init (LogStore.store KTBinary) KTBinary.predictor (KTBinary.init none) 1 = .ok s0 ∧
      (FMN.predictor (LogStore.store KTBinary) KTBinary.predictor 1).run s0 xs = .ok (r, s) ∧ s.store.items.length = 4 ∧
      held (LogStore.store KTBinary) s ≤ 20 := by
  obtain ⟨s0, r, s, h1, h2, h3, _, h4⟩ := C129_FMN_LogStore (fun s => 0 < s.c0 ∧ 0 < s.c1) [false, true] (fun w => 0 ≤ w)
    KTBinary.lawful.updateLawful (fun s hs => ⟨s, rfl, hs, fun _ => rfl⟩) (KTBinary.init none)
    ⟨by norm_num [KTBinary.init], by norm_num [KTBinary.init]⟩ 1 xs (fun o ho => ⟨by cases o.sym <;> simp, hw o ho⟩) (by rintro rfl; cases hl)
  have hlog : Nat.log 2 (23 / 2 ^ 1 + 1) = 3 := by norm_num [Nat.log_eq_iff]
  rw [hl, hlog] at h3 h4
  refine ⟨s0, r, s, h1, h2, h3, h4.trans ?_⟩
  simp [ones]

end Verif
