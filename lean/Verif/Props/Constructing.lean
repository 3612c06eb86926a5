import Verif.Model.Constructing
import Verif.Props.Compose
import Verif.Props.Estimators
import Verif.Props.FMN
import Verif.Props.Mixtures
import Verif.Props.PTW

/-!
# C164: which arguments make a model

For each constructor of `model.py`, the arguments with which it makes a model.  Context trees are C162.
-/

namespace Verif

open Predictor PyDict

namespace Constructing

section KT

variable {α : Type} [DecidableEq α]

theorem comprehension_defined {f : α → Py ℝ} {A : List α} {d e : PyDict α ℝ} (h : KT.comprehension f A d = .ok e) : ∀ a ∈ A, ∃ v, f a = .ok v := by
  induction A generalizing d with
  | nil => simp
  | cons a A ih =>
    simp only [KT.comprehension, bind_eq_ok] at h
    obtain ⟨v, h1, h2⟩ := h
    intro b hb
    rcases List.mem_cons.mp hb with rfl | hb
    · exact ⟨v, h1⟩
    · exact ih h2 b hb

/-- A comprehension that gives every symbol the same value. -/
theorem comprehension_const {f : α → Py ℝ} {c : ℝ} (hf : ∀ a, f a = .ok c) (A : List α) (d : PyDict α ℝ) (hd : d.keys.Nodup)
    (hv : ∀ p ∈ d, p.2 = c) :
    ∃ e, KT.comprehension f A d = .ok e ∧ e.keys.Nodup ∧ (∀ a, a ∈ e.keys ↔ a ∈ A ∨ a ∈ d.keys) ∧ ∀ p ∈ e, p.2 = c := by
  induction A generalizing d with
  | nil => exact ⟨d, rfl, hd, by simp, hv⟩
  | cons a A ih =>
    obtain ⟨e, h1, h2, h3, h4⟩ := ih (d.set a c) (nodup_keys_set hd) (fun p hp => by
      rcases mem_set hp with rfl | hp
      · rfl
      · exact hv p hp)
    refine ⟨e, by simp only [KT.comprehension, hf, ok_bind, h1], h2, fun b => ?_, h4⟩
    rw [h3, mem_keys_set, List.mem_cons]
    tauto

/-- A second update of a symbol whose count has been brought to zero raises. -/
theorem count_pos {J : KT α → Prop} {A : List α} (hL : (KT.predictor (α := α)).UpdateLawful J A (fun w => 0 ≤ w)) {k : KT α} (hk : J k) {a : α}
    (ha : a ∈ A) {v : ℝ} (hv : k.counts.get? a = some v) : 0 < v := by
  by_contra hn
  push Not at hn
  obtain ⟨r, k', h1, h2⟩ := hL.total k a [] (-v) hk ha (by linarith)
  simp only [KT.predictor, KT.update, getE_ok.mpr hv, ok_bind, bind_eq_ok, pure_eq_ok, Except.ok.injEq, Prod.mk.injEq] at h1
  obtain ⟨-, -, -, rfl⟩ := h1
  obtain ⟨r2, k2, h3, -⟩ := hL.total _ a [] 0 h2 ha le_rfl
  simp only [KT.predictor, KT.update, KT.logPredict, bind_eq_ok, getE_ok, get?_set_self, Option.some.injEq] at h3
  obtain ⟨q, ⟨c, hc, d, hd, hq⟩, -⟩ := h3
  rw [pyLog_eq_ok] at hq
  rw [pyDiv_eq_ok] at hd
  rw [hd.2, ← hc] at hq
  simp at hq

theorem updateLawful_perm {σ : Type} {P : Predictor σ α} {I : σ → Prop} {A B : List α} {W : ℝ → Prop} (h : P.UpdateLawful I A W) (hp : A.Perm B) :
    P.UpdateLawful I B W where
  total s a hi w hs ha hw := h.total s a hi w hs (hp.mem_iff.mpr ha) hw
  normalised s hi w hs hw f hf := by
    rw [← (hp.map fun a => Real.exp (f a)).sum_eq]
    exact h.normalised s hi w hs hw f fun a ha => hf a (hp.mem_iff.mp ha)

end KT

end Constructing

open Constructing

section KT

variable {α : Type} [DecidableEq α]

/-- **C164 (counts of KT).** `KT(alphabet, counts)` is a model for the updates with weights from zero exactly if `counts` has a positive count
for every symbol of the alphabet. -/
theorem C164_KT_counts (A : List α) (hA : A.Nodup) (hne : A ≠ []) (c : PyDict α ℝ) (hc : c ≠ []) :
    (∃ k J, KT.init A (some c) = .ok k ∧ J k ∧ (KT.predictor (α := α)).UpdateLawful J A (fun w => 0 ≤ w)) ↔
      ∀ a ∈ A, ∃ v, c.get? a = some v ∧ 0 < v := by
  constructor
  · rintro ⟨k, J, h1, h2, h3⟩ a ha
    have hdef : ∀ b ∈ A, ∃ v, c.get? b = some v := by
      intro b hb
      rcases c with _ | ⟨p, c⟩
      · exact absurd rfl hc
      · simp only [KT.init, bind_eq_ok] at h1
        obtain ⟨d, h1, -⟩ := h1
        obtain ⟨v, hv⟩ := comprehension_defined h1 b hb
        exact ⟨v, getE_ok.mp hv⟩
    have hex : ∀ b, ∃ v, b ∈ A → c.get? b = some v := by
      intro b
      by_cases hb : b ∈ A
      · obtain ⟨v, hv⟩ := hdef b hb
        exact ⟨v, fun _ => hv⟩
      · exact ⟨0, fun h => absurd h hb⟩
    choose g hg using hex
    rw [KT.init_counts hA hc g hg, Except.ok.injEq] at h1
    subst h1
    exact ⟨g a, hg a ha, count_pos h3 h2 ha (KT.get?_map g ha)⟩
  · intro h
    have hex : ∀ b, ∃ v, b ∈ A → c.get? b = some v ∧ 0 < v := by
      intro b
      by_cases hb : b ∈ A
      · obtain ⟨v, hv⟩ := h b hb
        exact ⟨v, fun _ => hv⟩
      · exact ⟨0, fun h => absurd h hb⟩
    choose g hg using hex
    exact ⟨_, KT.Good A, KT.init_counts hA hc g fun a ha => (hg a ha).1, KT.good_of_map g fun a ha => (hg a ha).2, KT.lawful hA hne⟩

/-- **C164 (alphabet of KT).** `KT(alphabet)` with any list that is not empty, in which symbols may be repeated, is a model over its distinct
symbols, which at first all have the same probability. -/
theorem C164_KT_alphabet (A : List α) (hne : A ≠ []) (B : List α) (hB : B.Nodup) (hAB : ∀ a, a ∈ B ↔ a ∈ A) :
    ∃ k J, KT.init A none = .ok k ∧ J k ∧ (KT.predictor (α := α)).UpdateLawful J B (fun w => 0 ≤ w) ∧
      ∀ a ∈ A, k.logPredict a = .ok (Real.log (1 / (B.length : ℝ))) := by
  have hl : (0 : ℝ) < A.length := by
    have := List.length_pos_of_ne_nil hne
    exact_mod_cast this
  obtain ⟨e, h1, h2, h3, h4⟩ := comprehension_const (f := fun _ : α => pyDiv 1 (A.length : ℝ)) (fun _ => pyDiv_of_ne hl.ne') A [] (by simp) (by simp)
  have hp : e.keys.Perm B := (List.perm_ext_iff_of_nodup h2 hB).mpr fun a => by rw [h3, hAB]; simp
  have hg : KT.Good e.keys (⟨e, e.values.sum⟩ : KT α) := ⟨rfl, fun p hp => by rw [h4 p hp]; positivity, rfl⟩
  have hke : e.keys ≠ [] := by
    obtain ⟨a, ha⟩ := List.exists_mem_of_ne_nil A hne
    exact List.ne_nil_of_mem ((h3 a).mpr (.inl ha))
  have hs : e.values.sum = B.length * (1 / (A.length : ℝ)) := by
    rw [← hp.length_eq, PyDict.length_keys]
    have : e.values = List.replicate e.length (1 / (A.length : ℝ)) := by
      rw [List.eq_replicate_iff]
      refine ⟨by simp [PyDict.values], fun x hx => ?_⟩
      obtain ⟨p, hp, rfl⟩ := List.mem_map.mp hx
      exact h4 p hp
    rw [this, List.sum_replicate, nsmul_eq_mul]
  refine ⟨⟨e, e.values.sum⟩, KT.Good e.keys, by simp only [KT.init, h1, ok_bind, pure_eq_ok], hg, updateLawful_perm (KT.lawful h2 hke) hp, ?_⟩
  intro a ha
  have ha' : a ∈ e.keys := (h3 a).mpr (.inl ha)
  obtain ⟨c, hc, -⟩ := hg.get ha'
  rw [hg.logPredict ha' hc]
  have e1 : c = 1 / (A.length : ℝ) := h4 _ (mem_of_get? hc)
  simp only [e1, hs]
  congr 2
  field_simp

/-- **C164 (empty alphabet).** `KT([])` can be made, but raises KeyError whatever the symbol. -/
theorem C164_KT_empty (counts : Option (PyDict α ℝ)) :
    KT.init [] counts = .ok ⟨[], 0⟩ ∧ ∀ (a : α) h w, KT.predictor.update (⟨[], 0⟩ : KT α) a h w = .error .keyError := by
  constructor
  · rcases counts with _ | (_ | ⟨p, c⟩) <;> rfl
  · intro a h w
    rfl

end KT

/-- **C164 (counts of KTBinary).** `KTBinary(counts)` is a model exactly if both counts are positive. -/
theorem C164_KTBinary (a b : ℝ) :
    (∃ J, J (KTBinary.init (some (a, b))) ∧ KTBinary.predictor.UpdateLawful J [false, true] (fun w => 0 ≤ w)) ↔ 0 < a ∧ 0 < b := by
  constructor
  · rintro ⟨J, h1, h2⟩
    have key : ∀ x : Bool, 0 < (KTBinary.init (some (a, b))).get x := by
      intro x
      by_contra hn
      push Not at hn
      obtain ⟨r, k', h3, h4⟩ := h2.total _ x [] (-(KTBinary.init (some (a, b))).get x) h1 (by cases x <;> simp) (by linarith)
      simp only [KTBinary.predictor, KTBinary.update, bind_eq_ok, pure_eq_ok, Except.ok.injEq, Prod.mk.injEq] at h3
      obtain ⟨-, -, -, rfl⟩ := h3
      obtain ⟨r2, k2, h5, -⟩ := h2.total _ x [] 0 h4 (by cases x <;> simp) le_rfl
      have h6 : ((KTBinary.init (some (a, b))).bump x (-(KTBinary.init (some (a, b))).get x)).get x = 0 := by
        cases x <;> simp [KTBinary.init, KTBinary.bump, KTBinary.get]
      simp only [KTBinary.predictor, KTBinary.update, KTBinary.logPredict, h6, bind_eq_ok, pyDiv_eq_ok, pyLog_eq_ok] at h5
      obtain ⟨q, ⟨d, ⟨-, rfl⟩, hd, -⟩, -⟩ := h5
      simp at hd
    exact ⟨by simpa [KTBinary.get, KTBinary.init] using key false, by simpa [KTBinary.get, KTBinary.init] using key true⟩
  · intro h
    exact ⟨_, by simpa [KTBinary.init] using h, KTBinary.lawful.updateLawful⟩

section SAD

variable {α : Type} [DecidableEq α]

/-- **C164 (size of SAD).** `SAD(n)` accepts a sequence of symbols with positive weights exactly if it has at most `n` different symbols; with a
negative `n` it accepts none. -/
theorem C164_SAD (n : ℤ) (xs : List (Obs α)) (hw : ∀ o ∈ xs, 0 < o.weight) :
    (∃ r s, SAD.predictor.run (SAD.init n) xs = .ok (r, s)) ↔ xs = [] ∨ ((xs.map Obs.sym).dedup.length : ℤ) ≤ n := by
  suffices H : ∀ (ys : List (Obs α)) (s : SAD α), SAD.Good s → (∀ o ∈ ys, 0 < o.weight) → s.n = n → (s.counts = [] ∨ (s.counts.length : ℤ) ≤ n) →
      ((∃ r t, SAD.predictor.run s ys = .ok (r, t)) ↔ ys = [] ∨ ((s.counts.keys ++ ys.map Obs.sym).dedup.length : ℤ) ≤ n) by
    have := H xs (SAD.init n) ⟨by simp [SAD.init], by simp [SAD.init], by simp [SAD.init]⟩ hw rfl (.inl rfl)
    simpa [SAD.init] using this
  intro ys
  induction ys with
  | nil => intro s _ _ _ _; simp [Predictor.run]
  | cons o ys ih =>
    intro s hs hw hn hle
    have ho := hw o (by simp)
    have hlen : ∀ l : List α, (s.counts.length : ℤ) ≤ ((s.counts.keys ++ l).dedup.length : ℤ) := by
      intro l
      have := (List.subperm_of_subset hs.nodup (l₂ := (s.counts.keys ++ l).dedup) fun x hx => by simp [hx]).length_le
      rw [PyDict.length_keys] at this
      exact_mod_cast this
    have hok : ∀ r, s.logPredict o.sym = .ok r → (s.bump o.sym o.weight).counts.keys.Perm (s.counts.keys ++ [o.sym]).dedup := by
      intro r _
      refine (List.perm_ext_iff_of_nodup (hs.bump o.sym ho).nodup (List.nodup_dedup _)).mpr fun b => ?_
      rw [SAD.mem_keys_bump]
      simp
      tauto
    have hstep : ∀ r, s.logPredict o.sym = .ok r → ((s.bump o.sym o.weight).counts.length : ℤ) ≤ n →
        ((∃ r t, SAD.predictor.run s (o :: ys) = .ok (r, t)) ↔ ((s.counts.keys ++ (o :: ys).map Obs.sym).dedup.length : ℤ) ≤ n) := by
      intro r hr hb
      have h1 : SAD.predictor.update s o.sym o.hist o.weight = .ok (r, s.bump o.sym o.weight) := by
        change s.update o.sym o.weight = _
        rw [SAD.update_eq, hr]
        rfl
      have h2 := ih (s.bump o.sym o.weight) (hs.bump o.sym ho) (fun o ho => hw o (by simp [ho])) ((SAD.bump_n _ _ _).trans hn) (.inr hb)
      have h3 : (∃ r t, SAD.predictor.run s (o :: ys) = .ok (r, t)) ↔ ∃ r t, SAD.predictor.run (s.bump o.sym o.weight) ys = .ok (r, t) := by
        constructor
        · rintro ⟨r', t, h⟩
          obtain ⟨r1, s1, r2, g1, g2, -⟩ := run_cons_ok.mp h
          rw [h1] at g1
          cases g1
          exact ⟨r2, t, g2⟩
        · rintro ⟨r', t, h⟩
          exact ⟨r + r', t, run_cons_ok.mpr ⟨_, _, _, h1, h, rfl⟩⟩
      have h4 : ((s.bump o.sym o.weight).counts.keys ++ ys.map Obs.sym).dedup.length = (s.counts.keys ++ (o :: ys).map Obs.sym).dedup.length := by
        apply List.Perm.length_eq
        refine (List.perm_ext_iff_of_nodup (List.nodup_dedup _) (List.nodup_dedup _)).mpr fun b => ?_
        simp only [List.mem_dedup, List.mem_append, SAD.mem_keys_bump, List.map_cons, List.mem_cons]
        tauto
      rw [h3, h2, h4]
      constructor
      · rintro (rfl | h)
        · rw [← h4]
          have : ((s.bump o.sym o.weight).counts.keys ++ ([] : List (Obs α)).map Obs.sym).dedup.length = (s.bump o.sym o.weight).counts.length := by
            rw [List.map_nil, List.append_nil, (hs.bump o.sym ho).nodup.dedup, PyDict.length_keys]
          rw [this]
          exact hb
        · exact h
      · exact .inr
    simp only [reduceCtorEq, false_or]
    cases hc : s.counts.get? o.sym with
    | some c =>
      have hne : s.counts ≠ [] := by
        rintro h
        rw [h] at hc
        simp [PyDict.get?] at hc
      refine hstep _ (hs.logPredict_seen hc) ?_
      have : (s.bump o.sym o.weight).counts.length = s.counts.length := by
        rw [← PyDict.length_keys, ← PyDict.length_keys]
        simp only [SAD.bump, hc]
        rw [keys_set_of_mem _ (get?_isSome.mp ⟨c, hc⟩)]
      rw [this]
      exact hle.resolve_left hne
    | none =>
      have hnk := get?_eq_none.mp hc
      by_cases hlt : (s.counts.length : ℤ) < n
      · refine hstep _ (hs.logPredict_new hc (by rw [hn]; exact hlt)) ?_
        have : (s.bump o.sym o.weight).counts.length = s.counts.length + 1 := by
          rw [← PyDict.length_keys, ← PyDict.length_keys]
          simp only [SAD.bump, hc]
          rw [keys_set_of_not_mem _ hnk]
          simp
        rw [this]
        push_cast
        omega
      · have hfail : ∀ r, s.logPredict o.sym ≠ .ok r := by
          intro r hr
          by_cases he : (s.counts.length : ℤ) = n
          · rw [hs.logPredict_full hc (by rw [hn]; exact he)] at hr
            cases hr
          · have h0 := hle.resolve_right (by omega)
            have hn0 : n < 0 := by
              rw [h0] at he hlt
              simp at he hlt
              omega
            have hn' : (s.n : ℝ) < 0 := by
              rw [hn]
              exact_mod_cast hn0
            have hb := hs.beta
            have h1 : s.logPredict o.sym = .error .valueError := by
              unfold SAD.logPredict
              rw [hb.1]
              simp only [ok_bind, hc]
              have hneg : ((s.n : ℝ) - (s.counts.length : ℝ)) * (s.sumCounts + SAD.betaVal s.counts.length s.sumCounts) < 0 := by
                apply mul_neg_of_neg_of_pos
                · rw [h0]
                  simpa using hn'
                · linarith [hs.sum_nonneg, hb.2]
              rw [pyDiv_of_ne hneg.ne]
              simp only [ok_bind]
              exact pyLog_of_nonpos (div_nonpos_of_nonneg_of_nonpos hb.2.le hneg.le)
            rw [h1] at hr
            cases hr
        constructor
        · rintro ⟨r, t, h⟩
          obtain ⟨r1, s1, r2, g1, -, -⟩ := run_cons_ok.mp h
          change s.update o.sym o.weight = _ at g1
          rw [SAD.update_eq, bind_eq_ok] at g1
          obtain ⟨q, g1, -⟩ := g1
          exact absurd g1 (hfail q)
        · intro h
          exfalso
          have h1 := (List.subperm_of_subset (List.nodup_cons.mpr ⟨hnk, hs.nodup⟩) (l₂ := (s.counts.keys ++ (o :: ys).map Obs.sym).dedup) fun x hx => by
            simp only [List.mem_dedup, List.mem_append, List.map_cons, List.mem_cons] at hx ⊢
            tauto).length_le
          rw [List.length_cons, PyDict.length_keys] at h1
          omega

end SAD

section Mixtures

variable {σ α : Type} (P : Predictor σ α) (I : σ → Prop) (A : List α)

/-- **C164 (models of an Averager).** `Averager(models)` is a model exactly if the list is not empty. -/
theorem C164_Averager (W : ℝ → Prop) (hP : P.Lawful I A W) (ms : List σ) (hm : ∀ m ∈ ms, I m) :
    (∃ s J, Averager.init ms = .ok s ∧ J s ∧ (Averager.predictor P).Lawful J A W) ↔ ms ≠ [] := by
  constructor
  · rintro ⟨s, J, h1, -, -⟩ rfl
    rw [C08_Averager_empty] at h1
    cases h1
  · intro hne
    obtain ⟨s, hs⟩ : ∃ s, Averager.init ms = .ok s := ⟨_, Averager.init_ok.mpr ⟨hne, rfl⟩⟩
    exact ⟨s, _, hs, Averager.over_init hm hs, Averager.lawful hP⟩

/-- **C164 (factors of Factored).** `Factored(factors)` is a model exactly if there are factors, as long as the alphabet is not empty. -/
theorem C164_Factored (hA : A ≠ []) (hP : P.Lawful I A (fun w => 0 ≤ w)) (ms : List σ) (hm : ∀ m ∈ ms, I m) :
    (∃ J, J ⟨ms⟩ ∧ (Factored.predictor P).Lawful J A (fun w => 0 ≤ w)) ↔ ms ≠ [] := by
  constructor
  · rintro ⟨J, h1, h2⟩ rfl
    obtain ⟨a, ha⟩ := List.exists_mem_of_ne_nil A hA
    obtain ⟨r, s, h3, -⟩ := h2.update_ok _ a [] 0 h1 ha le_rfl
    rw [(C12_Factored_empty P a [] 0).1] at h3
    cases h3
  · intro hne
    exact ⟨_, ⟨hne, hm⟩, Compose.factored_lawful hP⟩

end Mixtures

section PTW

/-- **C164 (heights).** The minimum height that `min_partition_length = x` gives: none for `x ≤ 0`, a negative one for `0 < x ≤ 1/2`, zero for
`1/2 < x < 2`, and that of the integer part from there. -/
theorem C164_height (x : ℝ) :
    (x ≤ 0 → PTW.minHeightOf x = .error .valueError) ∧
    (0 < x → x ≤ 1 / 2 → ∃ m < 0, PTW.minHeightOf x = .ok m) ∧
    (1 / 2 < x → x < 1 → PTW.minHeightOf x = .ok 0) ∧
    (1 ≤ x → PTW.minHeightOf x = .ok (Nat.log 2 ⌊x⌋₊ : ℕ)) := by
  have hlog2 : 0 < Real.log 2 := Real.log_pos (by norm_num)
  refine ⟨fun h => ?_, fun h0 h1 => ?_, fun h0 h1 => ?_, fun h1 => ?_⟩
  · simp [PTW.minHeightOf, pyLog_of_nonpos h]
  · have hl : Real.log x / Real.log 2 ≤ -1 := by
      rw [div_le_iff₀ hlog2]
      have := Real.log_le_log h0 h1
      rw [one_div, Real.log_inv] at this
      linarith
    refine ⟨pyInt (Real.log x / Real.log 2), ?_, by simp only [PTW.minHeightOf, pyLog_of_pos h0, ok_bind, pure_eq_ok]⟩
    rw [pyInt, if_neg (by linarith)]
    have : ⌈Real.log x / Real.log 2⌉ ≤ -1 := Int.ceil_le.mpr (by push_cast; exact hl)
    omega
  · have hx : 0 < x := by linarith
    have hl : -1 < Real.log x / Real.log 2 := by
      rw [lt_div_iff₀ hlog2]
      have := Real.log_lt_log (by norm_num) h0
      rw [one_div, Real.log_inv] at this
      linarith
    have hl0 : Real.log x / Real.log 2 < 0 := div_neg_of_neg_of_pos (Real.log_neg hx h1) hlog2
    simp only [PTW.minHeightOf, pyLog_of_pos hx, ok_bind, pure_eq_ok, Except.ok.injEq]
    rw [pyInt, if_neg (by linarith), Int.ceil_eq_iff]
    push_cast
    constructor <;> linarith
  · have hx : 0 < x := by linarith
    simp only [PTW.minHeightOf, pyLog_of_pos hx, ok_bind, pure_eq_ok, Except.ok.injEq]
    rw [pyInt, if_pos (div_nonneg (Real.log_nonneg h1) hlog2.le)]
    have hf : ⌊x⌋₊ ≠ 0 := by
      have := Nat.floor_pos.mpr h1
      omega
    rw [Int.floor_eq_iff]
    have a1 : ((2 ^ Nat.log 2 ⌊x⌋₊ : ℕ) : ℝ) ≤ x := (Nat.cast_le.mpr (Nat.pow_log_le_self 2 hf)).trans (Nat.floor_le hx.le)
    have a2 : x < ((2 ^ (Nat.log 2 ⌊x⌋₊ + 1) : ℕ) : ℝ) := by
      have := Nat.lt_pow_succ_log_self (b := 2) (by norm_num) ⌊x⌋₊
      exact (Nat.floor_lt hx.le).mp this
    push_cast at a1 a2 ⊢
    constructor
    · rw [le_div_iff₀ hlog2, ← Real.log_pow]
      exact Real.log_le_log (by positivity) a1
    · rw [div_lt_iff₀ hlog2]
      have := Real.log_lt_log hx a2
      rw [Real.log_pow] at this
      push_cast at this
      exact this

variable {σ α : Type} (P : Predictor σ α) (I : σ → Prop) (A : List α) (W : ℝ → Prop)

/-- **C164 (minimum partition length of PTW).** `PTW(min_partition_length = x)` is a model exactly if `x` is more than one half.  With a positive
`x` up to one half it can be made, but raises at its first symbol. -/
theorem C164_PTW (hP : P.UpdateLawful I A W) (fresh : σ) (hf : I fresh) (a : α) (ha : a ∈ A) (w : ℝ) (hw : W w) (x : ℝ) :
    (∃ m J, PTW.minHeightOf x = .ok m ∧ J (PTW.init fresh m.toNat) ∧ (PTW.predictorOf P fresh m).UpdateLawful J A W) ↔ 1 / 2 < x := by
  obtain ⟨h1, h2, h3, h4⟩ := C164_height x
  have hgood : ∀ m : ℤ, 0 ≤ m → ∃ J, J (PTW.init fresh m.toNat) ∧ (PTW.predictorOf P fresh m).UpdateLawful J A W := by
    intro m hm
    have hL := PTW.updateLawful (m := m.toNat) hP hf
    have hneg : ¬ m < 0 := by omega
    refine ⟨fun s => ∃ xs, GoodObs A W xs ∧ PTW.Inv P (fun _ => fresh) m.toNat s xs ∧ PTWNode.All I s.tree,
      ⟨[], by simp [GoodObs], PTW.inv_init, hf⟩, ⟨?_, ?_⟩⟩
    · intro s b h v hs hb hv
      simpa only [PTW.predictorOf, if_neg hneg] using hL.total s b h v hs hb hv
    · intro s h v hs hv f hf'
      simp only [PTW.predictorOf, if_neg hneg] at hf'
      exact hL.normalised s h v hs hv f hf'
  constructor
  · rintro ⟨m, J, g1, g2, g3⟩
    by_contra hx
    push Not at hx
    rcases le_or_gt x 0 with hx0 | hx0
    · rw [h1 hx0] at g1
      cases g1
    · obtain ⟨m', hm', g4⟩ := h2 hx0 hx
      rw [g1] at g4
      cases g4
      obtain ⟨r, s, g5, -⟩ := g3.total _ a [] w g2 ha hw
      simp only [PTW.predictorOf, if_pos hm'] at g5
      cases g5
  · intro hx
    rcases lt_or_ge x 1 with hx1 | hx1
    · obtain ⟨J, g1, g2⟩ := hgood 0 le_rfl
      exact ⟨0, J, h3 hx hx1, g1, g2⟩
    · obtain ⟨J, g1, g2⟩ := hgood (Nat.log 2 ⌊x⌋₊ : ℕ) (by positivity)
      exact ⟨_, J, h4 hx1, g1, g2⟩

/-- **C164 (calls of PTW).** With a positive `x` up to one half both `update` and `log_predict` raise ValueError in every state and for every
symbol; above, both are what they are for the largest power of two up to `x`, or for 1 if `x` is less than 1. -/
theorem C164_PTW_calls (fresh : σ) (x : ℝ) (hx : 0 < x) : ∃ m, PTW.minHeightOf x = .ok m ∧
    (x ≤ 1 / 2 → ∀ s a h w, (PTW.predictorOf P fresh m).update s a h w = .error .valueError ∧
      (PTW.predictorOf P fresh m).logPredict s a h = .error .valueError) ∧
    (1 / 2 < x → m.toNat = Nat.log 2 ⌊max 1 x⌋₊ ∧ ∀ s a h w,
      (PTW.predictorOf P fresh m).update s a h w = (PTW.predictor P fresh m.toNat).update s a h w ∧
      (PTW.predictorOf P fresh m).logPredict s a h = (PTW.predictor P fresh m.toNat).logPredict s a h) := by
  obtain ⟨-, h2, h3, h4⟩ := C164_height x
  rcases le_or_gt x (1 / 2) with hl | hl
  · obtain ⟨m, hm, g⟩ := h2 hx hl
    refine ⟨m, g, fun _ s a h w => ?_, fun h => absurd h (not_lt.mpr hl)⟩
    simp only [PTW.predictorOf, if_pos hm, and_self]
  · rcases lt_or_ge x 1 with h1 | h1
    · refine ⟨0, h3 hl h1, fun h => absurd hl (not_lt.mpr h), fun _ => ⟨?_, fun s a h w => ?_⟩⟩
      · rw [max_eq_left h1.le]; simp
      · simp only [PTW.predictorOf, lt_irrefl, if_false, and_self]
    · refine ⟨_, h4 h1, fun h => absurd hl (not_lt.mpr h), fun _ => ⟨?_, fun s a h w => ?_⟩⟩
      · rw [max_eq_right h1]; simp
      · have : ¬ ((Nat.log 2 ⌊x⌋₊ : ℕ) : ℤ) < 0 := by omega
        simp only [PTW.predictorOf, if_neg this, and_self]

/-- **C164 (minimum partition length of FMN).** `FMN(min_partition_length = x)` raises ValueError for `x` up to one half; above, it is what it is for
the largest power of two up to `x`, or for 1 if `x` is less than 1. -/
theorem C164_FMN {S : Type} (St : Store S σ) (add : S → σ → S) (Keep : S → σ → Prop) (hSt : St.Lawful add Keep) (hP : P.UpdateLawful I A W)
    (hC : P.Copyable I) (f : σ) (hf : I f) (x : ℝ) :
    (x ≤ 1 / 2 → FMN.initOf St P f x = .error .valueError) ∧
    (1 / 2 < x → FMN.initOf St P f x = FMN.init St P f (Nat.log 2 ⌊max 1 x⌋₊)) := by
  obtain ⟨h1, h2, h3, h4⟩ := C164_height x
  have hne : ∀ m, ∃ s, FMN.init St P f m = .ok s := by
    intro m
    obtain ⟨s0, r, s, fr, ms, g1, -⟩ := FMN.hist_run (m := m) hP hC hSt hf (xs := []) (by intro o ho; simp at ho)
    exact ⟨s0, g1⟩
  constructor
  · intro hx
    rcases le_or_gt x 0 with hx0 | hx0
    · simp [FMN.initOf, h1 hx0]
    · obtain ⟨m, hm, g⟩ := h2 hx0 hx
      obtain ⟨s, hs⟩ := hne m.toNat
      simp only [FMN.initOf, g, ok_bind, hs, if_pos hm]
  · intro hx
    rcases lt_or_ge x 1 with hx1 | hx1
    · obtain ⟨s, hs⟩ := hne 0
      simp [FMN.initOf, h3 hx hx1, max_eq_left hx1.le, hs]
    · obtain ⟨s, hs⟩ := hne (Nat.log 2 ⌊x⌋₊)
      have : ¬ ((Nat.log 2 ⌊x⌋₊ : ℕ) : ℤ) < 0 := by omega
      simp only [FMN.initOf, h4 hx1, max_eq_right hx1, ok_bind, Int.toNat_natCast, hs, if_neg this, pure_eq_ok]

end PTW

/-- The heights for 0.7 and for 6.5. -/
example : PTW.minHeightOf 0.7 = .ok 0 ∧ PTW.minHeightOf 6.5 = .ok 2 := by
  refine ⟨(C164_height 0.7).2.2.1 (by norm_num) (by norm_num), ?_⟩
  rw [(C164_height 6.5).2.2.2 (by norm_num)]
  have : ⌊(6.5 : ℝ)⌋₊ = 6 := by
    rw [Nat.floor_eq_iff (by norm_num)]
    norm_num
  rw [this]
  rfl

/-- `KT("hello")` is a model over four symbols. -/
example : ∃ k, KT.init ['h', 'e', 'l', 'l', 'o'] none = .ok k ∧ k.logPredict 'l' = .ok (Real.log (1 / 4)) := by
  obtain ⟨k, J, h1, -, -, h2⟩ := C164_KT_alphabet ['h', 'e', 'l', 'l', 'o'] (by simp) ['h', 'e', 'l', 'o'] (by simp) (by simp)
  exact ⟨k, h1, by simpa using h2 'l' (by simp)⟩

/-- `SAD(2)` accepts `a b a` and not `a b c`. -/
example : (∃ r s, SAD.predictor.run (SAD.init 2) [⟨'a', [], 1⟩, ⟨'b', [], 1⟩, ⟨'a', [], 1⟩] = .ok (r, s)) ∧
    ¬ ∃ r s, SAD.predictor.run (SAD.init 2) [⟨'a', [], 1⟩, ⟨'b', [], 1⟩, ⟨'c', [], 1⟩] = .ok (r, s) := by
  rw [C164_SAD _ _ (by simp), C164_SAD _ _ (by simp)]
  simp

end Verif
