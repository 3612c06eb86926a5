import Verif.Proofs.FMN
import Verif.Props.Stores
import Verif.Proofs.CTWPure

/-!
# C34, C35, C46: `FMN`

The theorems hold for every model store meeting `Store.Lawful`; `LogStore.lawful` and `LogStoreUniform.lawful` show that
both stores of model.py do.
-/

namespace Verif

open Predictor PTWNode

variable {S σ α : Type} (St : Store S σ) (add : S → σ → S) (Keep : S → σ → Prop) (P : Predictor σ α)

/-- The mean of the probabilities that models assign to a sequence. -/
noncomputable def meanProb (ms : List σ) (ys : List (Obs α)) : ℝ := (ms.map fun m => P.seqProb m ys).sum / ms.length

/-- **C34 (both stores).** `LogStore` and `LogStoreUniform` are model stores in the sense of the theorems below. -/
theorem C34_stores_lawful (σ : Type) :
    (LogStore.store σ).Lawful LogStore.add (fun s f => s.getLast? = some (f, true)) ∧
    (LogStoreUniform.store σ).Lawful LogStoreUniform.add (fun s f => s.items.head? = some f) :=
  ⟨LogStore.lawful σ, LogStoreUniform.lawful σ⟩

/-- **C32 (lazy_add).** `lazy_add` with a callable that returns stores what `add` of the returned value stores; a callable
that raises is called, and its exception passed on, by `LogStore` always and by `LogStoreUniform` exactly when it does
not skip. -/
theorem C32_lazyAdd (σ : Type) (e : PyErr) :
    (∀ s x, (LogStore.store σ).lazyAdd s (.ok x) = .ok (s.add x)) ∧
    (∀ s, (LogStore.store σ).lazyAdd s (.error e) = .error e) ∧
    (∀ s x, (LogStoreUniform.store σ).lazyAdd s (.ok x) = .ok (s.add x)) ∧
    (∀ s, s.numToSkip = 0 → (LogStoreUniform.store σ).lazyAdd s (.error e) = .error e) ∧
    (∀ s x, s.numToSkip ≠ 0 → (LogStoreUniform.store σ).lazyAdd s (.error e) = .ok (s.add x)) := by
  refine ⟨(LogStore.lawful σ).lazyAdd, fun _ => rfl, (LogStoreUniform.lawful σ).lazyAdd, ?_, ?_⟩
  · intro s h
    simp [LogStoreUniform.store, h]
  · intro s x h
    simp [LogStoreUniform.store, LogStoreUniform.add, h]

/-- **C34.** Over a base model with normalised updates that can be copied, `FMN` never raises, and after every sequence
the probabilities that `update` would report over the alphabet sum to one. -/
theorem C34_FMN_normalised (hSt : St.Lawful add Keep) (I : σ → Prop) (A : List α) (W : ℝ → Prop)
    (hP : P.UpdateLawful I A W) (hC : P.Copyable I) (f : σ) (hf : I f) (m : ℕ) (xs : List (Obs α))
    (hx : ∀ o ∈ xs, o.sym ∈ A ∧ W o.weight) (h : List α) (w : ℝ) (hw : W w) :
    ∃ s0 r s, FMN.init St P f m = .ok s0 ∧ (FMN.predictor St P m).run s0 xs = .ok (r, s) ∧
      (A.map fun a => probOf ((FMN.predictor St P m).update s a h w)).sum = 1 := by
  obtain ⟨s0, r, s, fr, ms, h1, h2, h3⟩ := FMN.hist_run (m := m) hP hC hSt hf (xs := xs) hx
  refine ⟨s0, r, s, h1, h3.run, ?_⟩
  obtain ⟨r', s', g1, _, g3⟩ := h3.factory xs.length le_rfl
  rw [List.take_length, h3.run] at g1
  simp only [Except.ok.injEq, Prod.mk.injEq] at g1
  obtain ⟨rfl, rfl⟩ := g1
  rw [← h3.ptw.sum (Averager.updateLawful hP) h3.over h2.tree hx h hw]
  congr 1
  apply List.map_congr_left
  intro a ha
  obtain ⟨q, p, b, k1, _, k3, _⟩ := FMN.update_ok (m := m) hP hC hSt h2 g3 ha h hw
  rw [k1, probOf_ok]
  change probOf (FMN.update St P m s a h w) = _
  rw [k3, probOf_ok]

/-- **C34 (closed form).** The probability reported for the next observation is the ratio of partition-tree mixtures in
which the predictor of a block starting at time `t` is the uniform mixture of the models that the store holds at that
time. -/
theorem C34_FMN_closed_form (hSt : St.Lawful add Keep) (I : σ → Prop) (A : List α) (W : ℝ → Prop)
    (hP : P.UpdateLawful I A W) (hC : P.Copyable I) (f : σ) (hf : I f) (m : ℕ) (xs : List (Obs α)) (o : Obs α)
    (hx : ∀ x ∈ xs ++ [o], x.sym ∈ A ∧ W x.weight) :
    ∃ s0 r s q s', FMN.init St P f m = .ok s0 ∧ (FMN.predictor St P m).run s0 xs = .ok (r, s) ∧
      (FMN.predictor St P m).update s o.sym o.hist o.weight = .ok (q, s') ∧
      ∃ stores : ℕ → List σ,
        (∀ t ≤ xs.length, ∃ r' s', (FMN.predictor St P m).run s0 (xs.take t) = .ok (r', s') ∧
          stores t = St.items s'.store) ∧
        Real.exp q = ptwProb (fun t => meanProb P (stores t)) m (levelsFor m (xs.length + 1)) 0 (xs ++ [o]) /
          ptwProb (fun t => meanProb P (stores t)) m (levelsFor m (xs.length + 1)) 0 xs := by
  have hx' : GoodObs A W xs := fun x hx' => hx x (by simp [hx'])
  obtain ⟨s0, r, s, fr, ms, h1, h2, h3⟩ := FMN.hist_run (m := m) hP hC hSt hf (xs := xs) hx'
  obtain ⟨r', s', g1, _, g3⟩ := h3.factory xs.length le_rfl
  rw [List.take_length, h3.run] at g1
  simp only [Except.ok.injEq, Prod.mk.injEq] at g1
  obtain ⟨rfl, rfl⟩ := g1
  have ho := hx o (by simp)
  obtain ⟨q, p, b, k1, _, k3, _⟩ := FMN.update_ok (m := m) hP hC hSt h2 g3 ho.1 o.hist ho.2
  have hex : ∀ t, ∃ l : List σ, l ≠ [] ∧ (t ≤ xs.length → (∃ r' s', (FMN.predictor St P m).run s0 (xs.take t) = .ok (r', s') ∧
      l = St.items s'.store) ∧ ∀ ys, GoodObs A W ys → blockProb (Averager.predictor P) fr t ys = meanProb P l ys) := by
    intro t
    by_cases ht : t ≤ xs.length
    · obtain ⟨r', s', c1, c2, c3⟩ := h3.factory t ht
      refine ⟨St.items s'.store, List.ne_nil_of_mem (hSt.mem _ _ c2.keep), fun _ => ⟨⟨r', s', c1, rfl⟩, ?_⟩⟩
      obtain ⟨v, e1, _, e3⟩ := c2.factory hP hC hSt
      rw [c3] at e1
      simp only [Except.ok.injEq] at e1
      subst e1
      exact e3
    · exact ⟨[f], by simp, fun h => absurd h ht⟩
  choose stores hne hst using hex
  have hnil : ∀ t, meanProb P (stores t) [] = 1 := by
    intro t
    have hpos : (0 : ℝ) < (stores t).length := by exact_mod_cast List.length_pos_iff.mpr (hne t)
    have : ∀ m : σ, P.seqProb m [] = 1 := fun m => by simp [seqProb, Predictor.run, probOf]
    simp only [meanProb, this, List.map_const', List.sum_replicate, nsmul_eq_mul, mul_one]
    exact div_self hpos.ne'
  have hcg : ∀ zs : List (Obs α), GoodObs A W zs → zs.length ≤ xs.length + 1 → ∀ k,
      ptwProb (blockProb (Averager.predictor P) fr) m k 0 zs = ptwProb (fun t => meanProb P (stores t)) m k 0 zs := by
    intro zs hz hl k
    refine ptwProb_congr_on (GoodObs A W) GoodObs.take GoodObs.drop (blockProb_nil _ _) hnil k 0 zs hz ?_
    intro i ys hy hi
    exact (hst i (by omega)).2 ys hy
  refine ⟨s0, r, s, q, _, h1, h3.run, k3, stores, fun t ht => (hst t ht).1, ?_⟩
  rw [(h3.ptw.update (o := o) k1).2, hcg _ hx (by simp), hcg _ hx' (by omega)]

/-- **C34 (schedule).** After `n` observations the store has received, beside the first model, one model for each
completed period of `2 ^ m` observations: a copy of the best base model at the end of that period. -/
theorem C34_FMN_schedule (hSt : St.Lawful add Keep) (I : σ → Prop) (A : List α) (W : ℝ → Prop)
    (hP : P.UpdateLawful I A W) (hC : P.Copyable I) (f : σ) (hf : I f) (m : ℕ) (xs : List (Obs α))
    (hx : ∀ o ∈ xs, o.sym ∈ A ∧ W o.weight) :
    ∃ s0 r s ms, FMN.init St P f m = .ok s0 ∧ (FMN.predictor St P m).run s0 xs = .ok (r, s) ∧
      s.store = (f :: ms).foldl add St.empty ∧ ms.length = xs.length / 2 ^ m ∧
      ∀ (i : ℕ) (hi : i < ms.length), ∃ r' s' a b,
        (FMN.predictor St P m).run s0 (xs.take ((i + 1) * 2 ^ m)) = .ok (r', s') ∧
        s'.ptw.map = .ok a ∧ a.map = .ok b ∧ P.copy b = .ok ms[i] := by
  obtain ⟨s0, r, s, fr, ms, h1, h2, h3⟩ := FMN.hist_run (m := m) hP hC hSt hf (xs := xs) hx
  refine ⟨s0, r, s, ms, h1, h3.run, h3.store, h3.count, ?_⟩
  intro i hi
  obtain ⟨r', s', k1, k2⟩ := h3.models i hi
  simp only [FMN.best, bind_eq_ok] at k2
  obtain ⟨a, ha, b, hb, hc⟩ := k2
  exact ⟨r', s', a, b, k1, ha, hb, hc⟩

/-- **C35.** The first, untrained model stays in the store forever; the predictor that starts a block after any history
assigns every continuation at least `1 / (store size)` of the probability that this model does, and the same holds for
every other model in the store. -/
theorem C35_FMN_keeps_first (hSt : St.Lawful add Keep) (I : σ → Prop) (A : List α) (W : ℝ → Prop)
    (hP : P.UpdateLawful I A W) (hC : P.Copyable I) (f : σ) (hf : I f) (m : ℕ) (xs : List (Obs α))
    (hx : ∀ o ∈ xs, o.sym ∈ A ∧ W o.weight) :
    ∃ s0 r s v, FMN.init St P f m = .ok s0 ∧ (FMN.predictor St P m).run s0 xs = .ok (r, s) ∧
      FMN.modelFactory P (St.items s.store) = .ok v ∧ f ∈ St.items s.store ∧
      ∀ g ∈ St.items s.store, ∀ ys : List (Obs α), (∀ o ∈ ys, o.sym ∈ A ∧ W o.weight) →
        P.seqProb g ys / (St.items s.store).length ≤ (Averager.predictor P).seqProb v ys := by
  obtain ⟨s0, r, s, fr, ms, h1, h2, h3⟩ := FMN.hist_run (m := m) hP hC hSt hf (xs := xs) hx
  obtain ⟨v, e1, _, e3⟩ := h2.factory hP hC hSt
  refine ⟨s0, r, s, v, h1, h3.run, e1, hSt.mem _ _ h2.keep, ?_⟩
  intro g hg ys hy
  rw [e3 ys hy]
  apply div_le_div_of_nonneg_right _ (Nat.cast_nonneg _)
  apply List.single_le_sum
  · intro x hx
    obtain ⟨y, _, rfl⟩ := List.mem_map.mp hx
    exact P.seqProb_nonneg _ _
  · exact List.mem_map.mpr ⟨g, hg, rfl⟩

/-- **C35 (size).** With the default `LogStore`, the store size after `n` observations is
`⌊log₂(⌊n / 2 ^ m⌋ + 1)⌋ + 1`. -/
theorem C35_FMN_store_size (I : σ → Prop) (A : List α) (W : ℝ → Prop)
    (hP : P.UpdateLawful I A W) (hC : P.Copyable I) (f : σ) (hf : I f) (m : ℕ) (xs : List (Obs α))
    (hx : ∀ o ∈ xs, o.sym ∈ A ∧ W o.weight) :
    ∃ s0 r s, FMN.init (LogStore.store σ) P f m = .ok s0 ∧ (FMN.predictor (LogStore.store σ) P m).run s0 xs = .ok (r, s) ∧
      s.store.items.length = Nat.log 2 (xs.length / 2 ^ m + 1) + 1 := by
  obtain ⟨s0, r, s, ms, h1, h2, h3, h4, _⟩ :=
    C34_FMN_schedule (LogStore.store σ) LogStore.add _ P (LogStore.lawful σ) I A W hP hC f hf m xs hx
  refine ⟨s0, r, s, h1, h2, ?_⟩
  rw [h3]
  have := C31_LogStore_length (f :: ms) (by simp)
  rw [List.length_cons, h4] at this
  exact this

/-- **C46.** Against any binary temporal partition of the sequence in which the predictor of each segment is any model
that the store holds when the segment starts, `FMN` loses at most a factor 2 per bit of the description of the
partition, the store size per segment, and 3/2 per doubling of the sequence. -/
theorem C46_FMN_regret (hSt : St.Lawful add Keep) (I : σ → Prop) (A : List α) (W : ℝ → Prop)
    (hP : P.UpdateLawful I A W) (hC : P.Copyable I) (f : σ) (hf : I f) (m : ℕ) (xs : List (Obs α))
    (hx : ∀ o ∈ xs, o.sym ∈ A ∧ W o.weight) (s0 s : FMN S σ) (r : ℝ) (h0 : FMN.init St P f m = .ok s0)
    (hr : (FMN.predictor St P m).run s0 xs = .ok (r, s)) (T : TPart (levelsFor m xs.length))
    (stores : ℕ → List σ) (g : ℕ → σ)
    (hst : ∀ t ≤ xs.length, ∀ r' s', (FMN.predictor St P m).run s0 (xs.take t) = .ok (r', s') →
      stores t = St.items s'.store)
    (hg : ∀ t ≤ xs.length, g t ∈ stores t) :
    (2/3 : ℝ) ^ levelsFor m xs.length * ((1/2 : ℝ) ^ T.cost *
      ((T.segments m 0 xs).map fun q => if q.2 = [] then 1 else P.seqProb (g q.1) q.2 / (stores q.1).length).prod) ≤
      Real.exp r := by
  obtain ⟨s0', r', s', fr, ms, h1, h2, h3⟩ := FMN.hist_run (m := m) hP hC hSt hf (xs := xs) hx
  rw [h0] at h1
  simp only [Except.ok.injEq] at h1
  subst h1
  have hrun := h3.run
  rw [hr] at hrun
  simp only [Except.ok.injEq, Prod.mk.injEq] at hrun
  obtain ⟨rfl, rfl⟩ := hrun
  have hseg : ∀ {k : ℕ} (T : TPart k) (t : ℕ) (ys : List (Obs α)), GoodObs A W ys → t + ys.length ≤ xs.length →
      ∀ q ∈ T.segments m t ys, GoodObs A W q.2 ∧ (q.2 ≠ [] → q.1 ≤ xs.length) := by
    intro k T
    induction T with
    | whole =>
      intro t ys hy hl q hq
      simp only [TPart.segments, List.mem_singleton] at hq
      subst hq
      exact ⟨hy, fun _ => by simp only; omega⟩
    | @split k l r' ihl ihr =>
      intro t ys hy hl q hq
      simp only [TPart.segments, List.mem_append] at hq
      rcases hq with hq | hq
      · exact ihl t _ (GoodObs.take _ _ hy) (by rw [List.length_take]; omega) q hq
      · by_cases hlt : 2 ^ (m + k) ≤ ys.length
        · exact ihr _ _ (GoodObs.drop _ _ hy) (by rw [List.length_drop]; omega) q hq
        · have hd : ys.drop (2 ^ (m + k)) = [] := List.drop_of_length_le (by omega)
          rw [hd] at hq
          have hfl := r'.segments_flatten (m := m) (t + 2 ^ (m + k)) ([] : List (Obs α))
          rw [List.flatten_eq_nil_iff] at hfl
          have hq2 : q.2 = [] := hfl _ (List.mem_map.mpr ⟨q, hq, rfl⟩)
          rw [hq2]
          exact ⟨by simp [GoodObs], fun h => absurd rfl h⟩
  rw [h3.total, h3.ptw.lp, add_comm, Real.exp_add, h3.ptw.rep.exp_lp]
  have hnn : ∀ t xs, 0 ≤ blockProb (Averager.predictor P) fr t xs := fun t xs => seqProb_nonneg _ _ _
  have hbound := T.ptwProb_ge (m := m) hnn 0 xs
  refine mul_le_mul h3.adj (le_trans ?_ hbound) ?_ (Real.exp_pos _).le
  · apply mul_le_mul_of_nonneg_left _ (by positivity)
    have hs := hseg T 0 xs hx (by omega)
    generalize T.segments m 0 xs = l at hs
    induction l with
    | nil => simp
    | cons q l ih =>
      simp only [List.map_cons, List.prod_cons]
      have hq := hs q (by simp)
      refine mul_le_mul ?_ (ih (fun q' hq' => hs q' (by simp [hq']))) ?_ (hnn _ _)
      · split_ifs with he
        · rw [he, blockProb_nil]
        · have ht := hq.2 he
          obtain ⟨r1, s1, c1, c2, c3⟩ := h3.factory q.1 ht
          obtain ⟨v, e1, _, e3⟩ := c2.factory hP hC hSt
          rw [c3] at e1
          simp only [Except.ok.injEq] at e1
          unfold blockProb
          have hsto := hst q.1 ht r1 s1 c1
          rw [e1, e3 q.2 hq.1, hsto]
          apply div_le_div_of_nonneg_right _ (Nat.cast_nonneg _)
          apply List.single_le_sum
          · intro x hx
            obtain ⟨y, _, rfl⟩ := List.mem_map.mp hx
            exact P.seqProb_nonneg _ _
          · exact List.mem_map.mpr ⟨g q.1, hsto ▸ hg q.1 ht, rfl⟩
      · apply List.prod_nonneg
        intro x hx
        obtain ⟨y, _, rfl⟩ := List.mem_map.mp hx
        split_ifs
        · norm_num
        · exact div_nonneg (P.seqProb_nonneg _ _) (Nat.cast_nonneg _)
  · refine mul_nonneg (by positivity) (List.prod_nonneg ?_)
    intro x hx
    obtain ⟨y, _, rfl⟩ := List.mem_map.mp hx
    split_ifs
    · norm_num
    · exact div_nonneg (P.seqProb_nonneg _ _) (Nat.cast_nonneg _)

/-- The base model `KTBinary` and both stores meet the hypotheses. -/
example : KTBinary.predictor.UpdateLawful (fun s => 0 < s.c0 ∧ 0 < s.c1) [false, true] (fun w => 0 ≤ w) ∧
    KTBinary.predictor.Copyable (fun s => 0 < s.c0 ∧ 0 < s.c1) ∧
    0 < (KTBinary.init none).c0 ∧ 0 < (KTBinary.init none).c1 ∧
    (LogStore.store KTBinary).Lawful LogStore.add (fun s f => s.getLast? = some (f, true)) ∧
    (LogStoreUniform.store KTBinary).Lawful LogStoreUniform.add (fun s f => s.items.head? = some f) :=
  ⟨KTBinary.lawful.updateLawful, fun s hs => ⟨s, rfl, hs, fun _ => rfl⟩, by norm_num [KTBinary.init],
    by norm_num [KTBinary.init], LogStore.lawful _, LogStoreUniform.lawful _⟩

end Verif
