import Verif.Proofs.CategoricalSources
import Verif.Props.Sources
import Verif.Props.FMN

/-!
# C93: redundancy of KT, CTW, PTW and FMN over any alphabet
-/

namespace Verif

open Predictor Categorical

variable {α : Type} [DecidableEq α]

/-- **C93.** Over an alphabet of `k ≥ 2` symbols the KT estimator gives every sequence of `n ≥ 1` unit-weight symbols at
least `1 / (e (k/2)^k n^((k-1)/2))` times the probability that any source of independent symbols gives it. -/
theorem C93_KT_redundancy (A : List α) (hA : A.Nodup) (hk : 2 ≤ A.length) (xs : List (Obs α))
    (hx : ∀ o ∈ xs, o.sym ∈ A ∧ o.weight = 1) (hne : xs ≠ []) (q : α → ℝ) (hq : IsDist A q) :
    ∃ s0 r s, KT.init A none = .ok s0 ∧ KT.predictor.run s0 xs = .ok (r, s) ∧
      catProb q xs ≤
        Real.exp 1 * ((A.length : ℝ) / 2) ^ A.length * Real.sqrt xs.length ^ (A.length - 1) * Real.exp r := by
  have hAne : A ≠ [] := by
    rintro rfl
    simp at hk
  obtain ⟨s0, r, s, h0, hr, he⟩ := run_init hA hAne hx
  refine ⟨s0, r, s, h0, hr, ?_⟩
  have hxS : ∀ o ∈ xs, o.sym ∈ A.toFinset := fun o ho => by simpa using (hx o ho).1
  have hsum := sum_cnt hxS
  have hcard := List.toFinset_card_of_nodup hA
  obtain ⟨q0, q1⟩ := hq.finset hA
  have h := cat_le_ktK (by rw [hcard]; exact hk) q0 q1.le (cnt xs) (by
    rw [hsum]
    exact List.length_pos_of_ne_nil hne)
  rw [hsum, hcard, ← he] at h
  rw [catProb_eq hxS]
  exact h

/-- **C93 (loss).** In nats: the total loss is at most that of the source plus
`(k-1)/2 log n + k log (k/2) + 1`. -/
theorem C93_KT_redundancy_loss (A : List α) (hA : A.Nodup) (hk : 2 ≤ A.length) (xs : List (Obs α))
    (hx : ∀ o ∈ xs, o.sym ∈ A ∧ o.weight = 1) (hne : xs ≠ []) (q : α → ℝ) (hq : IsDist A q)
    (hpos : 0 < catProb q xs) :
    ∃ s0 r s, KT.init A none = .ok s0 ∧ KT.predictor.run s0 xs = .ok (r, s) ∧
      -r ≤ -Real.log (catProb q xs) + ((A.length : ℝ) - 1) / 2 * Real.log xs.length +
        A.length * Real.log ((A.length : ℝ) / 2) + 1 := by
  obtain ⟨s0, r, s, h0, hr, hb⟩ := C93_KT_redundancy A hA hk xs hx hne q hq
  refine ⟨s0, r, s, h0, hr, ?_⟩
  have hn : (0 : ℝ) < xs.length := by exact_mod_cast List.length_pos_of_ne_nil hne
  have hk0 : (0 : ℝ) < A.length := by exact_mod_cast (by omega : 0 < A.length)
  have hs : 0 < Real.sqrt xs.length := Real.sqrt_pos.mpr hn
  have := Real.log_le_log hpos hb
  rw [Real.log_mul (by positivity) (Real.exp_pos r).ne', Real.log_exp, Real.log_mul (by positivity) (by positivity),
    Real.log_mul (Real.exp_pos 1).ne' (by positivity), Real.log_exp, Real.log_pow, Real.log_pow,
    Real.log_sqrt hn.le, Nat.cast_sub (by omega), Nat.cast_one] at this
  linarith

/-- Three symbols, the sequence `0 1 1 2`, and the source with probabilities `1/4, 1/2, 1/4`. -/
example : IsDist [0, 1, 2] (fun a : ℕ => if a = 1 then (1/2 : ℝ) else 1/4) ∧
    catProb (fun a : ℕ => if a = 1 then (1/2 : ℝ) else 1/4)
      [⟨0, [], 1⟩, ⟨1, [], 1⟩, ⟨1, [], 1⟩, ⟨2, [], 1⟩] = 1 / 64 := by
  constructor
  · constructor
    · intro a _
      dsimp only
      split_ifs <;> norm_num
    · norm_num
  · norm_num [catProb]

/-- **C93 (CTW).** `CTW` over KT estimators of any alphabet loses, against every tree source with a distribution at
each leaf, at most one bit per node of the tree above the maximal depth, and the price of one distribution for each
leaf. -/
theorem C93_CTW_redundancy {κ : Type} [Fintype κ] [DecidableEq κ] (A : List α) (hA : A.Nodup) (hne : A ≠ [])
    (s0 : KT α) (h0 : KT.init A none = .ok s0) (ctx : List α → List κ) (d : ℕ) (xs : List (Obs α))
    (hc : ∀ o ∈ xs, (ctx o.hist).length = d) (hx : ∀ o ∈ xs, o.sym ∈ A ∧ o.weight = 1) (r : ℝ)
    (n : CTWNode (KT α) κ) (hr : (CTW.predictor KT.predictor s0 ctx).run (CTW.init s0) xs = .ok (r, n))
    (T : CatTree α κ d) (hT : T.Valid A) :
    T.prob (withCtx ctx xs) ≤ 2 ^ T.shape.cost * T.price A.length (withCtx ctx xs) * Real.exp r := by
  have h1 := C16_CTW_regret KT.predictor s0 ctx d xs hc r n hr T.shape
  have h2 := T.prob_le hA hne h0 hT (withCtx ctx xs) (by
    intro p hp
    simp only [withCtx, List.mem_map] at hp
    obtain ⟨o, ho, rfl⟩ := hp
    exact hx o ho)
  have hp := T.price_pos A.length (withCtx ctx xs)
  refine h2.trans ?_
  have h3 : T.shape.prob (KT.predictor.seqProb s0) (withCtx ctx xs) ≤ 2 ^ T.shape.cost * Real.exp r := by
    have := mul_le_mul_of_nonneg_left h1 (show (0 : ℝ) ≤ 2 ^ T.shape.cost by positivity)
    rwa [← mul_assoc, ← mul_pow, show (2 : ℝ) * (1 / 2) = 1 by norm_num, one_pow, one_mul] at this
  calc _ ≤ _ := mul_le_mul_of_nonneg_left h3 hp.le
    _ = _ := by ring

/-- A source of depth 1 over the symbols 0, 1, 2 that repeats the last symbol. -/
example : (CatTree.split (d := 0) fun c : Fin 3 => .leaf fun a : Fin 3 => if a = c then (1 : ℝ) else 0).Valid
      [0, 1, 2] ∧
    (CatTree.split (d := 0) fun c : Fin 3 => .leaf fun a : Fin 3 => if a = c then (1 : ℝ) else 0).prob
      (withCtx id [⟨2, [2], 1⟩, ⟨0, [0], 1⟩]) = 1 := by
  constructor
  · intro c
    constructor
    · intro a _
      simp only
      split_ifs <;> norm_num
    · fin_cases c <;> simp
  · simp [CatTree.prob, withCtx, subCtx, catProb, Fin.prod_univ_three, List.filterMap_cons]

section Pieces

open Classical in
/-- **C93 (PTW, fixed length).** `PTWFixedLength` over KT estimators of any alphabet, on `n` symbols, loses against every
source of independent symbols whose distribution changes `c` times at most `2 c h + 1` bits and `c h + 1` prices of a
distribution, where `h` is the number of levels. -/
theorem C93_PTWFixedLength_redundancy (A : List α) (hA : A.Nodup) (hne : A ≠ []) (s0 : KT α)
    (h0 : KT.init A none = .ok s0) (m height : ℕ) (xs : List (Obs α)) (hl : xs.length ≤ 2 ^ max m height)
    (hx : ∀ o ∈ xs, o.sym ∈ A ∧ o.weight = 1) (r : ℝ) (s : PTW (KT α))
    (hr : (PTWFixedLength.predictor KT.predictor s0 m height).run (PTW.init s0 m) xs = .ok (r, s))
    (q : ℕ → α → ℝ) (hq : ∀ i, IsDist A (q i)) (hal : ∀ i ∈ changeTimes q 0 xs.length, 2 ^ m ∣ i) :
    catPieceProb q 0 xs ≤ 2 ^ (2 * (changeTimes q 0 xs.length).card * (height - m) + 1) *
      catPrice A.length xs.length ^ ((changeTimes q 0 xs.length).card * (height - m) + 1) * Real.exp r := by
  obtain ⟨T, hs, hconst⟩ := C53_partition_exists q m (height - m) xs (by
    rw [show m + (height - m) = max m height by omega]
    exact hl) hal
  have h1 := C28_PTWFixedLength_regret KT.predictor s0 m height xs hl r s hr T
  have hk := one_le_catPrice A.length xs.length
  have h2 := prod_catPieces_le hk (f := fun _ => KT.predictor.seqProb s0) hq (T.segments m 0 xs)
    (fun g hg o ho => (hx o ((segments_mem_sub m T 0 xs g hg).2 o ho)).1) (fun g hg => by
      have hs := segments_mem_sub m T 0 xs g hg
      have h0' := KT.predictor.seqProb_nonneg s0 g.2
      refine ⟨h0', (catProb_le hA hne h0 (fun o ho => hx o (hs.2 o ho)) (hq g.1)).trans ?_⟩
      exact mul_le_mul_of_nonneg_right (catPrice_mono _ hs.1) h0') hconst
  rw [← catPieceProb_segments, TPart.segments_length] at h2
  have hcost := T.cost_lt
  set C := (changeTimes q 0 xs.length).card * (height - m) with hC
  have hq' : (T.segments m 0 xs |>.map fun g => KT.predictor.seqProb s0 g.2).prod ≤ 2 ^ (2 * C + 1) * Real.exp r := by
    have := mul_le_mul_of_nonneg_left h1 (show (0 : ℝ) ≤ 2 ^ T.cost by positivity)
    rw [← mul_assoc, ← mul_pow, show (2 : ℝ) * (1 / 2) = 1 by norm_num, one_pow, one_mul] at this
    refine this.trans (mul_le_mul_of_nonneg_right ?_ (Real.exp_pos r).le)
    exact pow_le_pow_right₀ (by norm_num) (by omega)
  have hkp : (0 : ℝ) ≤ catPrice A.length xs.length ^ T.size := by positivity
  have hexp : (0 : ℝ) ≤ 2 ^ (2 * C + 1) * Real.exp r := by positivity
  rw [show 2 * (changeTimes q 0 xs.length).card * (height - m) = 2 * C by rw [hC]; ring]
  calc catPieceProb q 0 xs ≤ _ := h2
    _ ≤ catPrice A.length xs.length ^ T.size * (2 ^ (2 * C + 1) * Real.exp r) := mul_le_mul_of_nonneg_left hq' hkp
    _ ≤ catPrice A.length xs.length ^ (C + 1) * (2 ^ (2 * C + 1) * Real.exp r) :=
        mul_le_mul_of_nonneg_right (pow_le_pow_right₀ hk hs) hexp
    _ = _ := by ring

private theorem undo (k c : ℕ) (x : ℝ) : (3/2 : ℝ) ^ k * 2 ^ c * ((2/3 : ℝ) ^ k * ((1/2 : ℝ) ^ c * x)) = x := by
  rw [show (3/2 : ℝ) ^ k * 2 ^ c * ((2/3 : ℝ) ^ k * ((1/2 : ℝ) ^ c * x)) =
    ((3/2 : ℝ) ^ k * (2/3 : ℝ) ^ k) * ((2 : ℝ) ^ c * (1/2 : ℝ) ^ c) * x by ring,
    ← mul_pow, ← mul_pow, show (3/2 : ℝ) * (2/3) = 1 by norm_num, show (2 : ℝ) * (1/2) = 1 by norm_num]
  simp

/-- The common end of the bounds for `PTW` and `FMN`: from a bound for each partition. -/
private theorem pieces_bound {c k size cost : ℕ} {K P p e : ℝ} (hK : 1 ≤ K) (hs : size ≤ c * k + 1)
    (hcost : cost < 2 * size) (h1 : (2/3 : ℝ) ^ k * ((1/2 : ℝ) ^ cost * P) ≤ e) (he : 0 ≤ e) (h2 : p ≤ K ^ size * P) :
    p ≤ (3/2 : ℝ) ^ k * 2 ^ (2 * c * k + 1) * K ^ (c * k + 1) * e := by
  have hP : P ≤ (3/2 : ℝ) ^ k * 2 ^ (2 * (c * k) + 1) * e := by
    have := mul_le_mul_of_nonneg_left h1 (show (0 : ℝ) ≤ (3/2) ^ k * 2 ^ cost by positivity)
    rw [undo] at this
    refine this.trans (mul_le_mul_of_nonneg_right ?_ he)
    exact mul_le_mul_of_nonneg_left (pow_le_pow_right₀ (by norm_num) (by omega)) (by positivity)
  have hkp : (0 : ℝ) ≤ K ^ size := by positivity
  have hexp : (0 : ℝ) ≤ (3/2 : ℝ) ^ k * 2 ^ (2 * (c * k) + 1) * e := by positivity
  rw [show 2 * c * k = 2 * (c * k) by ring]
  calc p ≤ _ := h2
    _ ≤ K ^ size * ((3/2 : ℝ) ^ k * 2 ^ (2 * (c * k) + 1) * e) := mul_le_mul_of_nonneg_left hP hkp
    _ ≤ K ^ (c * k + 1) * ((3/2 : ℝ) ^ k * 2 ^ (2 * (c * k) + 1) * e) :=
        mul_le_mul_of_nonneg_right (pow_le_pow_right₀ hK hs) hexp
    _ = _ := by ring

private theorem levels_spec (m n : ℕ) : n ≤ 2 ^ (m + levelsFor m n) := by
  rw [levelsFor]
  exact Nat.find_spec (p := fun k => n ≤ 2 ^ (m + k)) _

open Classical in
/-- **C93 (PTW, unknown length).** `PTW` loses in addition at most a factor `3/2` per doubling of the sequence. -/
theorem C93_PTW_redundancy (A : List α) (hA : A.Nodup) (hne : A ≠ []) (s0 : KT α) (h0 : KT.init A none = .ok s0)
    (m : ℕ) (xs : List (Obs α)) (hx : ∀ o ∈ xs, o.sym ∈ A ∧ o.weight = 1) (r : ℝ) (s : PTW (KT α))
    (hr : (PTW.predictor KT.predictor s0 m).run (PTW.init s0 m) xs = .ok (r, s))
    (q : ℕ → α → ℝ) (hq : ∀ i, IsDist A (q i)) (hal : ∀ i ∈ changeTimes q 0 xs.length, 2 ^ m ∣ i) :
    catPieceProb q 0 xs ≤ (3/2 : ℝ) ^ levelsFor m xs.length *
      2 ^ (2 * (changeTimes q 0 xs.length).card * levelsFor m xs.length + 1) *
      catPrice A.length xs.length ^ ((changeTimes q 0 xs.length).card * levelsFor m xs.length + 1) * Real.exp r := by
  obtain ⟨T, hs, hconst⟩ := C53_partition_exists q m (levelsFor m xs.length) xs (levels_spec m _) hal
  have h1 := C28_PTW_regret KT.predictor s0 m xs r s hr T
  have hk := one_le_catPrice A.length xs.length
  have h2 := prod_catPieces_le hk (f := fun _ => KT.predictor.seqProb s0) hq (T.segments m 0 xs)
    (fun g hg o ho => (hx o ((segments_mem_sub m T 0 xs g hg).2 o ho)).1) (fun g hg => by
      have hs := segments_mem_sub m T 0 xs g hg
      have h0' := KT.predictor.seqProb_nonneg s0 g.2
      refine ⟨h0', (catProb_le hA hne h0 (fun o ho => hx o (hs.2 o ho)) (hq g.1)).trans ?_⟩
      exact mul_le_mul_of_nonneg_right (catPrice_mono _ hs.1) h0') hconst
  rw [← catPieceProb_segments, TPart.segments_length] at h2
  have hcost := T.cost_lt
  exact pieces_bound hk hs (by omega) h1 (Real.exp_pos r).le h2

open Classical in
/-- **C93 (FMN).** `FMN` with the default store has the bound of `PTW` where each price of a distribution is multiplied
by the greatest size of the store, which is logarithmic in the length. -/
theorem C93_FMN_redundancy (A : List α) (hA : A.Nodup) (hne : A ≠ []) (f : KT α) (hf : KT.init A none = .ok f)
    (m : ℕ) (xs : List (Obs α)) (hx : ∀ o ∈ xs, o.sym ∈ A ∧ o.weight = 1)
    (q : ℕ → α → ℝ) (hq : ∀ i, IsDist A (q i)) (hal : ∀ i ∈ changeTimes q 0 xs.length, 2 ^ m ∣ i) :
    ∃ s0 r s, FMN.init (LogStore.store (KT α)) KT.predictor f m = .ok s0 ∧
      (FMN.predictor (LogStore.store (KT α)) KT.predictor m).run s0 xs = .ok (r, s) ∧
      catPieceProb q 0 xs ≤ (3/2 : ℝ) ^ levelsFor m xs.length *
        2 ^ (2 * (changeTimes q 0 xs.length).card * levelsFor m xs.length + 1) *
        (catPrice A.length xs.length * (Nat.log 2 (xs.length / 2 ^ m + 1) + 1 : ℕ)) ^
          ((changeTimes q 0 xs.length).card * levelsFor m xs.length + 1) * Real.exp r := by
  have hP := KT.lawful hA hne
  have hC : (KT.predictor (α := α)).Copyable (KT.Good A) := fun s hs => ⟨s, rfl, hs, fun _ => rfl⟩
  have hgood : KT.Good A f := by
    rw [KT.init_default hA hne] at hf
    cases hf
    exact KT.good_default hne
  have hx' : ∀ o ∈ xs, o.sym ∈ A ∧ 0 ≤ o.weight := fun o ho => ⟨(hx o ho).1, by rw [(hx o ho).2]; norm_num⟩
  have hsz := fun t => C35_FMN_store_size KT.predictor (KT.Good A) A (fun w => 0 ≤ w) hP hC f hgood m (xs.take t)
    (fun o ho => hx' o (List.mem_of_mem_take ho))
  have hkf := fun t => C35_FMN_keeps_first (LogStore.store (KT α)) LogStore.add _ KT.predictor (LogStore.lawful _)
    (KT.Good A) A (fun w => 0 ≤ w) hP hC f hgood m (xs.take t) (fun o ho => hx' o (List.mem_of_mem_take ho))
  obtain ⟨s0, r, s, h0, hr, -⟩ := hsz xs.length
  rw [List.take_length] at hr
  refine ⟨s0, r, s, h0, hr, ?_⟩
  set L := Nat.log 2 (xs.length / 2 ^ m + 1) + 1 with hL
  have hst : ∀ t, ∃ l : List (KT α), f ∈ l ∧ (t ≤ xs.length → l.length ≤ L) ∧
      ∀ r' s', (FMN.predictor (LogStore.store (KT α)) KT.predictor m).run s0 (xs.take t) = .ok (r', s') →
        l = (LogStore.store (KT α)).items s'.store := by
    intro t
    obtain ⟨a0, r1, s1, e1, e2, e3⟩ := hsz t
    obtain ⟨b0, r2, s2, v, c1, c2, _, c4, _⟩ := hkf t
    rw [h0] at e1 c1
    cases e1
    cases c1
    rw [e2] at c2
    cases c2
    refine ⟨_, c4, ?_, ?_⟩
    · intro ht
      have : (((LogStore.store (KT α)).items s1.store)).length = s1.store.items.length := rfl
      rw [this, e3, hL]
      refine Nat.add_le_add_right (Nat.log_mono_right (Nat.add_le_add_right (Nat.div_le_div_right ?_) 1)) 1
      rw [List.length_take]
      omega
    · intro r' s' h
      rw [e2] at h
      cases h
      rfl
  choose stores hmem hlen hsto using hst
  obtain ⟨T, hs, hconst⟩ := C53_partition_exists q m (levelsFor m xs.length) xs (levels_spec m _) hal
  have h1 := C46_FMN_regret (LogStore.store (KT α)) LogStore.add _ KT.predictor (LogStore.lawful _) (KT.Good A) A
    (fun w => 0 ≤ w) hP hC f hgood m xs hx' s0 s r h0 hr T stores (fun _ => f) (fun t _ => hsto t) (fun t _ => hmem t)
  have hL1 : (1 : ℝ) ≤ L := by exact_mod_cast (by omega : 1 ≤ L)
  have hk := one_le_catPrice A.length xs.length
  have hK : 1 ≤ catPrice A.length xs.length * (L : ℝ) := by nlinarith
  have h2 := prod_catPieces_le hK (f := fun t ys => if ys = [] then 1 else KT.predictor.seqProb f ys / (stores t).length)
    hq (T.segments m 0 xs)
    (fun g hg o ho => (hx o ((segments_mem_sub m T 0 xs g hg).2 o ho)).1) (fun g hg => by
      have hs := segments_mem_sub m T 0 xs g hg
      have h0' := KT.predictor.seqProb_nonneg f g.2
      split_ifs with hnil
      · rw [hnil]
        simp only [catProb, List.map_nil, List.prod_nil, mul_one]
        exact ⟨zero_le_one, hK⟩
      · refine ⟨div_nonneg h0' (Nat.cast_nonneg _), ?_⟩
        have hle : g.1 ≤ xs.length := by
          have := segments_start m T 0 xs g hg hnil
          omega
        have hl := hlen g.1 hle
        have hpos : (0 : ℝ) < (stores g.1).length := by exact_mod_cast List.length_pos_of_mem (hmem g.1)
        have hl' : ((stores g.1).length : ℝ) ≤ L := by exact_mod_cast hl
        refine (catProb_le hA hne hf (fun o ho => hx o (hs.2 o ho)) (hq g.1)).trans ?_
        refine (mul_le_mul_of_nonneg_right (catPrice_mono _ hs.1) h0').trans ?_
        rw [mul_assoc]
        refine mul_le_mul_of_nonneg_left ?_ (by linarith)
        rw [mul_div_assoc', le_div_iff₀ hpos]
        nlinarith) hconst
  rw [← catPieceProb_segments, TPart.segments_length] at h2
  have hcost := T.cost_lt
  exact pieces_bound hK hs (by omega) h1 (Real.exp_pos r).le h2

open Classical in
/-- A source over three symbols that emits 2 until time 2 and then 0 changes once. -/
example : catPieceProb (fun i => if i < 2 then fun a : ℕ => if a = 2 then (1 : ℝ) else 0 else fun a => if a = 0 then 1 else 0)
    0 [⟨2, [], 1⟩, ⟨2, [], 1⟩, ⟨0, [], 1⟩] = 1 := by
  norm_num [catPieceProb]

end Pieces

/-- **C03 (frequencies).** With the default prior the predicted probability of a symbol differs from its relative
frequency by at most `1 / (n + 1)`. -/
theorem C03_KT_frequency (A : List α) (hA : A.Nodup) (hne : A ≠ []) (s0 s : KT α)
    (h0 : KT.init A none = .ok s0) (xs : List (Obs α)) (hx : ∀ o ∈ xs, o.sym ∈ A ∧ o.weight = 1) (hxs : xs ≠ []) (r : ℝ)
    (hr : KT.predictor.run s0 xs = .ok (r, s)) (a : α) (ha : a ∈ A) (h : List α) :
    ∃ p, KT.predictor.predict s a h = .ok (p, s) ∧
      |p - (xs.countP fun o => o.sym = a : ℕ) / (xs.length : ℝ)| ≤ 1 / ((xs.length : ℝ) + 1) := by
  have hc := C03_KT_closed_form A hA hne s0 s h0 xs (fun o ho => ⟨(hx o ho).1, by rw [(hx o ho).2]; norm_num⟩) r hr a ha h
  have hw : weightOf a xs = (xs.countP fun o => o.sym = a : ℕ) ∧ totalWeight xs = xs.length := by
    clear hr hc hxs
    induction xs with
    | nil => simp [weightOf, totalWeight]
    | cons o xs ih =>
      obtain ⟨i1, i2⟩ := ih fun o ho => hx o (by simp [ho])
      have hw := (hx o (by simp)).2
      constructor
      · simp only [weightOf, List.countP_cons] at i1 ⊢
        by_cases hoa : o.sym = a
        · simp [hoa, hw, ← i1, add_comm]
        · simp [hoa, ← i1]
      · simp only [totalWeight, List.map_cons, List.sum_cons, List.length_cons, hw] at i2 ⊢
        rw [i2]
        push_cast
        ring
  rw [hw.1, hw.2] at hc
  refine ⟨_, hc, ?_⟩
  have hn : (0 : ℝ) < xs.length := by exact_mod_cast List.length_pos_of_ne_nil hxs
  have hk : (1 : ℝ) ≤ A.length := by exact_mod_cast List.length_pos_of_ne_nil hne
  have hcn : ((xs.countP fun o => o.sym = a : ℕ) : ℝ) ≤ xs.length := by exact_mod_cast List.countP_le_length
  set c : ℝ := ((xs.countP fun o => o.sym = a : ℕ) : ℝ) with hcd
  have hc0 : 0 ≤ c := by positivity
  set n : ℝ := (xs.length : ℝ) with hnd
  have hp : 0 ≤ 1 / (A.length : ℝ) ∧ 1 / (A.length : ℝ) ≤ 1 := ⟨by positivity, by rw [div_le_one (by linarith)]; exact hk⟩
  set p := 1 / (A.length : ℝ) with hpd
  have e : (c + p) / (n + 1) - c / n = (p - c / n) / (n + 1) := by
    field_simp
    ring
  have hq0 : 0 ≤ c / n := by positivity
  have hq1 : c / n ≤ 1 := (div_le_one hn).mpr hcn
  rw [e, abs_div, abs_of_pos (show (0 : ℝ) < n + 1 by linarith)]
  refine div_le_div_of_nonneg_right ?_ (by linarith)
  rw [abs_le]
  constructor <;> linarith [hp.1, hp.2]

end Verif
