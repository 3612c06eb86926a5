import Verif.Props.FMN
import Verif.Props.Sources

/-! # C119: the loss of `FMN` against sources that change -/

namespace Verif

open Predictor Redundancy

section Fresh

variable {σ α : Type} (P : Predictor σ α)

/-- The size of the default store after `n` observations, with blocks of `2 ^ m`. -/
def storeSize (m n : ℕ) : ℕ := Nat.log 2 (n / 2 ^ m + 1) + 1

theorem storeSize_mono {m a b : ℕ} (h : a ≤ b) : storeSize m a ≤ storeSize m b := by
  unfold storeSize
  have := Nat.log_mono_right (b := 2) (Nat.add_le_add_right (Nat.div_le_div_right (c := 2 ^ m) h) 1)
  omega

theorem storeSize_pos (m n : ℕ) : 1 ≤ storeSize m n := by unfold storeSize; omega

/-- **C119 (fresh models).** Against any binary temporal partition in which a new base model predicts each segment, `FMN`
with the default store loses, compared with what `PTW` may lose, only the factor `⌊log₂(⌊n / 2 ^ m⌋ + 1)⌋ + 1` for each
segment. -/
theorem C119_FMN_fresh (I : σ → Prop) (A : List α) (W : ℝ → Prop) (hP : P.UpdateLawful I A W) (hC : P.Copyable I) (f : σ)
    (hf : I f) (m : ℕ) (xs : List (Obs α)) (hx : ∀ o ∈ xs, o.sym ∈ A ∧ W o.weight) (s0 s : FMN (LogStore σ) σ) (r : ℝ)
    (h0 : FMN.init (LogStore.store σ) P f m = .ok s0)
    (hr : (FMN.predictor (LogStore.store σ) P m).run s0 xs = .ok (r, s)) (T : TPart (levelsFor m xs.length)) :
    ((T.segments m 0 xs).map fun q => P.seqProb f q.2).prod ≤
      (3/2 : ℝ) ^ levelsFor m xs.length * 2 ^ T.cost * (storeSize m xs.length : ℝ) ^ T.size * Real.exp r := by
  classical
  -- the store after `t` observations
  let stores : ℕ → List σ := fun t =>
    match (FMN.predictor (LogStore.store σ) P m).run s0 (xs.take t) with
    | .ok (_, s') => (LogStore.store σ).items s'.store
    | .error _ => []
  have hmem : ∀ t, f ∈ stores t ∧ (stores t).length ≤ storeSize m xs.length := by
    intro t
    have hxt : ∀ o ∈ xs.take t, o.sym ∈ A ∧ W o.weight := fun o ho => hx o (List.mem_of_mem_take ho)
    obtain ⟨s0', r', s', v, h1, h2, _, h4, _⟩ :=
      C35_FMN_keeps_first (LogStore.store σ) LogStore.add _ P (LogStore.lawful σ) I A W hP hC f hf m (xs.take t) hxt
    obtain ⟨s0'', r'', s'', k1, k2, k3⟩ := C35_FMN_store_size P I A W hP hC f hf m (xs.take t) hxt
    rw [h0, Except.ok.injEq] at h1 k1
    subst h1 k1
    rw [h2, Except.ok.injEq, Prod.mk.injEq] at k2
    obtain ⟨rfl, rfl⟩ := k2
    have e : stores t = (LogStore.store σ).items s'.store := by simp only [stores, h2]
    rw [e]
    refine ⟨h4, ?_⟩
    have : ((LogStore.store σ).items s'.store).length = storeSize m (xs.take t).length := k3
    rw [this]
    exact storeSize_mono (by rw [List.length_take]; omega)
  have hreg := C46_FMN_regret (LogStore.store σ) LogStore.add _ P (LogStore.lawful σ) I A W hP hC f hf m xs hx s0 s r h0 hr T
    stores (fun _ => f) (fun t _ r' s' h => by simp only [stores, h]) (fun t _ => (hmem t).1)
  set K : ℝ := (storeSize m xs.length : ℝ) with hK
  have hK1 : 1 ≤ K := by rw [hK]; exact_mod_cast storeSize_pos m xs.length
  have hprod : ∀ l : List (ℕ × List (Obs α)), (l.map fun q => P.seqProb f q.2).prod ≤ K ^ l.length *
      (l.map fun q => if q.2 = [] then 1 else P.seqProb f q.2 / (stores q.1).length).prod := by
    intro l
    induction l with
    | nil => simp
    | cons q l ih =>
      simp only [List.map_cons, List.prod_cons, List.length_cons, pow_succ]
      have hq : P.seqProb f q.2 ≤ K * (if q.2 = [] then 1 else P.seqProb f q.2 / (stores q.1).length) := by
        split_ifs with he
        · rw [he, show P.seqProb f [] = 1 by simp [seqProb, Predictor.run, probOf]]
          linarith
        · have hlen : (0 : ℝ) < (stores q.1).length := by
            exact_mod_cast List.length_pos_of_mem (hmem q.1).1
          have hle : ((stores q.1).length : ℝ) ≤ K := by rw [hK]; exact_mod_cast (hmem q.1).2
          rw [mul_div_assoc', le_div_iff₀ hlen, mul_comm]
          exact mul_le_mul_of_nonneg_right hle (P.seqProb_nonneg _ _)
      have hn : 0 ≤ (l.map fun q => P.seqProb f q.2).prod := List.prod_nonneg (by
        intro x hx
        obtain ⟨y, _, rfl⟩ := List.mem_map.mp hx
        exact P.seqProb_nonneg _ _)
      calc _ ≤ (K * (if q.2 = [] then 1 else P.seqProb f q.2 / (stores q.1).length)) * (K ^ l.length *
            (l.map fun q => if q.2 = [] then 1 else P.seqProb f q.2 / (stores q.1).length).prod) :=
          mul_le_mul hq ih hn ((P.seqProb_nonneg _ _).trans hq)
        _ = _ := by ring
  have h1 := hprod (T.segments m 0 xs)
  rw [TPart.segments_length] at h1
  refine h1.trans ?_
  generalize levelsFor m xs.length = h at *
  have e : ∀ x : ℝ, (3/2 : ℝ) ^ h * 2 ^ T.cost * ((2/3 : ℝ) ^ h * ((1/2 : ℝ) ^ T.cost * x)) = x := by
    intro x
    rw [show (3/2 : ℝ) ^ h * 2 ^ T.cost * ((2/3 : ℝ) ^ h * ((1/2 : ℝ) ^ T.cost * x)) =
      ((3/2 : ℝ) ^ h * (2/3 : ℝ) ^ h) * ((2 : ℝ) ^ T.cost * (1/2 : ℝ) ^ T.cost) * x by ring,
      ← mul_pow, ← mul_pow, show (3/2 : ℝ) * (2/3) = 1 by norm_num, show (2 : ℝ) * (1/2) = 1 by norm_num]
    simp
  have h2 := mul_le_mul_of_nonneg_left hreg (show (0 : ℝ) ≤ (3/2) ^ h * 2 ^ T.cost by positivity)
  rw [e] at h2
  have h3 := mul_le_mul_of_nonneg_left h2 (show (0 : ℝ) ≤ K ^ T.size by positivity)
  refine h3.trans_eq ?_
  ring

end Fresh

/-- **C119 (sources that change).** `FMN` over binary KT estimators with the default store loses, on `n` symbols and against
every source whose parameter changes `c` times (at multiples of the minimum block length), at most `2 c h + 1` bits, `c h + 1`
factors `2 sqrt n` and the size of the store, and a factor `3/2` per doubling, where `h` is the number of levels. -/
theorem C119_FMN_redundancy (m : ℕ) (xs : List (Obs Bool)) (hw : ∀ o ∈ xs, o.weight = 1) (s0 s : FMN (LogStore KTBinary) KTBinary)
    (r : ℝ) (h0 : FMN.init (LogStore.store KTBinary) KTBinary.predictor (KTBinary.init none) m = .ok s0)
    (hr : (FMN.predictor (LogStore.store KTBinary) KTBinary.predictor m).run s0 xs = .ok (r, s))
    (θ : ℕ → ℝ) (hθ : ∀ i, 0 ≤ θ i ∧ θ i ≤ 1) (hal : ∀ i ∈ changeTimes θ 0 xs.length, 2 ^ m ∣ i) :
    pieceProb θ 0 xs ≤ (3/2 : ℝ) ^ levelsFor m xs.length *
      2 ^ (2 * (changeTimes θ 0 xs.length).card * levelsFor m xs.length + 1) *
      (storeSize m xs.length * ktPrice xs.length) ^ ((changeTimes θ 0 xs.length).card * levelsFor m xs.length + 1) *
      Real.exp r := by
  set k := levelsFor m xs.length with hkdef
  have hlk : xs.length ≤ 2 ^ (m + k) := by
    rw [hkdef, levelsFor]
    exact Nat.find_spec (p := fun k => xs.length ≤ 2 ^ (m + k)) _
  obtain ⟨T, hs, hconst⟩ := C53_partition_exists θ m k xs hlk hal
  have h1 := C119_FMN_fresh KTBinary.predictor (fun s => 0 < s.c0 ∧ 0 < s.c1) [false, true] (fun w => 0 ≤ w)
    KTBinary.lawful.updateLawful (fun s hs => ⟨s, rfl, hs, fun _ => rfl⟩) (KTBinary.init none) (by norm_num [KTBinary.init]) m xs
    (fun o ho => ⟨by cases o.sym <;> simp, by rw [hw o ho]; exact zero_le_one⟩) s0 s r h0 hr T
  have h2 := prod_pieces_le (n := xs.length) hθ (T.segments m 0 xs)
    (fun g hg => (segments_mem_sub m T 0 xs g hg).1)
    (fun g hg o ho => hw o ((segments_mem_sub m T 0 xs g hg).2 o ho)) hconst
  rw [← pieceProb_segments, TPart.segments_length] at h2
  have hcost := T.cost_lt
  set C := (changeTimes θ 0 xs.length).card * k with hC
  have hk := one_le_ktPrice xs.length
  set K : ℝ := (storeSize m xs.length : ℝ) with hK
  have hK1 : 1 ≤ K := by rw [hK]; exact_mod_cast storeSize_pos m xs.length
  rw [show 2 * (changeTimes θ 0 xs.length).card * k = 2 * C by rw [hC]; ring]
  calc pieceProb θ 0 xs ≤ _ := h2
    _ ≤ ktPrice xs.length ^ T.size * ((3/2 : ℝ) ^ k * 2 ^ T.cost * K ^ T.size * Real.exp r) :=
        mul_le_mul_of_nonneg_left h1 (by positivity)
    _ = (3/2 : ℝ) ^ k * 2 ^ T.cost * (K * ktPrice xs.length) ^ T.size * Real.exp r := by rw [mul_pow]; ring
    _ ≤ (3/2 : ℝ) ^ k * 2 ^ (2 * C + 1) * (K * ktPrice xs.length) ^ (C + 1) * Real.exp r := by
        have a1 : (2 : ℝ) ^ T.cost ≤ 2 ^ (2 * C + 1) := pow_le_pow_right₀ (by norm_num) (by omega)
        have a2 : (K * ktPrice xs.length) ^ T.size ≤ (K * ktPrice xs.length) ^ (C + 1) :=
          pow_le_pow_right₀ (one_le_mul_of_one_le_of_one_le hK1 hk) hs
        gcongr

/-- A source that changes once, at time 2, a multiple of the block length 2; on its four symbols `FMN` has one level, and its
store holds two models at the end. -/
example : (∀ i ∈ changeTimes (fun i => if i < 2 then (1 : ℝ) else 0) 0 4, 2 ^ 1 ∣ i) ∧ levelsFor 1 4 = 1 ∧ storeSize 1 4 = 2 := by
  refine ⟨?_, ?_, ?_⟩
  · intro i hi
    simp only [changeTimes, Finset.mem_filter, Finset.mem_Ioo] at hi
    obtain ⟨⟨h1, h2⟩, h3⟩ := hi
    have : i = 1 ∨ i = 2 ∨ i = 3 := by omega
    rcases this with rfl | rfl | rfl
    · norm_num at h3
    · exact ⟨1, rfl⟩
    · norm_num at h3
  · rw [levelsFor, Nat.find_eq_iff]
    exact ⟨by norm_num, by intro n hn; obtain rfl : n = 0 := by omega
                           norm_num⟩
  · rw [storeSize, show 4 / 2 ^ 1 + 1 = 3 by norm_num, show Nat.log 2 3 = 1 by rw [Nat.log_eq_iff] <;> norm_num]

end Verif
