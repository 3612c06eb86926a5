import Verif.Spec.Changing
import Verif.Props.FMNSources
import Verif.Props.Convergence
import Verif.Proofs.CTWLawful

/-!
# C158: sources that change, with any base model

What a base model loses against each source of a class decides what a partition tree, a fixed-length partition tree or a forget-me-not model
over it loses when the source changes.
-/

namespace Verif

open Predictor Redundancy

namespace Changing

variable {γ α σ : Type}

theorem append (q : γ → Obs α → ℝ) (θ : ℕ → γ) (t : ℕ) (xs ys : List (Obs α)) :
    changingProb q θ t (xs ++ ys) = changingProb q θ t xs * changingProb q θ (t + xs.length) ys := by
  induction xs generalizing t with
  | nil => simp [changingProb]
  | cons o xs ih =>
    simp only [List.cons_append, changingProb, ih, List.length_cons]
    rw [show t + 1 + xs.length = t + (xs.length + 1) by omega]
    ring

theorem const {q : γ → Obs α → ℝ} {θ : ℕ → γ} {g : γ} {t : ℕ} {xs : List (Obs α)} (h : ∀ i < xs.length, θ (t + i) = g) :
    changingProb q θ t xs = (xs.map (q g)).prod := by
  induction xs generalizing t with
  | nil => simp [changingProb]
  | cons o xs ih =>
    have h0 : θ t = g := h 0 (by simp)
    rw [changingProb, h0, List.map_cons, List.prod_cons, ih]
    intro i hi
    rw [show t + 1 + i = t + (i + 1) by omega]
    exact h (i + 1) (by simpa using hi)

theorem nonneg {q : γ → Obs α → ℝ} (θ : ℕ → γ) (t : ℕ) {xs : List (Obs α)} (hq : ∀ g, ∀ o ∈ xs, 0 ≤ q g o) : 0 ≤ changingProb q θ t xs := by
  induction xs generalizing t with
  | nil => simp [changingProb]
  | cons o xs ih => exact mul_nonneg (hq _ o (by simp)) (ih _ fun g o ho => hq g o (by simp [ho]))

theorem segments {k : ℕ} (q : γ → Obs α → ℝ) (θ : ℕ → γ) (m : ℕ) (T : TPart k) (t : ℕ) (xs : List (Obs α)) :
    changingProb q θ t xs = ((T.segments m t xs).map fun g => changingProb q θ g.1 g.2).prod := by
  induction T generalizing t xs with
  | whole => simp [TPart.segments]
  | @split k l r ihl ihr =>
    simp only [TPart.segments, List.map_append, List.prod_append, ← ihl, ← ihr]
    conv_lhs => rw [← List.take_append_drop (2 ^ (m + k)) xs, append]
    by_cases hle : 2 ^ (m + k) ≤ xs.length
    · rw [List.length_take, Nat.min_eq_left hle]
    · rw [List.drop_eq_nil_of_le (by omega)]
      simp [changingProb]

theorem segments_infix {β : Type} {k : ℕ} (m : ℕ) (T : TPart k) (t : ℕ) (xs : List β) : ∀ g ∈ T.segments m t xs, g.2 <:+: xs := by
  induction T generalizing t xs with
  | whole => simp [TPart.segments]
  | @split k l r ihl ihr =>
    intro g hg
    simp only [TPart.segments, List.mem_append] at hg
    rcases hg with hg | hg
    · exact (ihl _ _ g hg).trans (List.take_prefix _ _).isInfix
    · exact (ihr _ _ g hg).trans (List.drop_suffix _ _).isInfix

theorem pieces_le {P : Predictor σ α} {fresh : σ} {q : γ → Obs α → ℝ} {price : ℝ} {xs : List (Obs α)} {θ : ℕ → γ} (h0 : 0 ≤ price)
    (hc : P.Competes fresh q price xs) (hq : ∀ g, ∀ o ∈ xs, 0 ≤ q g o) (l : List (ℕ × List (Obs α))) (h1 : ∀ g ∈ l, g.2 <:+: xs)
    (h3 : ∀ g ∈ l, ∀ i < g.2.length, θ (g.1 + i) = θ g.1) :
    (l.map fun g => changingProb q θ g.1 g.2).prod ≤ price ^ l.length * (l.map fun g => P.seqProb fresh g.2).prod := by
  induction l with
  | nil => simp
  | cons g l ih =>
    simp only [List.map_cons, List.prod_cons, List.length_cons, pow_succ]
    have hb := hc (θ g.1) g.2 (h1 g (by simp))
    rw [← const (h3 g (by simp))] at hb
    have := ih (fun g hg => h1 g (by simp [hg])) (fun g hg => h3 g (by simp [hg]))
    have hn : 0 ≤ (l.map fun g => changingProb q θ g.1 g.2).prod := by
      apply List.prod_nonneg
      intro x hx
      obtain ⟨g', hg', rfl⟩ := List.mem_map.mp hx
      exact nonneg _ _ fun g o ho => hq g o ((h1 g' (by simp [hg'])).mem ho)
    calc _ ≤ _ := mul_le_mul hb this hn (mul_nonneg h0 (P.seqProb_nonneg _ _))
      _ = _ := by ring

theorem bound {c k size cost : ℕ} {K G P p e : ℝ} (hK : 1 ≤ K) (hG : 0 ≤ G) (hs : size ≤ c * k + 1) (hcost : cost < 2 * size)
    (h1 : P ≤ G * 2 ^ cost * e) (he : 0 ≤ e) (h2 : p ≤ K ^ size * P) :
    p ≤ G * 2 ^ (2 * (c * k) + 1) * K ^ (c * k + 1) * e := by
  calc p ≤ K ^ size * P := h2
    _ ≤ K ^ size * (G * 2 ^ cost * e) := mul_le_mul_of_nonneg_left h1 (by positivity)
    _ ≤ K ^ (c * k + 1) * (G * 2 ^ (2 * (c * k) + 1) * e) := by
        have a1 : (2 : ℝ) ^ cost ≤ 2 ^ (2 * (c * k) + 1) := pow_le_pow_right₀ (by norm_num) (by omega)
        have a2 : K ^ size ≤ K ^ (c * k + 1) := pow_le_pow_right₀ hK hs
        gcongr
    _ = _ := by ring

theorem levels (m n : ℕ) : n ≤ 2 ^ (m + levelsFor m n) := by
  rw [levelsFor]
  exact Nat.find_spec (p := fun k => n ≤ 2 ^ (m + k)) _

end Changing

section General

variable {γ α σ : Type} [DecidableEq γ] (P : Predictor σ α) (fresh : σ) (q : γ → Obs α → ℝ) (price : ℝ) (xs : List (Obs α)) (θ : ℕ → γ)

/-- **C158 (PTWFixedLength).** If a new base model loses at most the factor `price` against each source of a class, then on a sequence whose
source changes `c` times (at multiples of the minimum block length), `PTWFixedLength` over it loses at most `c h + 1` times `price` and
`2 c h + 1` bits, where `h` is the number of levels. -/
theorem C158_PTWFixedLength (h1 : 1 ≤ price) (hc : P.Competes fresh q price xs) (hq : ∀ g, ∀ o ∈ xs, 0 ≤ q g o) (m height : ℕ)
    (hl : xs.length ≤ 2 ^ max m height) (hal : ∀ i ∈ changeTimes θ 0 xs.length, 2 ^ m ∣ i) (r : ℝ) (s : PTW σ)
    (hr : (PTWFixedLength.predictor P fresh m height).run (PTW.init fresh m) xs = .ok (r, s)) :
    changingProb q θ 0 xs ≤ 2 ^ (2 * ((changeTimes θ 0 xs.length).card * (height - m)) + 1) *
      price ^ ((changeTimes θ 0 xs.length).card * (height - m) + 1) * Real.exp r := by
  obtain ⟨T, hs, hconst⟩ := C53_partition_exists θ m (height - m) xs (by
    rw [show m + (height - m) = max m height by omega]
    exact hl) hal
  have h2 := C28_PTWFixedLength_regret P fresh m height xs hl r s hr T
  have h3 := Changing.pieces_le (zero_le_one.trans h1) hc hq (T.segments m 0 xs) (Changing.segments_infix m T 0 xs) hconst
  rw [← Changing.segments, TPart.segments_length] at h3
  have := Changing.bound (G := 1) h1 zero_le_one hs T.cost_lt (by
    have := mul_le_mul_of_nonneg_left h2 (show (0 : ℝ) ≤ 2 ^ T.cost by positivity)
    rwa [← mul_assoc, ← mul_pow, show (2 : ℝ) * (1 / 2) = 1 by norm_num, one_pow, one_mul, ← one_mul ((2 : ℝ) ^ T.cost)] at this)
    (Real.exp_pos r).le h3
  rwa [one_mul] at this

/-- **C158 (PTW).** Without a fixed length the loss is more by at most a factor `3/2` per doubling. -/
theorem C158_PTW (h1 : 1 ≤ price) (hc : P.Competes fresh q price xs) (hq : ∀ g, ∀ o ∈ xs, 0 ≤ q g o) (m : ℕ)
    (hal : ∀ i ∈ changeTimes θ 0 xs.length, 2 ^ m ∣ i) (r : ℝ) (s : PTW σ)
    (hr : (PTW.predictor P fresh m).run (PTW.init fresh m) xs = .ok (r, s)) :
    changingProb q θ 0 xs ≤ (3/2 : ℝ) ^ levelsFor m xs.length *
      2 ^ (2 * ((changeTimes θ 0 xs.length).card * levelsFor m xs.length) + 1) *
      price ^ ((changeTimes θ 0 xs.length).card * levelsFor m xs.length + 1) * Real.exp r := by
  obtain ⟨T, hs, hconst⟩ := C53_partition_exists θ m (levelsFor m xs.length) xs (Changing.levels m _) hal
  have h2 := C28_PTW_regret P fresh m xs r s hr T
  have h3 := Changing.pieces_le (zero_le_one.trans h1) hc hq (T.segments m 0 xs) (Changing.segments_infix m T 0 xs) hconst
  rw [← Changing.segments, TPart.segments_length] at h3
  refine Changing.bound h1 (by positivity) hs T.cost_lt ?_ (Real.exp_pos r).le h3
  have h4 := mul_le_mul_of_nonneg_left h2 (show (0 : ℝ) ≤ (3/2) ^ levelsFor m xs.length * 2 ^ T.cost by positivity)
  refine le_trans (le_of_eq ?_) h4
  generalize ((T.segments m 0 xs).map fun g => P.seqProb fresh g.2).prod = x
  generalize T.cost = c
  generalize levelsFor m xs.length = k
  rw [show (3/2 : ℝ) ^ k * 2 ^ c * ((2/3 : ℝ) ^ k * ((1/2 : ℝ) ^ c * x)) =
    ((3/2 : ℝ) ^ k * (2/3 : ℝ) ^ k) * ((2 : ℝ) ^ c * (1/2 : ℝ) ^ c) * x by ring,
    ← mul_pow, ← mul_pow, show (3/2 : ℝ) * (2/3) = 1 by norm_num, show (2 : ℝ) * (1/2) = 1 by norm_num]
  simp

/-- **C158 (FMN).** For a forget-me-not model with the default store each price is multiplied by the greatest size of the store. -/
theorem C158_FMN (I : σ → Prop) (A : List α) (W : ℝ → Prop) (hP : P.UpdateLawful I A W) (hC : P.Copyable I) (hf : I fresh)
    (hx : ∀ o ∈ xs, o.sym ∈ A ∧ W o.weight) (h1 : 1 ≤ price) (hc : P.Competes fresh q price xs) (hq : ∀ g, ∀ o ∈ xs, 0 ≤ q g o) (m : ℕ)
    (hal : ∀ i ∈ changeTimes θ 0 xs.length, 2 ^ m ∣ i) (s0 s : FMN (LogStore σ) σ) (r : ℝ)
    (h0 : FMN.init (LogStore.store σ) P fresh m = .ok s0) (hr : (FMN.predictor (LogStore.store σ) P m).run s0 xs = .ok (r, s)) :
    changingProb q θ 0 xs ≤ (3/2 : ℝ) ^ levelsFor m xs.length *
      2 ^ (2 * ((changeTimes θ 0 xs.length).card * levelsFor m xs.length) + 1) *
      (storeSize m xs.length * price) ^ ((changeTimes θ 0 xs.length).card * levelsFor m xs.length + 1) * Real.exp r := by
  obtain ⟨T, hs, hconst⟩ := C53_partition_exists θ m (levelsFor m xs.length) xs (Changing.levels m _) hal
  have h2 := C119_FMN_fresh P I A W hP hC fresh hf m xs hx s0 s r h0 hr T
  have h3 := Changing.pieces_le (zero_le_one.trans h1) hc hq (T.segments m 0 xs) (Changing.segments_infix m T 0 xs) hconst
  rw [← Changing.segments, TPart.segments_length] at h3
  have hK1 : (1 : ℝ) ≤ storeSize m xs.length := by exact_mod_cast storeSize_pos m xs.length
  refine Changing.bound (P := (3/2 : ℝ) ^ levelsFor m xs.length * 2 ^ T.cost * Real.exp r) (one_le_mul_of_one_le_of_one_le hK1 h1)
    (by positivity) hs T.cost_lt le_rfl (Real.exp_pos r).le ?_
  refine h3.trans ((mul_le_mul_of_nonneg_left h2 (by positivity)).trans_eq ?_)
  rw [mul_pow]
  ring

omit [DecidableEq γ] in
/-- **C158 (Averager).** If one of `k` averaged models loses at most the factor `price` against each source of a class, then the `Averager`
loses at most `k` times that, so that averages of models for different classes can be used in the same way. -/
theorem C158_Averager (I : σ → Prop) (A : List α) (W : ℝ → Prop) (hP : P.UpdateLawful I A W) (ms : List σ) (hm : ∀ x ∈ ms, I x)
    (hx : ∀ o ∈ xs, o.sym ∈ A ∧ W o.weight) (x : σ) (hmem : x ∈ ms) (h0 : 0 ≤ price) (hc : P.Competes x q price xs) (s0 : Averager σ)
    (hs : Averager.init ms = .ok s0) : (Averager.predictor P).Competes s0 q (ms.length * price) xs := by
  intro g ys hy
  have hne : ms ≠ [] := List.ne_nil_of_mem hmem
  obtain ⟨s0', e1, e2, e3⟩ := C08_Averager_mixture P ms hne ys
  rw [hs] at e1
  cases e1
  obtain ⟨r, s, hr⟩ := e2.mpr fun y hy' => by
    obtain ⟨r, t, h, -⟩ := hP.run_ok (xs := ys) (hm y hy') fun o ho => hx o (hy.mem ho)
    exact ⟨r, t, h⟩
  have h1 := (e3 r s hr).1
  have hk : (0 : ℝ) < ms.length := by exact_mod_cast List.length_pos_of_ne_nil hne
  have h2 : P.seqProb x ys ≤ (ms.map fun m => P.seqProb m ys).sum := by
    refine List.single_le_sum (fun y hy' => ?_) _ (List.mem_map_of_mem hmem)
    obtain ⟨z, -, rfl⟩ := List.mem_map.mp hy'
    exact P.seqProb_nonneg _ _
  rw [seqProb_of_run hr, h1, mul_assoc, mul_div_assoc', mul_comm (ms.length : ℝ), div_mul_cancel₀ _ hk.ne']
  exact (hc g ys hy).trans (mul_le_mul_of_nonneg_left h2 h0)

end General

section Trees

variable {γ α κ : Type} [DecidableEq α] [Fintype κ] [DecidableEq κ]

/-- **C158 (CTW competes with tree sources).** On `n` symbols a new `CTW` over `KT` loses against every tree source with at most `L` leaves
and at most `K` bits of description at most the factor `2 ^ K` and `L` times the price of a distribution. -/
theorem C158_CTW_competes (A : List α) (hA : A.Nodup) (hne : A ≠ []) (f : KT α) (hf : KT.init A none = .ok f) (d : ℕ) (ctx : List α → List κ)
    (hc : ∀ h, (ctx h).length = d) (src : γ → CatTree α κ d) (hT : ∀ g, (src g).Valid A) (K L : ℕ)
    (hK : ∀ g, (src g).shape.cost ≤ K) (hL : ∀ g, (src g).leaves ≤ L) (xs : List (Obs α)) (hx : ∀ o ∈ xs, o.sym ∈ A ∧ o.weight = 1) :
    (CTW.predictor KT.predictor f ctx).Competes (CTW.init f) (fun g o => (src g).look (ctx o.hist).reverse o.sym)
      (2 ^ K * catPrice A.length xs.length ^ L) xs := by
  intro g ys hy
  have hx' : ∀ o ∈ ys, o.sym ∈ A ∧ o.weight = 1 := fun o ho => hx o (hy.mem ho)
  have hgood : KT.Good A f := by
    rw [KT.init_default hA hne] at hf
    cases hf
    exact KT.good_default hne
  obtain ⟨r, n, hr, -⟩ := (CTWNode.updateLawful (fresh := f) (KT.lawful hA hne) hc).run_ok (xs := ys) (CTWNode.WF.new hgood d)
    (fun o ho => ⟨(hx' o ho).1, by rw [(hx' o ho).2]; exact zero_le_one⟩)
  have e : (ys.map fun o => (src g).look (ctx o.hist).reverse o.sym).prod = (src g).prob (withCtx ctx ys) := by
    clear hr hx' hy
    induction ys with
    | nil =>
      have : ∀ {d : ℕ} (T : CatTree α κ d), T.prob [] = 1 := by
        intro d T
        induction T with
        | leaf q => simp [CatTree.prob, catProb]
        | split f ih => simp [CatTree.prob, subCtx, ih]
      simp [withCtx, this]
    | cons o ys ih =>
      rw [List.map_cons, List.prod_cons, ih]
      exact (CatTree.prob_cons (src g) (by simp [hc]) o _).symm
  rw [e]
  have h1 := C93_CTW_redundancy A hA hne f hf ctx d ys (fun o _ => hc _) hx' r n hr (src g) (hT g)
  rw [show (CTW.predictor KT.predictor f ctx).seqProb (CTW.init f) ys = Real.exp r from seqProb_of_run hr]
  refine h1.trans (mul_le_mul_of_nonneg_right ?_ (Real.exp_pos r).le)
  have h2 : (src g).price A.length (withCtx ctx ys) ≤ catPrice A.length xs.length ^ (src g).leaves :=
    CatTree.price_le _ _ _ _ (by simpa [withCtx] using hy.length_le)
  have h3 : (1 : ℝ) ≤ catPrice A.length xs.length := Categorical.one_le_catPrice _ _
  have h4 := CatTree.price_pos A.length (src g) (withCtx ctx ys)
  refine mul_le_mul (pow_le_pow_right₀ (by norm_num) (hK g)) (h2.trans (pow_le_pow_right₀ h3 (hL g))) h4.le (by positivity)

/-- The probability of observations if the sources that take turns are tree sources. -/
noncomputable def changingTrees (ctx : List α → List κ) {d : ℕ} (src : γ → CatTree α κ d) (θ : ℕ → γ) (xs : List (Obs α)) : ℝ :=
  changingProb (fun g o => (src g).look (ctx o.hist).reverse o.sym) θ 0 xs

/-- **C158 (PTW over CTW).** A partition tree over context trees over KT estimators learns sources that change between tree sources. -/
theorem C158_PTW_CTW [DecidableEq γ] (A : List α) (hA : A.Nodup) (hne : A ≠ []) (f : KT α) (hf : KT.init A none = .ok f) (d : ℕ)
    (ctx : List α → List κ) (hc : ∀ h, (ctx h).length = d) (src : γ → CatTree α κ d) (hT : ∀ g, (src g).Valid A) (K L : ℕ)
    (hK : ∀ g, (src g).shape.cost ≤ K) (hL : ∀ g, (src g).leaves ≤ L) (xs : List (Obs α)) (hx : ∀ o ∈ xs, o.sym ∈ A ∧ o.weight = 1)
    (m : ℕ) (θ : ℕ → γ) (hal : ∀ i ∈ changeTimes θ 0 xs.length, 2 ^ m ∣ i) :
    ∃ r s, (PTW.predictor (CTW.predictor KT.predictor f ctx) (CTW.init f) m).run (PTW.init (CTW.init f) m) xs = .ok (r, s) ∧
      changingTrees ctx src θ xs ≤ (3/2 : ℝ) ^ levelsFor m xs.length *
        2 ^ (2 * ((changeTimes θ 0 xs.length).card * levelsFor m xs.length) + 1) *
        (2 ^ K * catPrice A.length xs.length ^ L) ^ ((changeTimes θ 0 xs.length).card * levelsFor m xs.length + 1) * Real.exp r := by
  have hgood : KT.Good A f := by
    rw [KT.init_default hA hne] at hf
    cases hf
    exact KT.good_default hne
  have hU := CTWNode.updateLawful (P := KT.predictor (α := α)) (fresh := f) (KT.lawful hA hne) hc
  have hI : CTWNode.WF f (KT.Good A) d (CTW.init f : CTWNode (KT α) κ) := CTWNode.WF.new hgood d
  obtain ⟨r, s, hr, -⟩ := (PTW.updateLawful (m := m) hU hI).run_ok (xs := xs) (s := PTW.init (CTW.init f) m)
    ⟨[], by simp [GoodObs], PTW.inv_init, hI⟩
    (fun o ho => ⟨(hx o ho).1, by rw [(hx o ho).2]; exact zero_le_one⟩)
  refine ⟨r, s, hr, ?_⟩
  have hcat : (1 : ℝ) ≤ catPrice A.length xs.length := Categorical.one_le_catPrice _ _
  refine C158_PTW _ _ _ _ xs θ (one_le_mul_of_one_le_of_one_le (one_le_pow₀ (by norm_num)) (one_le_pow₀ hcat))
    (C158_CTW_competes A hA hne f hf d ctx hc src hT K L hK hL xs hx) (fun g o ho => ?_) m hal r s hr
  exact (CatTree.look_dist (hT g) (by simp [hc])).1 _ (hx o ho).1

/-- **C158 (FMN over CTW).** The same for a forget-me-not model over context trees with bits as contexts (others cannot be copied, C23). -/
theorem C158_FMN_CTW [DecidableEq γ] (A : List α) (hA : A.Nodup) (hne : A ≠ []) (f : KT α) (hf : KT.init A none = .ok f) (d : ℕ)
    (ctx : List α → List Bool) (hc : ∀ h, (ctx h).length = d) (src : γ → CatTree α Bool d) (hT : ∀ g, (src g).Valid A) (K L : ℕ)
    (hK : ∀ g, (src g).shape.cost ≤ K) (hL : ∀ g, (src g).leaves ≤ L) (xs : List (Obs α)) (hx : ∀ o ∈ xs, o.sym ∈ A ∧ o.weight = 1)
    (m : ℕ) (θ : ℕ → γ) (hal : ∀ i ∈ changeTimes θ 0 xs.length, 2 ^ m ∣ i) :
    ∃ s0 r s, FMN.init (LogStore.store _) (CTW.predictor KT.predictor f ctx) (CTW.init f) m = .ok s0 ∧
      (FMN.predictor (LogStore.store _) (CTW.predictor KT.predictor f ctx) m).run s0 xs = .ok (r, s) ∧
      changingTrees ctx src θ xs ≤ (3/2 : ℝ) ^ levelsFor m xs.length *
        2 ^ (2 * ((changeTimes θ 0 xs.length).card * levelsFor m xs.length) + 1) *
        (storeSize m xs.length * (2 ^ K * catPrice A.length xs.length ^ L)) ^
          ((changeTimes θ 0 xs.length).card * levelsFor m xs.length + 1) * Real.exp r := by
  have hgood : KT.Good A f := by
    rw [KT.init_default hA hne] at hf
    cases hf
    exact KT.good_default hne
  have hU := CTWNode.updateLawful (P := KT.predictor (α := α)) (fresh := f) (KT.lawful hA hne) hc
  have hI : CTWNode.WF f (KT.Good A) d (CTW.init f : CTWNode (KT α) Bool) := CTWNode.WF.new hgood d
  have hC : (CTW.predictor KT.predictor f ctx).Copyable (CTWNode.WF f (KT.Good A) d) := by
    rintro ⟨b, x, y, z, w⟩ hn
    exact ⟨_, rfl, hn, fun _ => rfl⟩
  have hx' : ∀ o ∈ xs, o.sym ∈ A ∧ 0 ≤ o.weight := fun o ho => ⟨(hx o ho).1, by rw [(hx o ho).2]; exact zero_le_one⟩
  obtain ⟨s0, r, s, h0, hr, -⟩ := C35_FMN_store_size _ _ A (fun w => 0 ≤ w) hU hC (CTW.init f) hI m xs hx'
  refine ⟨s0, r, s, h0, hr, ?_⟩
  have hcat : (1 : ℝ) ≤ catPrice A.length xs.length := Categorical.one_le_catPrice _ _
  refine C158_FMN _ _ _ _ xs θ _ A _ hU hC hI hx' (one_le_mul_of_one_le_of_one_le (one_le_pow₀ (by norm_num)) (one_le_pow₀ hcat))
    (C158_CTW_competes A hA hne f hf d ctx hc src hT K L hK hL xs hx) (fun g o ho => ?_) m hal s0 s r h0 hr
  exact (CatTree.look_dist (hT g) (by simp [hc])).1 _ (hx o ho).1

/-- Two tree sources of depth one that take turns, the first repeating the last bit and the second inverting it: on `1 1 1 0 1 0`, from the
history `1` on and with the change after three bits, their probability is one. -/
example : changingTrees (fun h : List Bool => [h.getLastD false])
    (fun g : Bool => (CatTree.split fun c : Bool => .leaf fun b => if b = xor c g then 1 else 0 : CatTree Bool Bool 1))
    (fun i => decide (3 ≤ i)) (drawn [true] [true, true, true, false, true, false]) = 1 := by
  simp [changingTrees, changingProb, drawn, CatTree.look]

end Trees

end Verif
