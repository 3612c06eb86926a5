import Verif.Props.CTW
import Verif.Props.PTW
import Verif.Props.Mixtures

/-!
# C146: larger classes of models cost little; C147: order and repetition of averaged models
-/

namespace Verif

open Predictor

/-! ## C146 -/

section Trees

variable {κ β : Type} [DecidableEq κ]

/-- The contexts of length `d` that occur. -/
def contexts (d : ℕ) (S : List (List κ × β)) : Finset (List κ) := (S.map fun p => p.1.take d).toFinset

theorem subCtx_take (d : ℕ) (c : κ) (S : List (List κ × β)) :
    subCtx c (S.map fun p => (p.1.take (d + 1), p.2)) = (subCtx c S).map fun p => (p.1.take d, p.2) := by
  induction S with
  | nil => rfl
  | cons p S ih =>
    obtain ⟨cs, b⟩ := p
    unfold subCtx at *
    cases cs with
    | nil => simpa using ih
    | cons e cs =>
      by_cases h : e = c
      · simp [h, ih]
      · simp [h, ih]

theorem heads_take (d : ℕ) (S : List (List κ × β)) : heads (S.map fun p => (p.1.take (d + 1), p.2)) = heads S := by
  unfold heads
  rw [List.filterMap_map]
  congr 1
  refine List.filterMap_congr fun p _ => ?_
  obtain ⟨cs, b⟩ := p
  cases cs <;> rfl

theorem sum_contexts_le (d : ℕ) (S : List (List κ × β)) : ∑ c ∈ heads S, (contexts d (subCtx c S)).card ≤ (contexts (d + 1) S).card := by
  have h1 : ∀ c, (contexts d (subCtx c S)).card = ((contexts d (subCtx c S)).image (List.cons c)).card := fun c =>
    (Finset.card_image_of_injective _ (List.cons_injective)).symm
  simp only [h1]
  rw [← Finset.card_biUnion]
  · refine Finset.card_le_card fun l hl => ?_
    simp only [Finset.mem_biUnion, Finset.mem_image, contexts, List.mem_toFinset, List.mem_map, subCtx, List.mem_filterMap] at hl ⊢
    obtain ⟨c, -, _, ⟨q, ⟨p, hp, hq⟩, rfl⟩, rfl⟩ := hl
    obtain ⟨cs, b⟩ := p
    cases cs with
    | nil => simp at hq
    | cons e cs =>
      simp only at hq
      split_ifs at hq with h
      rw [Option.some.injEq] at hq
      subst hq
      exact ⟨_, hp, by simp [h]⟩
  · intro x _ y _ hxy
    simp only [Function.onFun, Finset.disjoint_left, Finset.mem_image]
    rintro l ⟨a, -, rfl⟩ ⟨b, -, hb⟩
    exact hxy (List.cons.inj hb).1.symm

theorem ctwProb_deeper {base : List β → ℝ} (hb : ∀ l, 0 ≤ base l) (h1 : base [] = 1) (d : ℕ) : ∀ (D : ℕ) (S : List (List κ × β)), d ≤ D →
    ctwProb base d (S.map fun p => (p.1.take d, p.2)) ≤ 2 ^ (contexts d S).card * ctwProb base D S := by
  induction d with
  | zero =>
    intro D S _
    rcases S with _ | ⟨p, S⟩
    · simp [ctwProb_nil h1, contexts]
    · have hc : (contexts 0 (p :: S)).card = 1 := by
        rw [Finset.card_eq_one]
        exact ⟨[], by ext l; simp [contexts]⟩
      rw [hc, pow_one]
      have e : ((p :: S).map fun p => (p.1.take 0, p.2)).map Prod.snd = (p :: S).map Prod.snd := by simp
      cases D with
      | zero =>
        simp only [ctwProb, e]
        have := hb ((p :: S).map Prod.snd)
        linarith
      | succ D =>
        simp only [ctwProb, e]
        have := Finset.prod_nonneg fun c (_ : c ∈ heads (p :: S)) => ctwProb_nonneg hb D (subCtx c (p :: S))
        linarith
  | succ d ih =>
    intro D S hd
    obtain ⟨D, rfl⟩ := Nat.exists_eq_add_of_le' (show 1 ≤ D by omega)
    have e : (S.map fun p => (p.1.take (d + 1), p.2)).map Prod.snd = S.map Prod.snd := by simp
    simp only [ctwProb, e, heads_take, subCtx_take]
    have h2 : ∏ c ∈ heads S, ctwProb base d ((subCtx c S).map fun p => (p.1.take d, p.2)) ≤
        ∏ c ∈ heads S, (2 ^ (contexts d (subCtx c S)).card * ctwProb base D (subCtx c S)) :=
      Finset.prod_le_prod (fun c _ => ctwProb_nonneg hb _ _) fun c _ => ih D _ (by omega)
    rw [Finset.prod_mul_distrib, Finset.prod_pow_eq_pow_sum] at h2
    have h3 : (2 : ℝ) ^ (∑ c ∈ heads S, (contexts d (subCtx c S)).card) ≤ 2 ^ (contexts (d + 1) S).card :=
      pow_le_pow_right₀ one_le_two (sum_contexts_le d S)
    have h4 := Finset.prod_nonneg fun c (_ : c ∈ heads S) => ctwProb_nonneg hb D (subCtx c S)
    have h5 : (1 : ℝ) ≤ 2 ^ (contexts (d + 1) S).card := one_le_pow₀ one_le_two
    have h6 := mul_le_mul_of_nonneg_right h3 h4
    have h7 := mul_le_mul_of_nonneg_right h5 (hb (S.map Prod.snd))
    linarith

end Trees

section

variable {σ α κ : Type} [DecidableEq κ]

/-- **C146 (CTW).** A context tree of greater depth loses against one of depth `d` over the same base model at most one bit for each context of length `d` that has
occurred, whatever the symbols. -/
theorem C146_CTW_depth (P : Predictor σ α) (fresh : σ) (d D : ℕ) (hd : d ≤ D) (ctx deep : List α → List κ) (xs : List (Obs α))
    (hc : ∀ o ∈ xs, (ctx o.hist).length = d ∧ (deep o.hist).length = D ∧ ctx o.hist <:+ deep o.hist) (r r' : ℝ) (n n' : CTWNode σ κ)
    (hr : (CTW.predictor P fresh ctx).run (CTW.init fresh) xs = .ok (r, n))
    (hr' : (CTW.predictor P fresh deep).run (CTW.init fresh) xs = .ok (r', n')) :
    -r' ≤ -r + (xs.map fun o => ctx o.hist).toFinset.card * Real.log 2 := by
  have h1 := C13_CTW_closed_form P fresh ctx d xs (fun o ho => (hc o ho).1) r n hr
  have h2 := C13_CTW_closed_form P fresh deep D xs (fun o ho => (hc o ho).2.1) r' n' hr'
  have ht : ∀ o ∈ xs, (deep o.hist).reverse.take d = (ctx o.hist).reverse := by
    intro o ho
    obtain ⟨g1, -, g3⟩ := hc o ho
    rw [List.prefix_iff_eq_take.mp (List.reverse_prefix.mpr g3), List.length_reverse, g1]
  have e : (withCtx deep xs).map (fun p => (p.1.take d, p.2)) = withCtx ctx xs := by
    simp only [withCtx, List.map_map]
    exact List.map_congr_left fun o ho => by simp [ht o ho]
  have e2 : (contexts d (withCtx deep xs)).card = (xs.map fun o => ctx o.hist).toFinset.card := by
    have : contexts d (withCtx deep xs) = ((xs.map fun o => ctx o.hist).toFinset).image List.reverse := by
      ext l
      simp only [contexts, withCtx, List.map_map, List.mem_toFinset, List.mem_map, Finset.mem_image, Function.comp]
      constructor
      · rintro ⟨o, ho, rfl⟩
        exact ⟨_, ⟨o, ho, rfl⟩, (ht o ho).symm⟩
      · rintro ⟨_, ⟨o, ho, rfl⟩, rfl⟩
        exact ⟨o, ho, ht o ho⟩
    rw [this, Finset.card_image_of_injective _ List.reverse_injective]
  have h3 := ctwProb_deeper (base := P.seqProb fresh) (fun l => P.seqProb_nonneg fresh l) (by simp [seqProb, Predictor.run, probOf]) d D
    (withCtx deep xs) hd
  rw [e, e2, ← h1, ← h2] at h3
  have h4 := Real.log_le_log (Real.exp_pos r) h3
  rw [Real.log_mul (by positivity) (Real.exp_pos _).ne', Real.log_pow, Real.log_exp, Real.log_exp] at h4
  linarith

/-- **C146 (CTW, as called).** So for `CTW` of depths `1 ≤ d ≤ D`: at most `2 ^ d` bits for binary symbols, however long the sequence. -/
theorem C146_CTW_binary (P : Predictor σ Bool) (fresh : σ) (d D : ℕ) (h1 : 1 ≤ d) (hd : d ≤ D) (xs : List (Obs Bool)) (r r' : ℝ) (n n' : CTWNode σ Bool)
    (hr : (CTW.predictor P fresh (CTW.mkcontext d false)).run (CTW.init fresh) xs = .ok (r, n))
    (hr' : (CTW.predictor P fresh (CTW.mkcontext D false)).run (CTW.init fresh) xs = .ok (r', n')) :
    -r' ≤ -r + 2 ^ d * Real.log 2 := by
  have hc : ∀ x : List Bool, CTW.mkcontext d false x <:+ CTW.mkcontext D false x := by
    intro x
    rw [(C18_mkcontext_partial d h1 false x).2, (C18_mkcontext_partial D (by omega) false x).2]
    have : List.replicate D false ++ x = List.replicate (D - d) false ++ (List.replicate d false ++ x) := by
      rw [← List.append_assoc, ← List.replicate_add, Nat.sub_add_cancel hd]
    rw [this]
    have hl : (List.replicate d false ++ x).drop x.length <:+ (List.replicate (D - d) false ++ (List.replicate d false ++ x)) :=
      (List.drop_suffix _ _).trans (List.suffix_append _ _)
    refine List.suffix_of_suffix_length_le hl (List.drop_suffix _ _) ?_
    simp
    omega
  have h := C146_CTW_depth P fresh d D hd _ _ xs
    (fun o _ => ⟨(C18_mkcontext_partial d h1 false _).1, (C18_mkcontext_partial D (by omega) false _).1, hc _⟩) r r' n n' hr hr'
  have h2 : (xs.map fun o => CTW.mkcontext d false o.hist).toFinset.card ≤ 2 ^ d := by
    have : (xs.map fun o => CTW.mkcontext d false o.hist).toFinset ⊆ (Finset.univ : Finset (Fin d → Bool)).image List.ofFn := by
      intro l hl
      simp only [List.mem_toFinset, List.mem_map] at hl
      obtain ⟨o, -, rfl⟩ := hl
      have hlen := (C18_mkcontext_partial d h1 false o.hist).1
      rw [Finset.mem_image]
      exact ⟨fun i => (CTW.mkcontext d false o.hist).get (i.cast hlen.symm), Finset.mem_univ _, by
        conv_rhs => rw [← List.ofFn_get (CTW.mkcontext d false o.hist)]
        rw [List.ofFn_congr hlen.symm]
        rfl⟩
    refine (Finset.card_le_card this).trans (Finset.card_image_le.trans ?_)
    simp
  have h3 : (((xs.map fun o => CTW.mkcontext d false o.hist).toFinset.card : ℕ) : ℝ) ≤ 2 ^ d := by exact_mod_cast h2
  have := mul_le_mul_of_nonneg_right h3 (Real.log_nonneg one_le_two)
  linarith

end

section Parts

variable {β : Type} {p : ℕ → List β → ℝ}

theorem ptwProb_taller (hp : ∀ t xs, 0 ≤ p t xs) (h1 : ∀ t, p t [] = 1) (m k j t : ℕ) (xs : List β) (hl : xs.length ≤ 2 ^ (m + k)) :
    ptwProb p m k t xs ≤ 2 ^ j * ptwProb p m (k + j) t xs ∧ ptwProb p m (k + j) t xs ≤ 2 * ptwProb p m k t xs := by
  have h0 := ptwProb_nonneg (m := m) hp
  have hb : p t xs ≤ 2 * ptwProb p m k t xs := by
    cases k with
    | zero => simp only [ptwProb]; linarith [hp t xs]
    | succ k =>
      simp only [ptwProb]
      have := mul_nonneg (h0 k t (xs.take (2 ^ (m + k)))) (h0 k (t + 2 ^ (m + k)) (xs.drop (2 ^ (m + k))))
      linarith
  induction j with
  | zero => exact ⟨by simp, by rw [Nat.add_zero]; linarith [h0 k t xs]⟩
  | succ j ih =>
    have hl' : xs.length ≤ 2 ^ (m + (k + j)) := hl.trans (Nat.pow_le_pow_right (by norm_num) (by omega))
    rw [← Nat.add_assoc, ptwProb, List.take_of_length_le hl', List.drop_eq_nil_of_le hl', ptwProb_nil h1, mul_one]
    refine ⟨?_, by linarith [ih.2]⟩
    have := mul_nonneg (show (0 : ℝ) ≤ 2 ^ j by positivity) (hp t xs)
    rw [pow_succ]
    linarith [ih.1]

/-- The number of blocks of length `2 ^ m` that have been begun after `n` symbols. -/
def blocksBegun (m n : ℕ) : ℕ := (n + 2 ^ m - 1) / 2 ^ m

theorem blocksBegun_add (m k n : ℕ) : blocksBegun m (min (2 ^ (m + k)) n) + blocksBegun m (n - 2 ^ (m + k)) = blocksBegun m n := by
  unfold blocksBegun
  have hm := Nat.one_le_two_pow (n := m)
  rw [pow_add]
  set b := 2 ^ m with hb
  rcases le_total n (b * 2 ^ k) with h | h
  · rw [min_eq_right h, Nat.sub_eq_zero_of_le h]
    have : (0 + b - 1) / b = 0 := Nat.div_eq_of_lt (by omega)
    omega
  · rw [min_eq_left h]
    obtain ⟨c, rfl⟩ := Nat.exists_eq_add_of_le h
    have e1 : (b * 2 ^ k + b - 1) / b = 2 ^ k := by
      rw [show b * 2 ^ k + b - 1 = b - 1 + b * 2 ^ k by omega, Nat.add_mul_div_left _ _ (by omega), Nat.div_eq_of_lt (by omega), zero_add]
    have e2 : (b * 2 ^ k + c + b - 1) / b = (c + b - 1) / b + 2 ^ k := by
      rw [show b * 2 ^ k + c + b - 1 = c + b - 1 + b * 2 ^ k by omega, Nat.add_mul_div_left _ _ (by omega)]
    rw [e1, e2, Nat.add_sub_cancel_left, Nat.add_comm]

theorem ptwProb_finer (hp : ∀ t xs, 0 ≤ p t xs) (h1 : ∀ t, p t [] = 1) (m j k : ℕ) : ∀ (t : ℕ) (xs : List β),
    ptwProb p (m + j) k t xs ≤ 2 ^ blocksBegun (m + j) xs.length * ptwProb p m (k + j) t xs := by
  have h0 := ptwProb_nonneg (m := m) hp
  have h0' := ptwProb_nonneg (m := m + j) hp
  induction k with
  | zero =>
    intro t xs
    rcases xs with _ | ⟨x, xs⟩
    · rw [ptwProb_nil h1, ptwProb_nil h1, mul_one]
      exact one_le_pow₀ one_le_two
    · have hb : p t (x :: xs) ≤ 2 * ptwProb p m (0 + j) t (x :: xs) := by
        rw [zero_add]
        cases j with
        | zero => simp only [ptwProb]; linarith [hp t (x :: xs)]
        | succ j =>
          simp only [ptwProb]
          have := mul_nonneg (h0 j t ((x :: xs).take (2 ^ (m + j)))) (h0 j (t + 2 ^ (m + j)) ((x :: xs).drop (2 ^ (m + j))))
          linarith
      rw [ptwProb]
      refine hb.trans (mul_le_mul_of_nonneg_right ?_ (h0 _ _ _))
      have : 1 ≤ blocksBegun (m + j) (x :: xs).length := by
        unfold blocksBegun
        rw [Nat.one_le_div_iff (by positivity), List.length_cons]
        omega
      exact (pow_one (2 : ℝ)).symm.le.trans (pow_le_pow_right₀ one_le_two this)
  | succ k ih =>
    intro t xs
    rw [show k + 1 + j = (k + j) + 1 by omega, ptwProb, ptwProb, show m + (k + j) = m + j + k by omega]
    have hb := blocksBegun_add (m + j) k xs.length
    have hL := ih t (xs.take (2 ^ (m + j + k)))
    have hR := ih (t + 2 ^ (m + j + k)) (xs.drop (2 ^ (m + j + k)))
    rw [List.length_take] at hL
    rw [List.length_drop] at hR
    have h2 := mul_le_mul hL hR (h0' _ _ _) (mul_nonneg (by positivity) (h0 _ _ _))
    rw [mul_mul_mul_comm, ← pow_add, hb] at h2
    have h5 : (1 : ℝ) ≤ 2 ^ blocksBegun (m + j) xs.length := one_le_pow₀ one_le_two
    have h7 := mul_le_mul_of_nonneg_right h5 (hp t xs)
    linarith

end Parts

section

variable {σ α : Type}

/-- **C146 (greater lengths).** Announcing a length that is `2 ^ j` times as large to `PTWFixedLength` costs at most `j` bits, and gains at most one. -/
theorem C146_PTWFixedLength_length (P : Predictor σ α) (fresh : σ) (m height j : ℕ) (hm : m ≤ height) (xs : List (Obs α)) (hl : xs.length ≤ 2 ^ height)
    (r r' : ℝ) (s s' : PTW σ) (hr : (PTWFixedLength.predictor P fresh m height).run (PTW.init fresh m) xs = .ok (r, s))
    (hr' : (PTWFixedLength.predictor P fresh m (height + j)).run (PTW.init fresh m) xs = .ok (r', s')) :
    -r' ≤ -r + j * Real.log 2 ∧ -r ≤ -r' + Real.log 2 := by
  have h1 := C24_PTWFixedLength_closed_form P fresh m height xs (by rwa [max_eq_right hm]) r s hr
  have h2 := C24_PTWFixedLength_closed_form P fresh m (height + j) xs
    (hl.trans (Nat.pow_le_pow_right (by norm_num) (by omega))) r' s' hr'
  obtain ⟨k, rfl⟩ := Nat.exists_eq_add_of_le hm
  have h3 := ptwProb_taller (p := fun _ => P.seqProb fresh) (fun _ l => P.seqProb_nonneg fresh l) (fun _ => by simp [seqProb, Predictor.run, probOf])
    m k j 0 xs hl
  rw [show m + k - m = k by omega] at h1
  rw [show m + k + j - m = k + j by omega] at h2
  rw [← h1, ← h2] at h3
  have h4 := Real.log_le_log (Real.exp_pos r) h3.1
  have h5 := Real.log_le_log (Real.exp_pos r') h3.2
  rw [Real.log_mul (by positivity) (Real.exp_pos _).ne', Real.log_pow, Real.log_exp, Real.log_exp] at h4
  rw [Real.log_mul (by positivity) (Real.exp_pos _).ne', Real.log_exp, Real.log_exp] at h5
  exact ⟨by linarith, by linarith⟩

/-- **C146 (shorter blocks).** Allowing shorter blocks costs at most one bit for each of the longer blocks that have been begun. -/
theorem C146_PTWFixedLength_blocks (P : Predictor σ α) (fresh : σ) (m m' height : ℕ) (hm : m' ≤ m) (hh : m ≤ height) (xs : List (Obs α))
    (hl : xs.length ≤ 2 ^ height) (r r' : ℝ) (s s' : PTW σ)
    (hr : (PTWFixedLength.predictor P fresh m height).run (PTW.init fresh m) xs = .ok (r, s))
    (hr' : (PTWFixedLength.predictor P fresh m' height).run (PTW.init fresh m') xs = .ok (r', s')) :
    -r' ≤ -r + blocksBegun m xs.length * Real.log 2 := by
  have h1 := C24_PTWFixedLength_closed_form P fresh m height xs (by rwa [max_eq_right hh]) r s hr
  have h2 := C24_PTWFixedLength_closed_form P fresh m' height xs (by rwa [max_eq_right (hm.trans hh)]) r' s' hr'
  obtain ⟨j, rfl⟩ := Nat.exists_eq_add_of_le hm
  have h3 := ptwProb_finer (p := fun _ => P.seqProb fresh) (fun _ l => P.seqProb_nonneg fresh l) (fun _ => by simp [seqProb, Predictor.run, probOf])
    m' j (height - (m' + j)) 0 xs
  rw [show height - (m' + j) + j = height - m' by omega, ← h1, ← h2] at h3
  have h4 := Real.log_le_log (Real.exp_pos r) h3
  rw [Real.log_mul (by positivity) (Real.exp_pos _).ne', Real.log_pow, Real.log_exp, Real.log_exp] at h4
  linarith

/-- **C146 (unknown length).** Not knowing the length costs at most `log2 (3/2)` bits per doubling and one bit: `PTW` against `PTWFixedLength` with any length that is
not exceeded. -/
theorem C146_PTW_unknown_length (P : Predictor σ α) (fresh : σ) (m height : ℕ) (hm : m ≤ height) (xs : List (Obs α)) (hl : xs.length ≤ 2 ^ height)
    (r r' : ℝ) (s s' : PTW σ) (hr : (PTWFixedLength.predictor P fresh m height).run (PTW.init fresh m) xs = .ok (r, s))
    (hr' : (PTW.predictor P fresh m).run (PTW.init fresh m) xs = .ok (r', s')) :
    -r' ≤ -r + levelsFor m xs.length * Real.log (3 / 2) + Real.log 2 := by
  have h1 := C24_PTWFixedLength_closed_form P fresh m height xs (by rwa [max_eq_right hm]) r s hr
  have hi0 := PTW.inv_init (P := P) (fr := fun _ => fresh) (m := m)
  have hi := PTW.run_inv (m := m) hi0 hr'
  obtain ⟨g1, g2⟩ := PTW.run_adj hi0 (by simp [levelsFor_zero, PTW.init]) hr'
  rw [List.nil_append] at hi g1
  have hk : levelsFor m xs.length ≤ height - m := levelsFor_min (by rwa [Nat.add_sub_cancel' hm])
  have h3 := (ptwProb_taller (p := fun _ => P.seqProb fresh) (fun _ l => P.seqProb_nonneg fresh l) (fun _ => by simp [seqProb, Predictor.run, probOf])
    m (levelsFor m xs.length) (height - m - levelsFor m xs.length) 0 xs (levelsFor_spec m _)).2
  rw [Nat.add_sub_cancel' hk, ← h1] at h3
  have h4 : (2 / 3 : ℝ) ^ levelsFor m xs.length * (Real.exp r / 2) ≤ Real.exp r' := by
    rw [g2, hi.lp, show s'.tree.data.lp + s'.adj - (PTW.init fresh m).logProb = s'.adj + s'.tree.data.lp by simp [PTW.init]; ring, Real.exp_add,
      hi.rep.exp_lp]
    refine mul_le_mul g1 ?_ (by positivity) (Real.exp_pos _).le
    change Real.exp r / 2 ≤ ptwProb (fun _ => P.seqProb fresh) m (levelsFor m xs.length) 0 xs
    linarith
  have h5 := Real.log_le_log (by positivity) h4
  rw [Real.log_mul (by positivity) (by positivity), Real.log_pow, Real.log_div (Real.exp_pos _).ne' (by norm_num), Real.log_exp, Real.log_exp,
    show (2 / 3 : ℝ) = (3 / 2)⁻¹ by norm_num, Real.log_inv] at h5
  linarith

/-- **C146 (averages).** More models in an average of `n` models, `k` in total, cost at most `log (k / n)`. -/
theorem C146_Averager_more (P : Predictor σ α) (ms ms' : List σ) (hs : List.Subperm ms ms') (s0 s1 t0 t1 : Averager σ)
    (h0 : Averager.init ms = .ok s0) (h0' : Averager.init ms' = .ok t0) (xs : List (Obs α)) (r r' : ℝ)
    (hr : (Averager.predictor P).run s0 xs = .ok (r, s1)) (hr' : (Averager.predictor P).run t0 xs = .ok (r', t1)) :
    -r' ≤ -r + Real.log (ms'.length / ms.length) := by
  have hne : ms ≠ [] := (Averager.init_ok.mp h0).1
  have hne' : ms' ≠ [] := (Averager.init_ok.mp h0').1
  obtain ⟨_, a1, -, a2⟩ := C08_Averager_mixture P ms hne xs
  obtain ⟨_, b1, -, b2⟩ := C08_Averager_mixture P ms' hne' xs
  rw [h0, Except.ok.injEq] at a1
  rw [h0', Except.ok.injEq] at b1
  subst a1 b1
  have e1 := (a2 r s1 hr).1
  have e2 := (b2 r' t1 hr').1
  have hl : (0 : ℝ) < ms.length := by exact_mod_cast List.length_pos_iff.mpr hne
  have hl' : (0 : ℝ) < ms'.length := by exact_mod_cast List.length_pos_iff.mpr hne'
  have hle : (ms.map fun m => P.seqProb m xs).sum ≤ (ms'.map fun m => P.seqProb m xs).sum := by
    obtain ⟨l, hp, hsub⟩ := hs
    rw [← (hp.map fun m => P.seqProb m xs).sum_eq]
    exact (hsub.map fun m => P.seqProb m xs).sum_le_sum fun x hx => by
      obtain ⟨m, -, rfl⟩ := List.mem_map.mp hx
      exact P.seqProb_nonneg m xs
  have : Real.exp r ≤ ms'.length / ms.length * Real.exp r' := by
    rw [e1, e2, div_mul_div_comm, mul_comm (ms'.length : ℝ), mul_div_mul_right _ _ hl'.ne']
    exact div_le_div_of_nonneg_right hle hl.le
  have h4 := Real.log_le_log (Real.exp_pos r) this
  rw [Real.log_mul (by positivity) (Real.exp_pos _).ne', Real.log_exp, Real.log_exp] at h4
  linarith

end

/-- Depth 8 instead of depth 2 never costs more than four bits, over `KTBinary`. -/
example (xs : List (Obs Bool)) (hw : ∀ o ∈ xs, 0 ≤ o.weight) : ∃ r r' n n',
    (CTW.predictor KTBinary.predictor (KTBinary.init none) (CTW.mkcontext 2 false)).run (CTW.init (KTBinary.init none)) xs = .ok (r, n) ∧
    (CTW.predictor KTBinary.predictor (KTBinary.init none) (CTW.mkcontext 8 false)).run (CTW.init (KTBinary.init none)) xs = .ok (r', n') ∧
    -r' ≤ -r + 4 * Real.log 2 := by
  obtain ⟨r, n, hr, -⟩ := C13_CTW_default 2 (by norm_num) xs hw []
  obtain ⟨r', n', hr', -⟩ := C13_CTW_default 8 (by norm_num) xs hw []
  have := C146_CTW_binary KTBinary.predictor (KTBinary.init none) 2 8 (by norm_num) (by norm_num) xs r r' n n' hr hr'
  exact ⟨r, r', n, n', hr, hr', by norm_num at this; linarith⟩

/-- Nine symbols begin three blocks of four. -/
example : blocksBegun 2 9 = 3 ∧ blocksBegun 2 8 = 2 ∧ blocksBegun 2 0 = 0 := by decide

/-! ## C147 -/

section

variable {σ α : Type}

/-- **C147.** The order of the models in an average does not matter, nor does it if each of them is repeated equally often: the average returns on the same
sequences, and every update returns the same probability. -/
theorem C147_Averager_order (P : Predictor σ α) (ms ms' : List σ) (c : ℕ) (hc : 0 < c) (hp : List.Perm ms' (List.replicate c ms).flatten)
    (s0 t0 : Averager σ) (h0 : Averager.init ms = .ok s0) (h0' : Averager.init ms' = .ok t0) (xs : List (Obs α)) :
    ((∃ r s, (Averager.predictor P).run s0 xs = .ok (r, s)) ↔ ∃ r s, (Averager.predictor P).run t0 xs = .ok (r, s)) ∧
    ∀ r s r' s', (Averager.predictor P).run s0 xs = .ok (r, s) → (Averager.predictor P).run t0 xs = .ok (r', s') → r = r' ∧
      ∀ (o : Obs α) q u q' u', (Averager.predictor P).update s o.sym o.hist o.weight = .ok (q, u) →
        (Averager.predictor P).update s' o.sym o.hist o.weight = .ok (q', u') → q = q' := by
  have hne : ms ≠ [] := (Averager.init_ok.mp h0).1
  have hne' : ms' ≠ [] := (Averager.init_ok.mp h0').1
  have key : ∀ ys : List (Obs α),
      ((∃ r s, (Averager.predictor P).run s0 ys = .ok (r, s)) ↔ ∃ r s, (Averager.predictor P).run t0 ys = .ok (r, s)) ∧
      ∀ r s r' s', (Averager.predictor P).run s0 ys = .ok (r, s) → (Averager.predictor P).run t0 ys = .ok (r', s') → r = r' := by
    intro ys
    obtain ⟨_, a1, a3, a2⟩ := C08_Averager_mixture P ms hne ys
    obtain ⟨_, b1, b3, b2⟩ := C08_Averager_mixture P ms' hne' ys
    rw [h0, Except.ok.injEq] at a1
    rw [h0', Except.ok.injEq] at b1
    subst a1 b1
    constructor
    · rw [a3, b3]
      have : ∀ m, m ∈ ms' ↔ m ∈ ms := by
        intro m
        rw [hp.mem_iff]
        simp only [List.mem_flatten, List.mem_replicate]
        constructor
        · rintro ⟨_, ⟨-, rfl⟩, h⟩; exact h
        · intro h; exact ⟨ms, ⟨by omega, rfl⟩, h⟩
      simp only [this]
    · intro r s r' s' hr hr'
      apply Real.exp_injective
      rw [(a2 r s hr).1, (b2 r' s' hr').1, (hp.map fun m => P.seqProb m ys).sum_eq, hp.length_eq]
      have hl : (ms.length : ℝ) ≠ 0 := by exact_mod_cast (List.length_pos_iff.mpr hne).ne'
      have hc' : (c : ℝ) ≠ 0 := by exact_mod_cast hc.ne'
      rw [List.map_flatten, List.sum_flatten, List.length_flatten]
      simp only [List.map_replicate, List.sum_replicate, nsmul_eq_mul, smul_eq_mul, Nat.cast_mul]
      field_simp
  refine ⟨(key xs).1, fun r s r' s' hr hr' => ⟨(key xs).2 r s r' s' hr hr', ?_⟩⟩
  intro o q u q' u' hu hu'
  have g1 : (Averager.predictor P).run s0 (xs ++ [o]) = .ok (r + q, u) :=
    run_append_ok.mpr ⟨r, s, q, hr, run_cons_ok.mpr ⟨q, u, 0, hu, rfl, by simp⟩, rfl⟩
  have g2 : (Averager.predictor P).run t0 (xs ++ [o]) = .ok (r' + q', u') :=
    run_append_ok.mpr ⟨r', s', q', hr', run_cons_ok.mpr ⟨q', u', 0, hu', rfl, by simp⟩, rfl⟩
  have e1 := (key xs).2 r s r' s' hr hr'
  have e2 := (key (xs ++ [o])).2 _ _ _ _ g1 g2
  linarith

/-- Two models in the other order, each of them twice. -/
example (a b : KT ℕ) : List.Perm [b, a, a, b] (List.replicate 2 [a, b]).flatten := by
  simp only [List.replicate, List.flatten, List.append_nil, List.cons_append, List.nil_append]
  refine (List.Perm.swap a b [a, b]).trans ?_
  exact (List.Perm.cons a (List.Perm.refl _))

end

end Verif
