import Verif.Spec.Patterns
import Verif.Props.Actions

/-!
# C177: sequences with a pattern
-/

namespace Verif

open Predictor Redundancy

namespace Patterns

section Tree

variable {κ β : Type} [DecidableEq κ] [Fintype κ]

theorem subCtx_cons (a c : κ) (cs : List κ) (x : β) (S : List (List κ × β)) :
    subCtx a ((c :: cs, x) :: S) = if c = a then (cs, x) :: subCtx a S else subCtx a S := by
  by_cases h : c = a <;> simp [subCtx, h]

theorem prod_split (w : β → ℝ) : ∀ S : List (List κ × β), (∀ p ∈ S, p.1 ≠ []) →
    ∏ a : κ, ((subCtx a S).map fun p => w p.2).prod = (S.map fun p => w p.2).prod
  | [], _ => by simp [subCtx]
  | ([], x) :: S, h => absurd rfl (h ([], x) (by simp))
  | (c :: cs, x) :: S, h => by
    have ih := prod_split w S fun p hp => h p (by simp [hp])
    have : ∀ a : κ, ((subCtx a ((c :: cs, x) :: S)).map fun p => w p.2).prod =
        (if c = a then w x else 1) * ((subCtx a S).map fun p => w p.2).prod := by
      intro a
      rw [subCtx_cons]
      split_ifs <;> simp
    simp only [this]
    rw [Finset.prod_mul_distrib, ih, Finset.prod_ite_eq]
    simp

theorem filter_sub (a : κ) (c : List κ) : ∀ S : List (List κ × β),
    ((subCtx a S).filter fun p => p.1 = c).map Prod.snd = (S.filter fun p => p.1 = a :: c).map Prod.snd
  | [] => by simp [subCtx]
  | ([], x) :: S => by
    have ih := filter_sub a c S
    have : subCtx a (([], x) :: S) = subCtx a S := by simp [subCtx]
    rw [this, ih]
    simp
  | (e :: es, x) :: S => by
    have ih := filter_sub a c S
    rw [subCtx_cons]
    by_cases h1 : e = a
    · by_cases h2 : es = c
      · simp [h1, h2, ih]
      · simp [h1, h2, ih]
    · simp [h1, ih]

theorem mem_sub {a : κ} {c : List κ} {S : List (List κ × β)} : c ∈ (subCtx a S).map Prod.fst → a :: c ∈ S.map Prod.fst := by
  intro h
  obtain ⟨⟨c', x⟩, hp, rfl⟩ := List.mem_map.mp h
  obtain ⟨⟨c2, x2⟩, hq, e⟩ := List.mem_filterMap.mp hp
  cases c2 with
  | nil => simp at e
  | cons y ys =>
    simp only at e
    split_ifs at e with hy
    simp only [Option.some.injEq, Prod.mk.injEq] at e
    rw [List.mem_map]
    exact ⟨(y :: ys, x2), hq, by rw [← hy, ← e.1]⟩

theorem card_split (S : List (List κ × β)) :
    ∑ a : κ, ((subCtx a S).map Prod.fst).toFinset.card ≤ (S.map Prod.fst).toFinset.card := by
  have e : ∀ a : κ, ((subCtx a S).map Prod.fst).toFinset.card = (((subCtx a S).map Prod.fst).toFinset.image fun c => a :: c).card :=
    fun a => (Finset.card_image_of_injective _ fun x y h => (List.cons.inj h).2).symm
  simp only [e]
  rw [← Finset.card_biUnion]
  · refine Finset.card_le_card fun c hc => ?_
    obtain ⟨a, -, hc⟩ := Finset.mem_biUnion.mp hc
    obtain ⟨c', hc', rfl⟩ := Finset.mem_image.mp hc
    exact List.mem_toFinset.mpr (mem_sub (List.mem_toFinset.mp hc'))
  · intro a _ b _ hab
    rw [Function.onFun, Finset.disjoint_left]
    intro c h1 h2
    obtain ⟨_, -, rfl⟩ := Finset.mem_image.mp h1
    obtain ⟨_, -, h⟩ := Finset.mem_image.mp h2
    exact hab (List.cons.inj h).1.symm

/-- A context tree pays for the contexts that occur, not for all that could. -/
theorem ctwProb_ge {base : List β → ℝ} (h1 : base [] = 1) (hb : ∀ ys, 0 ≤ base ys) (w : β → ℝ) (hw : ∀ x, 0 ≤ w x) {q : ℝ} (q0 : 0 < q) (q1 : q ≤ 1) :
    ∀ (d : ℕ) (S : List (List κ × β)), (∀ p ∈ S, p.1.length = d) →
      (∀ c, (S.filter fun p => p.1 = c) ≠ [] → q * (((S.filter fun p => p.1 = c).map Prod.snd).map w).prod ≤ base ((S.filter fun p => p.1 = c).map Prod.snd)) →
      ((1 / 2) ^ d * q) ^ (S.map Prod.fst).toFinset.card * (S.map fun p => w p.2).prod ≤ ctwProb base d S := by
  intro d
  induction d with
  | zero =>
    intro S hl h
    have hf : (S.filter fun p => p.1 = []) = S := by
      rw [List.filter_eq_self]
      intro p hp
      simpa using hl p hp
    by_cases hS : S = []
    · simp [hS, ctwProb, h1]
    have h2 := h [] (by rw [hf]; exact hS)
    rw [hf, List.map_map] at h2
    have hc : (S.map Prod.fst).toFinset = {[]} := by
      ext c
      rw [List.mem_toFinset, Finset.mem_singleton, List.mem_map]
      constructor
      · rintro ⟨p, hp, rfl⟩
        exact List.length_eq_zero_iff.mp (hl p hp)
      · rintro rfl
        obtain ⟨p, hp⟩ := List.exists_mem_of_ne_nil S hS
        exact ⟨p, hp, List.length_eq_zero_iff.mp (hl p hp)⟩
    rw [hc, Finset.card_singleton, pow_zero, one_mul, pow_one, ctwProb]
    exact h2
  | succ d ih =>
    intro S hl h
    by_cases hS : S = []
    · simp [hS, ctwProb, h1, heads]
      norm_num
    have hne : ∀ p ∈ S, p.1 ≠ [] := fun p hp e => by have := hl p hp; rw [e] at this; simp at this
    rw [ctwProb, prod_heads_subset h1 d S (Finset.subset_univ _)]
    have hsub : ∀ a : κ, ((1 / 2) ^ d * q) ^ ((subCtx a S).map Prod.fst).toFinset.card * ((subCtx a S).map fun p => w p.2).prod ≤ ctwProb base d (subCtx a S) := by
      intro a
      refine ih _ ?_ ?_
      · intro p hp
        have := mem_sub (a := a) (S := S) (List.mem_map_of_mem (f := Prod.fst) hp)
        obtain ⟨p', hp', e⟩ := List.mem_map.mp this
        have := hl p' hp'
        rw [e] at this
        simpa using this
      · intro c hc
        rw [filter_sub]
        refine h (a :: c) fun e => hc ?_
        have := filter_sub a c S
        rw [e] at this
        simpa using this
    have hB0 : 0 < (1 / 2 : ℝ) ^ d * q := by positivity
    have hB1 : (1 / 2 : ℝ) ^ d * q ≤ 1 := mul_le_one₀ (pow_le_one₀ (by norm_num) (by norm_num)) q0.le q1
    have hprod : ((1 / 2) ^ d * q) ^ (S.map Prod.fst).toFinset.card * (S.map fun p => w p.2).prod ≤ ∏ a : κ, ctwProb base d (subCtx a S) := by
      calc _ ≤ ((1 / 2) ^ d * q) ^ (∑ a : κ, ((subCtx a S).map Prod.fst).toFinset.card) * (S.map fun p => w p.2).prod := by
            refine mul_le_mul_of_nonneg_right (pow_le_pow_of_le_one hB0.le hB1 (card_split S)) (List.prod_nonneg fun x hx => ?_)
            obtain ⟨p, -, rfl⟩ := List.mem_map.mp hx
            exact hw _
        _ = ∏ a : κ, ((1 / 2) ^ d * q) ^ ((subCtx a S).map Prod.fst).toFinset.card * ((subCtx a S).map fun p => w p.2).prod := by
            rw [Finset.prod_mul_distrib, Finset.prod_pow_eq_pow_sum, prod_split w S hne]
        _ ≤ _ := by
            refine Finset.prod_le_prod (fun a _ => mul_nonneg (pow_nonneg hB0.le _) (List.prod_nonneg fun x hx => ?_)) fun a _ => hsub a
            obtain ⟨p, -, rfl⟩ := List.mem_map.mp hx
            exact hw _
    have hN : 1 ≤ (S.map Prod.fst).toFinset.card := by
      rw [Nat.one_le_iff_ne_zero, Ne, Finset.card_eq_zero, List.toFinset_eq_empty_iff, List.map_eq_nil_iff]
      exact hS
    have hp0 : 0 ≤ (S.map fun p => w p.2).prod := List.prod_nonneg fun x hx => by
      obtain ⟨p, -, rfl⟩ := List.mem_map.mp hx
      exact hw _
    have hhalf : ((1 / 2 : ℝ) ^ (d + 1) * q) ^ (S.map Prod.fst).toFinset.card ≤ 1 / 2 * ((1 / 2) ^ d * q) ^ (S.map Prod.fst).toFinset.card := by
      rw [show (1 / 2 : ℝ) ^ (d + 1) * q = 1 / 2 * ((1 / 2) ^ d * q) by ring, mul_pow]
      refine mul_le_mul_of_nonneg_right ?_ (pow_nonneg hB0.le _)
      calc (1 / 2 : ℝ) ^ (S.map Prod.fst).toFinset.card ≤ (1 / 2) ^ 1 := pow_le_pow_of_le_one (by norm_num) (by norm_num) hN
        _ = _ := pow_one _
    calc _ ≤ 1 / 2 * ((1 / 2) ^ d * q) ^ (S.map Prod.fst).toFinset.card * (S.map fun p => w p.2).prod := mul_le_mul_of_nonneg_right hhalf hp0
      _ ≤ 1 / 2 * ∏ a : κ, ctwProb base d (subCtx a S) := by rw [mul_assoc]; exact mul_le_mul_of_nonneg_left hprod (by norm_num)
      _ ≤ _ := le_add_of_nonneg_left (mul_nonneg (by norm_num) (hb _))

end Tree

theorem mkcontext_eq {d : ℕ} (hd : 1 ≤ d) (h : List Bool) : CTW.mkcontext d false h = lastBits d h := mkcontext_eq_recent (by omega) false h

theorem lastBits_length (d : ℕ) (h : List Bool) : (lastBits d h).length = d := by simp [lastBits]

/-- What a rule that is wrong with probability `ε` gives to an observation. -/
noncomputable def trust (g : List Bool → Bool) (ε : ℝ) (o : Obs Bool) : ℝ := if g o.hist = o.sym then 1 - ε else ε

theorem trust_prod (g : List Bool → Bool) {ε : ℝ} (h0 : 0 ≤ ε) (h1 : ε ≤ 1) : ∀ (xs h : List Bool),
    ε ^ errors g h xs * (1 - ε) ^ xs.length ≤ ((drawn h xs).map (trust g ε)).prod
  | [], h => by simp [errors, drawn]
  | x :: xs, h => by
    have ih := trust_prod g h0 h1 xs (h ++ [x])
    have hA : 0 ≤ ε ^ errors g (h ++ [x]) xs * (1 - ε) ^ xs.length := mul_nonneg (pow_nonneg h0 _) (pow_nonneg (by linarith) _)
    rw [errors, drawn, List.map_cons, List.prod_cons, List.length_cons, trust]
    split_ifs with hf
    · calc _ = (1 - ε) * (ε ^ errors g (h ++ [x]) xs * (1 - ε) ^ xs.length) := by rw [zero_add]; ring
        _ ≤ _ := mul_le_mul_of_nonneg_left ih (by linarith)
    · calc _ = (1 - ε) * (ε * (ε ^ errors g (h ++ [x]) xs * (1 - ε) ^ xs.length)) := by rw [pow_add]; ring
        _ ≤ 1 * (ε * (ε ^ errors g (h ++ [x]) xs * (1 - ε) ^ xs.length)) := mul_le_mul_of_nonneg_right (by linarith) (mul_nonneg h0 hA)
        _ ≤ _ := by rw [one_mul]; exact mul_le_mul_of_nonneg_left ih h0

theorem withCtx_fst {d : ℕ} (hd : 1 ≤ d) : ∀ (xs h : List Bool),
    (withCtx (CTW.mkcontext d false) (drawn h xs)).map Prod.fst = (pasts (lastBits d) h xs).map List.reverse
  | [], h => rfl
  | x :: xs, h => by
    have ih := withCtx_fst hd xs (h ++ [x])
    simp only [withCtx, drawn, pasts, List.map_cons, mkcontext_eq hd] at *
    rw [ih]

theorem length_drawn : ∀ (xs h : List Bool), (drawn h xs).length = xs.length
  | [], _ => rfl
  | x :: xs, h => by simp [drawn, length_drawn xs]

theorem weight_drawn : ∀ (xs h : List Bool), ∀ o ∈ drawn h xs, o.weight = 1
  | [], _ => by simp [drawn]
  | x :: xs, h => by
    intro o ho
    rcases List.mem_cons.mp ho with rfl | ho
    · rfl
    · exact weight_drawn xs _ o ho

theorem trust_bern (f : List Bool → Bool) (ε : ℝ) (d : ℕ) (b : Bool) : ∀ ys : List (Obs Bool), (∀ o ∈ ys, f (lastBits d o.hist) = b) →
    (ys.map (trust (fun h => f (lastBits d h)) ε)).prod = bernProb (if b then 1 - ε else ε) ys
  | [], _ => by simp [bernProb]
  | o :: ys, h => by
    have ih := trust_bern f ε d b ys fun o ho => h o (by simp [ho])
    have h1 := h o (by simp)
    rw [List.map_cons, List.prod_cons, ih]
    simp only [bernProb, List.map_cons, List.prod_cons, trust, h1]
    congr 1
    cases b <;> cases o.sym <;> simp

end Patterns

/-- **C177 (rules).** If a rule tells the next bit from the last `d` bits and is wrong `k` times in `n` bits, and `m` different contexts occur, then
`CTW` of depth `d` (in `model.py` and in `modelfast.py`) loses at most `m (d + 1 + log2(n) / 2) + k log2(2 n) + 1` bits. It does not pay for contexts that do
not occur. -/
theorem C177_rule (f : List Bool → Bool) (xs : List Bool) (hne : xs ≠ []) (d : ℕ) (hd : 1 ≤ d) :
    ∃ r n t, (CTW.predictor KTBinary.predictor (KTBinary.init none) (CTW.mkcontext d false)).run (CTW.init (KTBinary.init none)) (drawn [] xs) = .ok (r, n) ∧
      (KNode.predictor d).run KNode.new (drawn [] xs) = .ok (r, t) ∧
      -r ≤ (pasts (lastBits d) [] xs).toFinset.card * ((d + 1) * Real.log 2 + Real.log xs.length / 2) +
        errors (fun h => f (lastBits d h)) [] xs * Real.log (2 * xs.length) + Real.log 2 := by
  obtain ⟨r, n', hr, he, -⟩ := C13_CTW_default d hd (drawn [] xs) (fun o ho => by rw [Patterns.weight_drawn xs [] o ho]; exact zero_le_one) []
  obtain ⟨t, ht⟩ := Actions.corr_run d (drawn [] xs) KNode.corr_new hr
  refine ⟨r, n', t, hr, ht, ?_⟩
  have hn : (1 : ℝ) ≤ xs.length := by exact_mod_cast List.length_pos_iff.mpr hne
  set N : ℝ := (xs.length : ℝ) with hN
  set k := errors (fun h => f (lastBits d h)) [] xs with hk
  set m := (pasts (lastBits d) [] xs).toFinset.card with hm
  set ε : ℝ := 1 / (2 * N) with hε
  have hε0 : 0 < ε := by positivity
  have hε1 : ε ≤ 1 := by rw [hε, div_le_one (by linarith)]; linarith
  have hs1 : 1 ≤ Real.sqrt N := Real.one_le_sqrt.mpr hn
  have hq0 : 0 < 1 / (2 * Real.sqrt N) := by positivity
  have hq1 : 1 / (2 * Real.sqrt N) ≤ 1 := by rw [div_le_one (by linarith)]; linarith
  have hlen : ∀ p ∈ withCtx (CTW.mkcontext d false) (drawn [] xs), p.1 = (lastBits d p.2.hist).reverse ∧ p.2.weight = 1 := by
    intro p hp
    obtain ⟨o, ho, rfl⟩ := List.mem_map.mp hp
    exact ⟨by rw [Patterns.mkcontext_eq hd], Patterns.weight_drawn xs [] o ho⟩
  have key := Patterns.ctwProb_ge (κ := Bool) (base := KTBinary.predictor.seqProb (KTBinary.init none)) (by simp [seqProb, Predictor.run, probOf])
    (KTBinary.predictor.seqProb_nonneg _) (Patterns.trust (fun h => f (lastBits d h)) ε)
    (fun o => by unfold Patterns.trust; split_ifs <;> linarith) hq0 hq1 d (withCtx (CTW.mkcontext d false) (drawn [] xs))
    (fun p hp => by rw [(hlen p hp).1, List.length_reverse, Patterns.lastBits_length]) (by
      intro c hc
      set F := (withCtx (CTW.mkcontext d false) (drawn [] xs)).filter fun p => p.1 = c with hF
      have hmem : ∀ o ∈ F.map Prod.snd, f (lastBits d o.hist) = f c.reverse ∧ o.weight = 1 := by
        intro o ho
        obtain ⟨p, hp, rfl⟩ := List.mem_map.mp ho
        obtain ⟨h1, h2⟩ := List.mem_filter.mp hp
        obtain ⟨h3, h4⟩ := hlen p h1
        have : p.1 = c := by simpa using h2
        rw [← this, h3, List.reverse_reverse]
        exact ⟨rfl, h4⟩
      rw [Patterns.trust_bern f ε d (f c.reverse) _ fun o ho => (hmem o ho).1]
      have hb := bernProb_le (θ := if f c.reverse then 1 - ε else ε) (fun o ho => (hmem o ho).2) (by split_ifs <;> linarith) (by split_ifs <;> linarith)
      have hl : (F.map Prod.snd).length ≤ xs.length := by
        rw [List.length_map, hF]
        refine (List.length_filter_le _ _).trans ?_
        simp [withCtx, Patterns.length_drawn]
      have hp : ktPrice (F.map Prod.snd).length ≤ 2 * Real.sqrt N := by
        refine (ktPrice_mono hl).trans (le_of_eq ?_)
        rw [ktPrice, max_eq_right]
        rw [← hN]
        linarith
      rw [one_div_mul_eq_div, div_le_iff₀ (by positivity), mul_comm]
      exact hb.trans (mul_le_mul_of_nonneg_right hp (KTBinary.predictor.seqProb_nonneg _ _)))
  have hcard : ((withCtx (CTW.mkcontext d false) (drawn [] xs)).map Prod.fst).toFinset.card = m := by
    have e : ((pasts (lastBits d) [] xs).map List.reverse).toFinset = (pasts (lastBits d) [] xs).toFinset.image List.reverse := by
      ext c
      simp
    rw [Patterns.withCtx_fst hd, e, Finset.card_image_of_injective _ List.reverse_injective]
  have hprod : ((withCtx (CTW.mkcontext d false) (drawn [] xs)).map fun p => Patterns.trust (fun h => f (lastBits d h)) ε p.2) =
      (drawn [] xs).map (Patterns.trust (fun h => f (lastBits d h)) ε) := by
    simp [withCtx]
  rw [← he, hcard, hprod] at key
  have h4 : (1 : ℝ) / 2 ≤ (1 - ε) ^ xs.length := by
    have := one_add_mul_le_pow (a := -ε) (by linarith) xs.length
    rw [← hN] at this
    have e : N * -ε = -(1 / 2) := by rw [hε]; field_simp
    rw [e] at this
    calc (1 : ℝ) / 2 = 1 + -(1 / 2) := by norm_num
      _ ≤ _ := this
      _ = _ := by rw [sub_eq_add_neg]
  have h5 := Patterns.trust_prod (fun h => f (lastBits d h)) hε0.le hε1 xs []
  rw [← hk] at h5
  have h6 : ((1 / 2) ^ d * (1 / (2 * Real.sqrt N))) ^ m * (ε ^ k * (1 / 2)) ≤ Real.exp r := by
    refine le_trans (mul_le_mul_of_nonneg_left ?_ (by positivity)) key
    exact (mul_le_mul_of_nonneg_left h4 (by positivity)).trans h5
  have hNpos : 0 < N := by linarith
  have h7 := Real.log_le_log (by positivity) h6
  rw [Real.log_exp, Real.log_mul (by positivity) (by positivity), Real.log_pow, Real.log_mul (by positivity) (by positivity), Real.log_pow,
    Real.log_mul (by positivity) (by norm_num), Real.log_pow, hε, one_div, one_div, one_div, Real.log_inv, Real.log_inv, Real.log_inv,
    Real.log_mul (by norm_num) (by positivity), Real.log_sqrt hNpos.le] at h7
  have e : (m : ℝ) * ((d + 1) * Real.log 2 + Real.log N / 2) = -(m * (d * -Real.log 2 + -(Real.log 2 + Real.log N / 2))) := by ring
  rw [e]
  linarith

namespace Patterns

theorem mem_pasts {α γ : Type} (c : List α → γ) {y : γ} : ∀ (xs h : List α), y ∈ pasts c h xs → ∃ i < xs.length, y = c (h ++ xs.take i)
  | [], h, hy => by simp [pasts] at hy
  | x :: xs, h, hy => by
    rcases List.mem_cons.mp hy with rfl | hy
    · exact ⟨0, by simp, by simp⟩
    · obtain ⟨i, hi, rfl⟩ := mem_pasts c xs _ hy
      exact ⟨i + 1, by simpa using hi, by simp⟩

theorem lastBits_getElem? {d : ℕ} {h : List Bool} (hl : d ≤ h.length) {j : ℕ} (hj : j < d) : (lastBits d h)[j]? = h[h.length - d + j]? := by
  rw [lastBits, List.getElem?_drop, List.getElem?_append_right (by simp; omega), List.length_replicate]
  congr 1
  omega

theorem lastBits_periodic {d p : ℕ} {xs : List Bool} (hp : Periodic p xs) {i : ℕ} (hi : i ≤ xs.length) (hd : d + p ≤ i) :
    lastBits d (xs.take i) = lastBits d (xs.take (i - p)) := by
  have l1 : (xs.take i).length = i := by simp [hi]
  have l2 : (xs.take (i - p)).length = i - p := by simp; omega
  refine List.ext_getElem? fun j => ?_
  by_cases hj : j < d
  · rw [lastBits_getElem? (by omega) hj, lastBits_getElem? (by omega) hj, l1, l2, List.getElem?_take_of_lt (by omega), List.getElem?_take_of_lt (by omega)]
    have := hp (i - p - d + j) (by omega)
    rw [← this]
    congr 1
    omega
  · rw [List.getElem?_eq_none (by rw [lastBits_length]; omega), List.getElem?_eq_none (by rw [lastBits_length]; omega)]

theorem periodic_contexts {d p : ℕ} (hp1 : 1 ≤ p) {xs : List Bool} (hp : Periodic p xs) : (pasts (lastBits d) [] xs).toFinset.card ≤ d + p := by
  have hsub : (pasts (lastBits d) [] xs).toFinset ⊆ (Finset.range (d + p)).image fun i => lastBits d (xs.take i) := by
    intro c hc
    obtain ⟨i, hi, rfl⟩ := mem_pasts _ _ _ (List.mem_toFinset.mp hc)
    rw [List.nil_append, Finset.mem_image]
    clear hc
    induction i using Nat.strong_induction_on with
    | _ i ih =>
      by_cases h : i < d + p
      · exact ⟨i, Finset.mem_range.mpr h, rfl⟩
      · rw [lastBits_periodic hp hi.le (by omega)]
        exact ih (i - p) (by omega) (by omega)
  calc _ ≤ _ := Finset.card_le_card hsub
    _ ≤ _ := Finset.card_image_le
    _ = _ := Finset.card_range _

theorem periodic_errors {p : ℕ} (g : List Bool → Bool) (hg : ∀ h, p ≤ h.length → h[h.length - p]? = some (g h)) (hp1 : 1 ≤ p) : ∀ (xs h : List Bool),
    Periodic p (h ++ xs) → errors g h xs ≤ p - h.length
  | [], h, _ => by simp [errors]
  | x :: xs, h, hp => by
    have ih := periodic_errors g hg hp1 xs (h ++ [x]) (by simpa using hp)
    rw [errors]
    rw [List.length_append, List.length_singleton] at ih
    by_cases hl : p ≤ h.length
    · have h1 := hp (h.length - p) (by rw [List.length_append, List.length_cons]; omega)
      rw [Nat.sub_add_cancel hl, List.getElem?_append_right le_rfl, Nat.sub_self, List.getElem?_cons_zero, List.getElem?_append_left (by omega), hg h hl] at h1
      rw [if_pos (Option.some.inj h1).symm]
      omega
    · split_ifs <;> omega

end Patterns

/-- **C177 (periodic sequences).** On `n` bits that repeat with any period `p`, `CTW` of any depth `d` from `p` on loses at most
`(d + p) (d + 1 + log2(n) / 2) + p log2(2 n) + 1` bits. -/
theorem C177_periodic (p : ℕ) (hp1 : 1 ≤ p) (xs : List Bool) (hne : xs ≠ []) (hp : Periodic p xs) (d : ℕ) (hd : p ≤ d) :
    ∃ r n t, (CTW.predictor KTBinary.predictor (KTBinary.init none) (CTW.mkcontext d false)).run (CTW.init (KTBinary.init none)) (drawn [] xs) = .ok (r, n) ∧
      (KNode.predictor d).run KNode.new (drawn [] xs) = .ok (r, t) ∧
      -r ≤ (d + p) * ((d + 1) * Real.log 2 + Real.log xs.length / 2) + p * Real.log (2 * xs.length) + Real.log 2 := by
  obtain ⟨r, n, t, h1, h2, h3⟩ := C177_rule (fun c => c.getD (d - p) false) xs hne d (by omega)
  refine ⟨r, n, t, h1, h2, h3.trans ?_⟩
  have hn : (1 : ℝ) ≤ xs.length := by exact_mod_cast List.length_pos_iff.mpr hne
  have hc : ((pasts (lastBits d) [] xs).toFinset.card : ℝ) ≤ d + p := by exact_mod_cast Patterns.periodic_contexts hp1 hp
  have he : (errors (fun h => (lastBits d h).getD (d - p) false) [] xs : ℝ) ≤ p := by
    have := Patterns.periodic_errors (p := p) (fun h => (lastBits d h).getD (d - p) false) (fun h hl => by
      have e : (lastBits d h)[d - p]? = h[h.length - p]? := by
        rw [lastBits, List.getElem?_drop, List.getElem?_append_right (by simp; omega), List.length_replicate]
        congr 1
        omega
      have hlt : h.length - p < h.length := by omega
      show _ = some ((lastBits d h).getD (d - p) false)
      rw [List.getD_eq_getElem?_getD, e, List.getElem?_eq_getElem hlt]
      rfl) hp1 xs [] (by simpa using hp)
    exact_mod_cast this
  have l2 : 0 ≤ Real.log 2 := Real.log_nonneg (by norm_num)
  have ln : 0 ≤ Real.log xs.length := Real.log_nonneg hn
  have l2n : 0 ≤ Real.log (2 * xs.length) := Real.log_nonneg (by linarith)
  have h4 := mul_le_mul_of_nonneg_right hc (by positivity : 0 ≤ (d + 1) * Real.log 2 + Real.log xs.length / 2)
  have h5 := mul_le_mul_of_nonneg_right he l2n
  linarith

/-- The bits 0, 1, 1, 0, 1, 1, 0 have the period three; with the last three bits as context there are five contexts, and the rule is wrong twice. -/
example : Periodic 3 [false, true, true, false, true, true, false] ∧
    (pasts (lastBits 3) [] [false, true, true, false, true, true, false]).toFinset.card = 5 ∧
    errors (fun h => (lastBits 3 h).getD 0 false) [] [false, true, true, false, true, true, false] = 2 := by
  refine ⟨?_, by decide, by decide⟩
  intro i hi
  simp only [List.length_cons, List.length_nil] at hi
  have : i < 4 := by omega
  interval_cases i <;> rfl

end Verif
