import Verif.Proofs.Convergence
import Verif.Props.Categorical
import Verif.Props.Mixtures
import Verif.Props.CTW
import Verif.Props.FMN
import Verif.Proofs.Z
import Verif.Proofs.PTWRun

/-!
# C145: predictions converge to those of the source
-/

namespace Verif

open Predictor

variable {σ α : Type}

/-- **C145 (any model).** If a model loses at most `R` against a source on each of the sequences of `n` symbols, then the expected sum, over the `n` predictions, of
the squared distance between the predicted and the true distribution is at most `4 R`. -/
theorem C145_distance (P : Predictor σ α) (I : σ → Prop) (A : List α) (W : ℝ → Prop) (hP : P.UpdateLawful I A W) (hw : W 1) (q : List α → α → ℝ)
    (n : ℕ) (s : σ) (hs : I s) (h : List α) (hq : IsSource A q h) (R : ℝ)
    (hR : ∀ xs, xs.length = n → (∀ x ∈ xs, x ∈ A) → srcProb q h xs ≤ Real.exp R * P.seqProb s (drawn h xs)) :
    expect A q n h (P.errors A q (fun d => d ^ 2) s h) ≤ 4 * R := by
  have h1 := errors_le hP hw n hs hq
  have h2 := entropy_le hP hw n hs hq hR
  linarith

/-- **C145 (number of bad predictions).** The expected number of predictions that are off by `ε` or more is at most `4 R / ε²`. -/
theorem C145_number (P : Predictor σ α) (I : σ → Prop) (A : List α) (W : ℝ → Prop) (hP : P.UpdateLawful I A W) (hw : W 1) (q : List α → α → ℝ)
    (n : ℕ) (s : σ) (hs : I s) (h : List α) (hq : IsSource A q h) (R : ℝ)
    (hR : ∀ xs, xs.length = n → (∀ x ∈ xs, x ∈ A) → srcProb q h xs ≤ Real.exp R * P.seqProb s (drawn h xs)) (ε : ℝ) (hε : 0 < ε) :
    expect A q n h (P.errors A q (fun d => if ε ≤ d then 1 else 0) s h) ≤ 4 * R / ε ^ 2 := by
  have h1 := C145_distance P I A W hP hw q n s hs h hq R hR
  have hg : ∀ d : ℝ, (if ε ≤ d then 1 else 0) ≤ d ^ 2 * (1 / ε ^ 2) := by
    intro d
    split_ifs with hd
    · rw [mul_one_div, one_le_div (by positivity)]
      exact pow_le_pow_left₀ hε.le hd 2
    · positivity
  calc _ ≤ expect A q n h (fun xs => P.errors A q (fun d => d ^ 2) s h xs * (1 / ε ^ 2)) :=
        expect_mono n hq fun xs _ hx => errors_mono hP hw _ hg xs hs hx
    _ = expect A q n h (P.errors A q (fun d => d ^ 2) s h) * (1 / ε ^ 2) := expect_scale n _ _
    _ ≤ 4 * R * (1 / ε ^ 2) := mul_le_mul_of_nonneg_right h1 (by positivity)
    _ = _ := by ring

theorem drawn_length (h xs : List α) : (drawn h xs).length = xs.length := by
  induction xs generalizing h with
  | nil => rfl
  | cons x xs ih => simp [drawn, ih]

theorem drawn_mem {A : List α} {h xs : List α} (hx : ∀ x ∈ xs, x ∈ A) : ∀ o ∈ drawn h xs, o.sym ∈ A ∧ o.weight = 1 := by
  induction xs generalizing h with
  | nil => simp [drawn]
  | cons x xs ih =>
    intro o ho
    rw [drawn, List.mem_cons] at ho
    rcases ho with rfl | ho
    · exact ⟨hx x (by simp), rfl⟩
    · exact ih (fun y hy => hx y (by simp [hy])) o ho

/-- **C145 (averages).** If one of the models of an average of `k` models predicts as the source does, then the expected sum of the squared distances is at most
`4 log k`, however many symbols there are. -/
theorem C145_Averager (P : Predictor σ α) (I : σ → Prop) (A : List α) (W : ℝ → Prop) (hP : P.UpdateLawful I A W) (hw : W 1) (ms : List σ)
    (hms : ∀ m ∈ ms, I m) (s0 : Averager σ) (h0 : Averager.init ms = .ok s0) (m : σ) (hm : m ∈ ms) (q : List α → α → ℝ) (h : List α)
    (hq : IsSource A q h) (hmq : ∀ xs, (∀ x ∈ xs, x ∈ A) → P.seqProb m (drawn h xs) = srcProb q h xs) (n : ℕ) :
    expect A q n h ((Averager.predictor P).errors A q (fun d => d ^ 2) s0 h) ≤ 4 * Real.log ms.length := by
  have hs0 : Averager.Over I s0 := Averager.over_init hms h0
  refine C145_distance _ _ A W (Averager.updateLawful hP) hw q n s0 hs0 h hq _ fun xs _ hx => ?_
  obtain ⟨r, s, hr⟩ := (Averager.updateLawful hP).run_ok hs0 (xs := drawn h xs) fun o ho => ⟨(drawn_mem hx o ho).1, (drawn_mem hx o ho).2 ▸ hw⟩
  obtain ⟨r', t, hr', hle⟩ := C10_Averager_regret P ms s0 s h0 (drawn h xs) r hr.1 m hm
  rw [← hmq xs hx, seqProb, seqProb, hr.1, hr', probOf_ok, probOf_ok, ← Real.exp_add, Real.exp_le_exp]
  linarith

theorem srcProb_const {q : α → ℝ} (h xs : List α) : srcProb (fun _ => q) h xs = catProb q (drawn h xs) := by
  induction xs generalizing h with
  | nil => simp [srcProb, drawn, catProb]
  | cons x xs ih => simp [srcProb, drawn, catProb, ih]

theorem ktGood [DecidableEq α] {A : List α} (hA : A.Nodup) (hne : A ≠ []) {s0 : KT α} (h0 : KT.init A none = .ok s0) : KT.Good A s0 := by
  rw [KT.init_default hA hne] at h0
  cases h0
  exact KT.good_default hne

/-- **C145 (KT).** On independent draws from any distribution over `k` symbols, the expected sum of the squared distances of the first `n` predictions of `KT` grows
with `log n` only. -/
theorem C145_KT [DecidableEq α] (A : List α) (hA : A.Nodup) (hne : A ≠ []) (q : α → ℝ) (hq : IsDist A q) (s0 : KT α) (h0 : KT.init A none = .ok s0)
    (h : List α) (n : ℕ) :
    expect A (fun _ => q) n h (KT.predictor.errors A (fun _ => q) (fun d => d ^ 2) s0 h) ≤ 4 * Real.log (catPrice A.length n) := by
  have hs0 := ktGood hA hne h0
  refine C145_distance _ _ A _ (KT.lawful hA hne) zero_le_one _ n s0 hs0 h (fun _ _ => hq) _ fun xs hl hx => ?_
  rw [srcProb_const, Real.exp_log (lt_of_lt_of_le one_pos (Categorical.one_le_catPrice _ _)), ← hl, ← drawn_length h xs]
  exact Categorical.catProb_le hA hne h0 (drawn_mem hx) hq

theorem srcProb_piece {q : ℕ → α → ℝ} (h xs : List α) : srcProb (fun h => q h.length) h xs = catPieceProb q h.length (drawn h xs) := by
  induction xs generalizing h with
  | nil => simp [srcProb, drawn, catPieceProb]
  | cons x xs ih => simp [srcProb, drawn, catPieceProb, ih]

open Classical in
/-- **C145 (PTW).** On independent draws from distributions that change `c` times, at multiples of the least length of blocks, the expected sum of the squared
distances of the first `n` predictions of `PTW` over `KT` is at most that of `c log n + 1` times the one of `KT`, and `2 c log n + 1` bits. -/
theorem C145_PTW (A : List α) (hA : A.Nodup) (hne : A ≠ []) (s0 : KT α) (h0 : KT.init A none = .ok s0) (m n : ℕ)
    (q : ℕ → α → ℝ) (hq : ∀ i, IsDist A (q i)) (hal : ∀ i ∈ changeTimes q 0 n, 2 ^ m ∣ i) :
    expect A (fun h => q h.length) n [] ((PTW.predictor KT.predictor s0 m).errors A (fun h => q h.length) (fun d => d ^ 2) (PTW.init s0 m) []) ≤
      4 * (levelsFor m n * Real.log (3 / 2) + (2 * (changeTimes q 0 n).card * levelsFor m n + 1 : ℕ) * Real.log 2 +
        ((changeTimes q 0 n).card * levelsFor m n + 1 : ℕ) * Real.log (catPrice A.length n)) := by
  have hP := PTW.updateLawful (m := m) (KT.lawful hA hne) (ktGood hA hne h0)
  have hi : ∃ xs, GoodObs A (fun w => 0 ≤ w) xs ∧ PTW.Inv KT.predictor (fun _ => s0) m (PTW.init s0 m) xs ∧ PTWNode.All (KT.Good A) (PTW.init s0 m).tree :=
    ⟨[], by simp [GoodObs], PTW.inv_init, ktGood hA hne h0⟩
  refine C145_distance _ _ A _ hP zero_le_one _ n _ hi [] (fun _ _ => hq _) _ fun xs hl hx => ?_
  have hd := drawn_mem (h := []) hx
  obtain ⟨r, s, hr, _⟩ := hP.run_ok hi (xs := drawn [] xs) fun o ho => ⟨(hd o ho).1, (hd o ho).2 ▸ zero_le_one⟩
  have hk := lt_of_lt_of_le one_pos (Categorical.one_le_catPrice A.length n)
  have h1 := C93_PTW_redundancy A hA hne s0 h0 m (drawn [] xs) hd r s hr q hq (by rw [drawn_length, hl]; exact hal)
  rw [drawn_length, hl] at h1
  rw [srcProb_piece, seqProb, hr, probOf_ok, Real.exp_add, Real.exp_add, Real.exp_nat_mul, Real.exp_nat_mul, Real.exp_nat_mul, Real.exp_log (by norm_num),
    Real.exp_log (by norm_num), Real.exp_log hk]
  exact h1

open Classical in
/-- **C145 (FMN).** Likewise for `FMN` over `KT`, with the logarithm of the size of the store added to that of each price. -/
theorem C145_FMN (A : List α) (hA : A.Nodup) (hne : A ≠ []) (f : KT α) (hf : KT.init A none = .ok f) (m n : ℕ)
    (q : ℕ → α → ℝ) (hq : ∀ i, IsDist A (q i)) (hal : ∀ i ∈ changeTimes q 0 n, 2 ^ m ∣ i) :
    ∃ s0, FMN.init (LogStore.store (KT α)) KT.predictor f m = .ok s0 ∧
      expect A (fun h => q h.length) n [] ((FMN.predictor (LogStore.store (KT α)) KT.predictor m).errors A (fun h => q h.length) (fun d => d ^ 2) s0 []) ≤
        4 * (levelsFor m n * Real.log (3 / 2) + (2 * (changeTimes q 0 n).card * levelsFor m n + 1 : ℕ) * Real.log 2 +
          ((changeTimes q 0 n).card * levelsFor m n + 1 : ℕ) * Real.log (catPrice A.length n * (Nat.log 2 (n / 2 ^ m + 1) + 1 : ℕ))) := by
  have hn := C34_FMN_normalised (LogStore.store (KT α)) LogStore.add _ KT.predictor (LogStore.lawful _) _ A _ (KT.lawful hA hne)
    (fun s hs => ⟨s, rfl, hs, fun _ => rfl⟩) f (ktGood hA hne hf) m
  obtain ⟨s0, r, s, h1, -⟩ := hn [] (by simp) [] 1 zero_le_one
  refine ⟨s0, h1, ?_⟩
  have hL : (FMN.predictor (LogStore.store (KT α)) KT.predictor m).UpdateLawful _ A fun w => 0 ≤ w :=
    Predictor.updateLawful_of_runs (s0 := s0) (by
      intro xs hx h w hw
      obtain ⟨s0', r, s, g1, g2⟩ := hn xs hx h w hw
      rw [h1, Except.ok.injEq] at g1
      subst g1
      exact ⟨r, s, g2⟩)
  refine C145_distance _ _ A _ hL zero_le_one _ n s0 ⟨[], 0, by simp [GoodObs], rfl⟩ [] (fun _ _ => hq _) _ fun xs hl hx => ?_
  have hd := drawn_mem (h := []) hx
  obtain ⟨s0', r, s, g0, hr, hle⟩ := C93_FMN_redundancy A hA hne f hf m (drawn [] xs) hd q hq (by rw [drawn_length, hl]; exact hal)
  rw [h1, Except.ok.injEq] at g0
  subst g0
  have hk : 0 < catPrice A.length n * (Nat.log 2 (n / 2 ^ m + 1) + 1 : ℕ) :=
    mul_pos (lt_of_lt_of_le one_pos (Categorical.one_le_catPrice A.length n)) (by exact_mod_cast Nat.succ_pos _)
  rw [drawn_length, hl] at hle
  rw [srcProb_piece, seqProb, hr, probOf_ok, Real.exp_add, Real.exp_add, Real.exp_nat_mul, Real.exp_nat_mul, Real.exp_nat_mul, Real.exp_log (by norm_num),
    Real.exp_log (by norm_num), Real.exp_log hk]
  exact hle

section Trees

variable {κ : Type} [Fintype κ] [DecidableEq κ]

theorem CatTree.prob_cons {d : ℕ} (T : CatTree α κ d) {cs : List κ} (hcs : cs.length = d) (o : Obs α) (S : List (List κ × Obs α)) :
    T.prob ((cs, o) :: S) = T.look cs o.sym * T.prob S := by
  induction T generalizing cs S with
  | leaf q => simp [prob, look, catProb]
  | split f ih =>
    cases cs with
    | nil => simp at hcs
    | cons c cs =>
      have hcs' : cs.length = _ := Nat.succ.inj hcs
      have : ∀ c', (f c').prob (subCtx c' ((c :: cs, o) :: S)) = (if c' = c then (f c).look cs o.sym else 1) * (f c').prob (subCtx c' S) := by
        intro c'
        by_cases h : c = c'
        · subst h
          rw [if_pos rfl, ← ih c hcs']
          simp [subCtx]
        · rw [if_neg (Ne.symm h), one_mul]
          simp [subCtx, h]
      simp only [prob, look, this]
      rw [Finset.prod_mul_distrib, Finset.prod_ite_eq' Finset.univ c]
      simp

theorem CatTree.price_le (k n : ℕ) {d : ℕ} (T : CatTree α κ d) (S : List (List κ × Obs α)) (hS : S.length ≤ n) :
    T.price k S ≤ catPrice k n ^ T.leaves := by
  induction T generalizing S with
  | leaf q => simpa [price, leaves] using Categorical.catPrice_mono k hS
  | split f ih =>
    simp only [price, leaves]
    rw [← Finset.prod_pow_eq_pow_sum]
    refine Finset.prod_le_prod (fun c _ => (price_pos k _ _).le) fun c _ => ih c _ ?_
    exact (List.length_filterMap_le _ _).trans hS

theorem CatTree.look_dist {A : List α} {d : ℕ} {T : CatTree α κ d} (hT : T.Valid A) {cs : List κ} (hcs : cs.length = d) : IsDist A (T.look cs) := by
  induction T generalizing cs with
  | leaf q => exact hT
  | split f ih =>
    cases cs with
    | nil => simp at hcs
    | cons c cs => exact ih c (hT c) (Nat.succ.inj hcs)

theorem srcProb_tree {d : ℕ} (T : CatTree α κ d) (ctx : List α → List κ) (hc : ∀ h, (ctx h).length = d) (h xs : List α) :
    srcProb (fun h => T.look (ctx h).reverse) h xs = T.prob (withCtx ctx (drawn h xs)) := by
  induction xs generalizing h with
  | nil =>
    have : ∀ {d : ℕ} (T : CatTree α κ d), T.prob [] = 1 := by
      intro d T
      induction T with
      | leaf q => simp [CatTree.prob, catProb]
      | split f ih => simp [CatTree.prob, subCtx, ih]
    simp [srcProb, drawn, withCtx, this]
  | cons x xs ih =>
    rw [srcProb, ih, drawn]
    exact (CatTree.prob_cons T (by simp [hc]) ⟨x, h, 1⟩ _).symm

/-- **C145 (CTW).** For a source whose distributions depend on the context through a tree of at most the depth of the model, the expected sum of the squared
distances of the first `n` predictions of `CTW` over `KT` is at most four times the description length of the tree and the prices of the distributions at its leaves. -/
theorem C145_CTW [DecidableEq α] (A : List α) (hA : A.Nodup) (hne : A ≠ []) (s0 : KT α) (h0 : KT.init A none = .ok s0) (d : ℕ) (ctx : List α → List κ)
    (hc : ∀ h, (ctx h).length = d) (T : CatTree α κ d) (hT : T.Valid A) (h : List α) (n : ℕ) :
    expect A (fun h => T.look (ctx h).reverse) n h
        ((CTW.predictor KT.predictor s0 ctx).errors A (fun h => T.look (ctx h).reverse) (fun d => d ^ 2) (CTW.init s0) h) ≤
      4 * (T.shape.cost * Real.log 2 + T.leaves * Real.log (catPrice A.length n)) := by
  have hP := CTWNode.updateLawful (κ := κ) (fresh := s0) (KT.lawful hA hne) hc
  have hi := CTWNode.WF.new (κ := κ) (ktGood hA hne h0) d
  refine C145_distance _ _ A _ hP zero_le_one _ n (CTW.init s0) hi h (fun _ _ => CatTree.look_dist hT (by simp [hc])) _ fun xs hl hx => ?_
  have hd := drawn_mem (h := h) hx
  obtain ⟨r, s, hr, _⟩ := hP.run_ok hi (xs := drawn h xs) fun o ho => ⟨(hd o ho).1, (hd o ho).2 ▸ zero_le_one⟩
  have hk := lt_of_lt_of_le one_pos (Categorical.one_le_catPrice A.length n)
  have h1 := C93_CTW_redundancy A hA hne s0 h0 ctx d (drawn h xs) (fun o _ => hc _) hd r s hr T hT
  rw [srcProb_tree T ctx hc, seqProb]
  change _ ≤ _ * probOf ((CTW.predictor KT.predictor s0 ctx).run (CTWNode.new s0) (drawn h xs))
  rw [hr, probOf_ok, Real.exp_add, Real.exp_nat_mul, Real.exp_nat_mul, Real.exp_log (by norm_num), Real.exp_log hk]
  refine h1.trans (mul_le_mul_of_nonneg_right (mul_le_mul_of_nonneg_left (T.price_le _ n _ ?_) (by positivity)) (Real.exp_pos r).le)
  simp [withCtx, drawn_length, hl]

end Trees

/-- A die with three sides, one of which never shows. -/
example (s0 : KT ℕ) (h0 : KT.init [1, 2, 3] none = .ok s0) (n : ℕ) :
    let q : ℕ → ℝ := fun a => if a = 1 then 1 / 3 else if a = 2 then 2 / 3 else 0
    expect [1, 2, 3] (fun _ => q) n [] (KT.predictor.errors [1, 2, 3] (fun _ => q) (fun d => d ^ 2) s0 []) ≤ 4 * Real.log (catPrice 3 n) :=
  C145_KT [1, 2, 3] (by simp) (by simp) _ ⟨by intro a _; split_ifs <;> norm_num, by norm_num⟩ s0 h0 [] n

/-- Coins that are never adjusted. -/
noncomputable def coins : Predictor ℝ Bool where
  update s b _ _ := .ok (Real.log (if b then s else 1 - s), s)
  logPredict s b _ := .ok (Real.log (if b then s else 1 - s), s)
  copy s := .ok s

theorem coins_lawful : coins.UpdateLawful (fun s => 0 < s ∧ s < 1) [false, true] fun _ => True where
  total s a h w hs _ _ := ⟨_, s, rfl, hs⟩
  normalised := by
    intro s h w hs _ f hf
    obtain ⟨t, h1⟩ := hf false (by simp)
    obtain ⟨t', h2⟩ := hf true (by simp)
    simp only [coins, Except.ok.injEq, Prod.mk.injEq, Bool.false_eq_true, if_false, if_true] at h1 h2
    simp [← h1.1, ← h2.1, Real.exp_log hs.1, Real.exp_log (sub_pos.mpr hs.2)]

/-- The average of three coins, on draws of one of them: the expected sum of the squared distances never gets above `4 log 3`. -/
example (s0 : Averager ℝ) (h0 : Averager.init [1 / 2, 1 / 3, 1 / 4] = .ok s0) (n : ℕ) :
    expect [false, true] (fun _ b => if b then 1 / 3 else 2 / 3) n [] ((Averager.predictor coins).errors [false, true]
      (fun _ b => if b then 1 / 3 else 2 / 3) (fun d => d ^ 2) s0 []) ≤ 4 * Real.log (3 : ℕ) := by
  refine C145_Averager coins _ [false, true] _ coins_lawful trivial [1 / 2, 1 / 3, 1 / 4] ?_ s0 h0 (1 / 3) (by simp) _ [] ?_ ?_ n
  · intro m hm
    simp only [List.mem_cons, List.not_mem_nil, or_false] at hm
    rcases hm with rfl | rfl | rfl <;> norm_num
  · intro xs _
    exact ⟨by intro a _; dsimp only; split_ifs <;> norm_num, by norm_num⟩
  · intro xs hx
    clear hx
    have : ∀ h : List Bool, coins.seqProb (1 / 3) (drawn h xs) = srcProb (fun _ b => if b then 1 / 3 else 2 / 3) h xs := by
      induction xs with
      | nil => intro h; simp [seqProb, drawn, run, srcProb, probOf, pure, Except.pure]
      | cons x xs ih =>
        intro h
        rw [seqProb_drawn (P := coins) (t := 1 / 3) (r := Real.log (if x then 1 / 3 else 1 - 1 / 3)) rfl, ih, srcProb, Real.exp_log]
        · norm_num
        · split_ifs <;> norm_num
    exact this []

end Verif
