import Verif.Props.Ctw
import Verif.Props.CtwFMN
import Verif.Props.Learners
import Verif.Props.Changing

/-!
# C167: what the models of ctw.py and learners.py lose against a source that they do not know

The bounds of C93 and C158 are about model.py.  Here they are carried over to the classes of ctw.py and learners.py, which are written
independently of it.
-/

namespace Verif

open Predictor

namespace CtwRedundancy

variable {γ α σ : Type}

/-- The bound for every model whose probability is a partition-tree mixture over `2 ^ height` steps. -/
theorem of_ptwProb [DecidableEq γ] {P : Predictor σ α} {fresh : σ} {q : γ → Obs α → ℝ} {price : ℝ} {xs : List (Obs α)} (θ : ℕ → γ)
    (h1 : 1 ≤ price) (hc : P.Competes fresh q price xs) (hq : ∀ g, ∀ o ∈ xs, 0 ≤ q g o) {height : ℕ} (hl : xs.length ≤ 2 ^ height) {r : ℝ}
    (hr : Real.exp r = ptwProb (fun _ => P.seqProb fresh) 0 height 0 xs) :
    changingProb q θ 0 xs ≤ 2 ^ (2 * ((changeTimes θ 0 xs.length).card * height) + 1) *
      price ^ ((changeTimes θ 0 xs.length).card * height + 1) * Real.exp r := by
  obtain ⟨T, hs, hconst⟩ := C53_partition_exists θ 0 height xs (by simpa using hl) (fun i _ => by simp)
  have h2 : (1/2 : ℝ) ^ T.cost * ((T.segments 0 0 xs).map fun g => P.seqProb fresh g.2).prod ≤ Real.exp r := by
    rw [hr]
    exact TPart.ptwProb_ge (p := fun _ => P.seqProb fresh) (fun _ xs => P.seqProb_nonneg _ xs) T 0 xs
  have h3 := Changing.pieces_le (zero_le_one.trans h1) hc hq (T.segments 0 0 xs) (Changing.segments_infix 0 T 0 xs) hconst
  rw [← Changing.segments, TPart.segments_length] at h3
  have := Changing.bound (G := 1) h1 zero_le_one hs T.cost_lt (by
    have := mul_le_mul_of_nonneg_left h2 (show (0 : ℝ) ≤ 2 ^ T.cost by positivity)
    rwa [← mul_assoc, ← mul_pow, show (2 : ℝ) * (1 / 2) = 1 by norm_num, one_pow, one_mul, ← one_mul ((2 : ℝ) ^ T.cost)] at this)
    (Real.exp_pos r).le h3
  rwa [one_mul] at this

variable [DecidableEq α]

theorem ckt_seqProb {A : List α} (hA : A.Nodup) (hne : A ≠ []) {f : CKT α} (hf : CKT.init A none = .ok f) {g : KT α}
    (hg : KT.init A none = .ok g) {ys : List (Obs α)} (hw : ∀ o ∈ ys, 0 ≤ o.weight) :
    CKT.probSeq.toPredictor.seqProb f ys = KT.predictor.seqProb g ys := by
  rw [CKT.init_default hA hne, Except.ok.injEq] at hf
  rw [KT.init_default hA hne, Except.ok.injEq] at hg
  subst hf hg
  exact ((CKT.hom A).run (CKT.same_default hne) ys hw).probOf_eq

theorem lkt_seqProb {A : List α} (hA : A.Nodup) (hne : A ≠ []) {f : LKT α} (hf : LKT.init A = .ok f) {g : KT α}
    (hg : KT.init A none = .ok g) {ys : List (Obs α)} (hw : ∀ o ∈ ys, o.weight = 1) :
    LKT.predictor.seqProb f ys = KT.predictor.seqProb g ys := by
  rw [LKT.init_eq hA hne, Except.ok.injEq] at hf
  rw [KT.init_default hA hne, Except.ok.injEq] at hg
  subst hf hg
  exact ((LKT.hom A).run (LKT.same_default hne) ys hw).probOf_eq

theorem ckt_good {A : List α} (hA : A.Nodup) (hne : A ≠ []) {f : CKT α} (hf : CKT.init A none = .ok f) : CKT.Good A f := by
  rw [CKT.init_default hA hne, Except.ok.injEq] at hf
  subst hf
  exact CKT.good_default hne

theorem weights {A : List α} {xs : List (Obs α)} (hx : ∀ o ∈ xs, o.sym ∈ A ∧ o.weight = 1) : ∀ o ∈ xs, o.sym ∈ A ∧ 0 ≤ o.weight :=
  fun o ho => ⟨(hx o ho).1, by rw [(hx o ho).2]; exact zero_le_one⟩

/-- A new estimator loses at most the price of a distribution on every part of a sequence. -/
theorem kt_competes {A : List α} (hA : A.Nodup) (hne : A ≠ []) {g : KT α} (hg : KT.init A none = .ok g) {src : γ → α → ℝ}
    (hq : ∀ i, IsDist A (src i)) {xs : List (Obs α)} (hx : ∀ o ∈ xs, o.sym ∈ A ∧ o.weight = 1) {P : Predictor σ α} {f : σ}
    (he : ∀ ys, (∀ o ∈ ys, o.weight = 1) → P.seqProb f ys = KT.predictor.seqProb g ys) :
    P.Competes f (fun i o => src i o.sym) (catPrice A.length xs.length) xs := by
  intro i ys hy
  have hx' : ∀ o ∈ ys, o.sym ∈ A ∧ o.weight = 1 := fun o ho => hx o (hy.mem ho)
  have h1 := Categorical.catProb_le hA hne hg hx' (hq i)
  rw [he ys fun o ho => (hx' o ho).2]
  refine h1.trans (mul_le_mul_of_nonneg_right ?_ (KT.predictor.seqProb_nonneg _ _))
  exact Categorical.catPrice_mono _ hy.length_le

omit [DecidableEq α] in
theorem tracks_run {Q : ProbSeq σ α} (hQ : Q.Tracks) {s s' : σ} {r : ℝ} {xs : List (Obs α)} (h : Q.toPredictor.run s xs = .ok (r, s')) :
    Q.lp s' = Q.lp s + r := by
  induction xs generalizing s r with
  | nil =>
    simp only [Predictor.run, pure_eq_ok, Except.ok.injEq, Prod.mk.injEq] at h
    obtain ⟨rfl, rfl⟩ := h
    ring
  | cons o xs ih =>
    obtain ⟨r1, s1, r2, h1, h2, rfl⟩ := run_cons_ok.mp h
    rw [ih h2, hQ _ _ _ _ _ h1]
    ring

theorem addHist_mem {A : List α} {h : List α} {xs : List (Obs α)} (hx : ∀ o ∈ xs, o.sym ∈ A ∧ o.weight = 1) :
    ∀ o ∈ addHist h xs, o.sym ∈ A ∧ o.weight = 1 := by
  induction xs generalizing h with
  | nil => simp [addHist]
  | cons o xs ih =>
    intro p hp
    simp only [addHist, List.mem_cons] at hp
    rcases hp with rfl | hp
    · exact hx o (by simp)
    · exact ih (fun o ho => hx o (by simp [ho])) p hp

end CtwRedundancy

section General

variable {γ α σ : Type} [DecidableEq γ] (Q : ProbSeq σ α) (fresh : σ) (height : ℕ) (q : γ → Obs α → ℝ) (price : ℝ) (θ : ℕ → γ)

/-- **C167 (ctw.PTW).** If a new base model loses at most the factor `price` against each source of a class, then on a sequence whose
source changes `c` times `ctw.PTW(height, Base)` loses at most `c * height + 1` times `price` and `2 * c * height + 1` bits. -/
theorem C167_ctw_PTW (hQ : Q.Tracks) (hf : Q.lp fresh = 0) (xs : List (Obs α)) (h1 : 1 ≤ price)
    (hc : Q.toPredictor.Competes fresh q price xs) (hq : ∀ g, ∀ o ∈ xs, 0 ≤ q g o) (r : ℝ) (s : CPTW σ)
    (hr : (CPTW.probSeq Q fresh height).toPredictor.run (CPTW.init fresh) xs = .ok (r, s)) :
    changingProb q θ 0 xs ≤ 2 ^ (2 * ((changeTimes θ 0 xs.length).card * height) + 1) *
      price ^ ((changeTimes θ 0 xs.length).card * height + 1) * Real.exp r := by
  obtain ⟨h2, _, h3⟩ := C39_ctw_PTW_closed_form Q fresh height hQ hf xs r s hr
  exact CtwRedundancy.of_ptwProb θ h1 hc hq h2 h3

/-- **C167 (learners.PTW).** The same for `learners.PTW(factory, depth)`. -/
theorem C167_learners_PTW (P : Predictor σ α) (xs : List α) (h1 : 1 ≤ price) (hc : P.Competes fresh q price (xs.map LPTW.obs))
    (hq : ∀ g, ∀ a ∈ xs, 0 ≤ q g (LPTW.obs a)) (s0 : LPTW σ) (h0 : LPTW.init fresh height = .ok s0) (r : ℝ) (s : LPTW σ)
    (hr : (LPTW.predictor P fresh).run s0 (xs.map LPTW.obs) = .ok (r, s)) :
    changingProb q θ 0 (xs.map LPTW.obs) ≤ 2 ^ (2 * ((changeTimes θ 0 xs.length).card * height) + 1) *
      price ^ ((changeTimes θ 0 xs.length).card * height + 1) * Real.exp r := by
  obtain ⟨h2, _, h3, h4⟩ := C36_learners_PTW_closed_form P fresh height s0 h0 xs r s hr
  have := CtwRedundancy.of_ptwProb (P := P) (fresh := fresh) (q := q) (xs := xs.map LPTW.obs) (height := height) (r := r) θ h1 hc (by
    intro g o ho
    obtain ⟨a, ha, rfl⟩ := List.mem_map.mp ho
    exact hq g a ha) (by simpa using h2) (by rw [h4, h3])
  simpa using this

/-- **C167 (ctw.FMN).** For `ctw.FMN(height, Base)` with its store each price is multiplied by the greatest size of the store.  The base
model that has to compete is the first one with its `log_prob` set to zero, which `ctw.FMN` does with every model that it uses again. -/
theorem C167_ctw_FMN (ord : ℕ → List σ → List σ) (ho : ∀ t l, (ord t l).Perm l) (I : σ → Prop) (A : List α) (W : ℝ → Prop)
    (hB : CFMN.Base Q I A W) (hf : I fresh) (xs : List (Obs α)) (hx : ∀ o ∈ xs, o.sym ∈ A ∧ W o.weight) (h1 : 1 ≤ price)
    (hc : Q.toPredictor.Competes (Q.setLP fresh 0) q price xs) (hq : ∀ g, ∀ o ∈ xs, 0 ≤ q g o) (s0 s : CFMN (LogStore σ) σ) (r : ℝ)
    (h0 : CFMN.init (LogStore.store σ) Q (ord 0) fresh = .ok s0)
    (hr : (CFMN.probSeq (LogStore.store σ) Q ord ord height).toPredictor.run s0 xs = .ok (r, s)) (hl : xs.length ≤ 2 ^ height) :
    changingProb q θ 0 xs ≤ 2 ^ (2 * ((changeTimes θ 0 xs.length).card * height) + 1) *
      (((Nat.log 2 (xs.length + 1) + 1 : ℕ) : ℝ) * price) ^ ((changeTimes θ 0 xs.length).card * height + 1) * Real.exp r := by
  classical
  let stores : ℕ → List σ := fun t =>
    match (CFMN.probSeq (LogStore.store σ) Q ord ord height).toPredictor.run s0 (xs.take t) with
    | .ok (_, s') => (LogStore.store σ).items s'.store
    | .error _ => []
  have hmem : ∀ t, fresh ∈ stores t ∧ (stores t).length ≤ Nat.log 2 (xs.length + 1) + 1 := by
    intro t
    have hxt : ∀ o ∈ xs.take t, o.sym ∈ A ∧ W o.weight := fun o ho => hx o (List.mem_of_mem_take ho)
    have hlt : (xs.take t).length ≤ 2 ^ height := by
      rw [List.length_take]
      omega
    obtain ⟨s0', r', s', ms, k1, k2, _, _, k5, _⟩ :=
      C65_ctw_FMN_schedule (LogStore.store σ) LogStore.add _ Q ord height (LogStore.lawful σ) ho I A W hB fresh hf (xs.take t) hxt hlt
    obtain ⟨s0'', r'', s'', l1, l2, l3⟩ := C65_ctw_FMN_store_size Q ord height ho I A W hB fresh hf (xs.take t) hxt hlt
    rw [h0, Except.ok.injEq] at k1 l1
    subst k1 l1
    rw [k2, Except.ok.injEq, Prod.mk.injEq] at l2
    obtain ⟨rfl, rfl⟩ := l2
    have e : stores t = (LogStore.store σ).items s'.store := by simp only [stores, k2]
    rw [e]
    refine ⟨k5, ?_⟩
    have : ((LogStore.store σ).items s'.store).length = Nat.log 2 ((xs.take t).length + 1) + 1 := l3
    rw [this]
    exact Nat.succ_le_succ (Nat.log_mono_right (by rw [List.length_take]; omega))
  obtain ⟨T, hs, hconst⟩ := C53_partition_exists θ 0 height xs (by simpa using hl) (fun i _ => by simp)
  have hreg := C65_ctw_FMN_regret (LogStore.store σ) LogStore.add _ Q ord height (LogStore.lawful σ) ho I A W hB fresh hf xs hx s0 s r h0
    hr T stores (fun _ => fresh) (fun t _ r' s' h => by simp only [stores, h]) (fun t _ => (hmem t).1)
  set K : ℝ := ((Nat.log 2 (xs.length + 1) + 1 : ℕ) : ℝ) with hK
  have hK1 : 1 ≤ K := by
    rw [hK]
    exact_mod_cast Nat.le_add_left 1 _
  have hprod : ∀ l : List (ℕ × List (Obs α)), (l.map fun g => Q.toPredictor.seqProb (Q.setLP fresh 0) g.2).prod ≤ K ^ l.length *
      (l.map fun g => if g.2 = [] then 1 else Q.toPredictor.seqProb (Q.setLP fresh 0) g.2 / (stores g.1).length).prod := by
    intro l
    induction l with
    | nil => simp
    | cons g l ih =>
      simp only [List.map_cons, List.prod_cons, List.length_cons, pow_succ]
      have hg : Q.toPredictor.seqProb (Q.setLP fresh 0) g.2 ≤
          K * (if g.2 = [] then 1 else Q.toPredictor.seqProb (Q.setLP fresh 0) g.2 / (stores g.1).length) := by
        split_ifs with he
        · rw [he, show Q.toPredictor.seqProb (Q.setLP fresh 0) [] = 1 by simp [seqProb, Predictor.run, probOf]]
          linarith
        · have hlen : (0 : ℝ) < (stores g.1).length := by
            exact_mod_cast List.length_pos_of_mem (hmem g.1).1
          have hle : ((stores g.1).length : ℝ) ≤ K := by
            rw [hK]
            exact_mod_cast (hmem g.1).2
          rw [mul_div_assoc', le_div_iff₀ hlen, mul_comm]
          exact mul_le_mul_of_nonneg_right hle (seqProb_nonneg _ _ _)
      have hn : 0 ≤ (l.map fun g => Q.toPredictor.seqProb (Q.setLP fresh 0) g.2).prod := List.prod_nonneg (by
        intro x hx
        obtain ⟨y, _, rfl⟩ := List.mem_map.mp hx
        exact seqProb_nonneg _ _ _)
      calc _ ≤ (K * (if g.2 = [] then 1 else Q.toPredictor.seqProb (Q.setLP fresh 0) g.2 / (stores g.1).length)) * (K ^ l.length *
            (l.map fun g => if g.2 = [] then 1 else Q.toPredictor.seqProb (Q.setLP fresh 0) g.2 / (stores g.1).length).prod) :=
          mul_le_mul hg ih hn ((seqProb_nonneg _ _ _).trans hg)
        _ = _ := by ring
  have h3 := Changing.pieces_le (zero_le_one.trans h1) hc hq (T.segments 0 0 xs) (Changing.segments_infix 0 T 0 xs) hconst
  have h4 := hprod (T.segments 0 0 xs)
  rw [← Changing.segments] at h3
  rw [TPart.segments_length] at h3 h4
  have h5 := mul_le_mul_of_nonneg_left hreg (show (0 : ℝ) ≤ 2 ^ T.cost by positivity)
  rw [← mul_assoc, ← mul_pow, show (2 : ℝ) * (1 / 2) = 1 by norm_num, one_pow, one_mul] at h5
  have h6 := Changing.bound (G := 1) (K := K * price) (P := 2 ^ T.cost * Real.exp r) (one_le_mul_of_one_le_of_one_le hK1 h1) zero_le_one hs
    T.cost_lt (by rw [one_mul]) (Real.exp_pos r).le (h3.trans (by
      rw [mul_pow]
      refine (mul_le_mul_of_nonneg_left (h4.trans (mul_le_mul_of_nonneg_left h5 (by positivity))) (by positivity)).trans_eq ?_
      ring))
  rwa [one_mul] at h6

end General

section KT

variable {γ α : Type} [DecidableEq α] (A : List α)

/-- **C167 (ctw.KT and learners.KT).** Both estimators lose at most the price of a distribution against every source of independent
symbols. -/
theorem C167_KT (hA : A.Nodup) (hne : A ≠ []) (xs : List (Obs α)) (hx : ∀ o ∈ xs, o.sym ∈ A ∧ o.weight = 1) (q : α → ℝ)
    (hq : IsDist A q) :
    (∃ f r s, CKT.init A none = .ok f ∧ CKT.probSeq.toPredictor.run f xs = .ok (r, s) ∧ s.logProb = r ∧
      catProb q xs ≤ catPrice A.length xs.length * Real.exp r) ∧
    (∃ f r s, LKT.init A = .ok f ∧ LKT.predictor.run f xs = .ok (r, s) ∧ s.logProb = r ∧
      catProb q xs ≤ catPrice A.length xs.length * Real.exp r) := by
  have h := Categorical.catProb_le hA hne (KT.init_default hA hne) hx hq
  obtain ⟨r, s, hr, -⟩ := (KT.lawful hA hne).run_ok (xs := xs) (KT.good_default hne) (CtwRedundancy.weights hx)
  rw [seqProb_of_run hr] at h
  constructor
  · have h1 := (CKT.hom A).run (CKT.same_default hne) xs (fun o ho => (CtwRedundancy.weights hx o ho).2)
    rcases corrRes_cases h1 with ⟨e, _, h2⟩ | ⟨r', s', t, h2, h3, _⟩
    · rw [hr] at h2
      cases h2
    · rw [hr] at h3
      cases h3
      refine ⟨_, r, s', CKT.init_default hA hne, h2, ?_, h⟩
      have := CtwRedundancy.tracks_run CKT.tracks h2
      simpa [CKT.probSeq] using this
  · have h1 := (LKT.hom A).run (LKT.same_default hne) xs (fun o ho => (hx o ho).2)
    rcases corrRes_cases h1 with ⟨e, _, h2⟩ | ⟨r', s', t, h2, h3, _⟩
    · rw [hr] at h2
      cases h2
    · rw [hr] at h3
      cases h3
      exact ⟨_, r, s', LKT.init_eq hA hne, h2, (C47_learners_KT_log_prob A _ _ (LKT.init_eq hA hne) xs r h2).1, h⟩

/-- **C167 (ctw.CTW).** `ctw.CTW(depth, KT)`, which keeps its own history, loses against every tree source at most one bit per node above
the maximal depth and the price of a distribution for each leaf, where the context of a symbol is the symbols before it. -/
theorem C167_ctw_CTW [Fintype α] (hA : A.Nodup) (hne : A ≠ []) (f : CKT α) (hf : CKT.init A none = .ok f) (d : ℕ) (zero : α)
    (xs : List (Obs α)) (hx : ∀ o ∈ xs, o.sym ∈ A ∧ o.weight = 1) (T : CatTree α α d) (hT : T.Valid A) :
    ∃ r s, (CCTW.probSeq CKT.probSeq f d zero).toPredictor.run (CCTW.init f) xs = .ok (r, s) ∧
      T.prob (withCtx (recent d zero) (addHist [] xs)) ≤
        2 ^ T.shape.cost * T.price A.length (withCtx (recent d zero) (addHist [] xs)) * Real.exp r := by
  have hx' := CtwRedundancy.addHist_mem (h := []) hx
  rw [CKT.init_default hA hne, Except.ok.injEq] at hf
  subst hf
  obtain ⟨r, n, hr, -⟩ := (CTWNode.updateLawful (fresh := (⟨A.map fun a => (a, 1 / (A.length : ℝ)), 1⟩ : KT α)) (KT.lawful hA hne)
    (recent_length d zero)).run_ok (xs := addHist [] xs) (CTWNode.WF.new (KT.good_default hne) d) (CtwRedundancy.weights hx')
  have hb := C93_CTW_redundancy A hA hne _ (KT.init_default hA hne) (recent d zero) d _ (fun o _ => recent_length d zero o.hist) hx' r n hr
    T hT
  have hH := CTWNode.hom (f := Equiv.refl α) (CKT.hom A) (CKT.same_default hne) (ctx := recent d zero) (ctx' := recent d zero)
    (by intro h; simp)
  have h1 := hH.run (CTWNode.tcorr_new (CKT.same_default hne)) (addHist [] xs) (fun o ho => (CtwRedundancy.weights hx' o ho).2)
  have h2 := CCTW.run_corr (fresh := (⟨A.map fun a => (a, 1 / (A.length : ℝ)), 0⟩ : CKT α)) (zero := zero) (d := d) (s := CCTW.init (⟨A.map fun a => (a, 1 / (A.length : ℝ)), 0⟩ : CKT α)) CKT.tracks rfl
    (.new rfl d) xs
  rcases corrRes_cases h1 with ⟨e, _, k⟩ | ⟨r', s', t, k1, k2, _⟩
  · cases hr.symm.trans k
  cases hr.symm.trans k2
  rcases corrRes_cases h2 with ⟨e, _, k⟩ | ⟨r', s'', t, k3, k4, _⟩
  · cases k1.symm.trans k
  · cases k1.symm.trans k4
    exact ⟨r, s'', k3, hb⟩

/-- **C167 (ctw.PTW over ctw.KT).** It accepts up to `2 ^ height` symbols, and loses against every source of independent symbols whose
distribution changes `c` times at most `2 * c * height + 1` bits and `c * height + 1` prices of a distribution. -/
theorem C167_ctw_PTW_KT [DecidableEq γ] (hA : A.Nodup) (hne : A ≠ []) (f : CKT α) (hf : CKT.init A none = .ok f) (height : ℕ)
    (xs : List (Obs α)) (hx : ∀ o ∈ xs, o.sym ∈ A ∧ o.weight = 1) (hl : xs.length ≤ 2 ^ height) (src : γ → α → ℝ)
    (hq : ∀ g, IsDist A (src g)) (θ : ℕ → γ) :
    ∃ r s, (CPTW.probSeq CKT.probSeq f height).toPredictor.run (CPTW.init f) xs = .ok (r, s) ∧
      changingProb (fun g o => src g o.sym) θ 0 xs ≤ 2 ^ (2 * ((changeTimes θ 0 xs.length).card * height) + 1) *
        catPrice A.length xs.length ^ ((changeTimes θ 0 xs.length).card * height + 1) * Real.exp r := by
  have hlp : CKT.probSeq.lp f = 0 := by
    rw [CKT.init_default hA hne, Except.ok.injEq] at hf
    subst hf
    rfl
  obtain ⟨r, s, hr⟩ := (C39_ctw_PTW_total CKT.probSeq f height CKT.tracks hlp _ A _ (CKT.lawful hA hne).updateLawful
    (CtwRedundancy.ckt_good hA hne hf) xs (CtwRedundancy.weights hx)).1 hl
  refine ⟨r, s, hr, C167_ctw_PTW CKT.probSeq f height _ _ θ CKT.tracks hlp xs (Categorical.one_le_catPrice _ _) ?_
    (fun g o ho => (hq g).1 _ (hx o ho).1) r s hr⟩
  exact CtwRedundancy.kt_competes hA hne (KT.init_default hA hne) hq hx fun ys hy =>
    CtwRedundancy.ckt_seqProb hA hne hf (KT.init_default hA hne) fun o ho => by rw [hy o ho]; exact zero_le_one

/-- **C167 (learners.PTW over learners.KT).** The same for the classes of learners.py. -/
theorem C167_learners_PTW_KT [DecidableEq γ] (hA : A.Nodup) (hne : A ≠ []) (f : LKT α) (hf : LKT.init A = .ok f) (depth : ℕ) (xs : List α)
    (hx : ∀ a ∈ xs, a ∈ A) (hl : xs.length ≤ 2 ^ depth) (src : γ → α → ℝ) (hq : ∀ g, IsDist A (src g)) (θ : ℕ → γ) :
    ∃ s0 r s, LPTW.init f depth = .ok s0 ∧ (LPTW.predictor LKT.predictor f).run s0 (xs.map LPTW.obs) = .ok (r, s) ∧
      changingProb (fun g o => src g o.sym) θ 0 (xs.map LPTW.obs) ≤ 2 ^ (2 * ((changeTimes θ 0 xs.length).card * depth) + 1) *
        catPrice A.length xs.length ^ ((changeTimes θ 0 xs.length).card * depth + 1) * Real.exp r := by
  have hW : (KT.predictor (α := α)).Lawful (KT.Good A) A (fun w => w = 1) := by
    have h := KT.lawfulFull hA hne
    refine ⟨fun s a h' w hs ha hw => h.update_ok s a h' w hs ha (by rw [hw]; exact zero_le_one), h.predict_ok,
      fun s a h' w hs ha hw => h.coherent s a h' w hs ha (by rw [hw]; exact zero_le_one), h.normalised⟩
  have hf' : LKT.Same A f ⟨A.map fun a => (a, 1 / (A.length : ℝ)), 1⟩ := by
    rw [LKT.init_eq hA hne, Except.ok.injEq] at hf
    subst hf
    exact LKT.same_default hne
  obtain ⟨s0, h0⟩ : ∃ s0, LPTW.init f depth = .ok s0 := by simp [LPTW.init]
  obtain ⟨r, s, hr⟩ := C36_learners_PTW_total LKT.predictor f _ A _ ((LKT.hom A).lawful hW).updateLawful ⟨_, hf', KT.good_default hne⟩ rfl
    depth _ h0 xs hx hl
  refine ⟨_, r, s, h0, hr, C167_learners_PTW f depth _ _ θ LKT.predictor xs (Categorical.one_le_catPrice _ _) ?_
    (fun g a ha => (hq g).1 _ (hx a ha)) _ h0 r s hr⟩
  have := CtwRedundancy.kt_competes (xs := xs.map LPTW.obs) hA hne (KT.init_default hA hne) hq (by
    intro o ho
    obtain ⟨a, ha, rfl⟩ := List.mem_map.mp ho
    exact ⟨hx a ha, rfl⟩) fun ys hy => CtwRedundancy.lkt_seqProb hA hne hf (KT.init_default hA hne) hy
  simpa using this

/-- **C167 (ctw.FMN over ctw.KT).** The price of a distribution is multiplied by the greatest size of the store, which is logarithmic in the
number of symbols. -/
theorem C167_ctw_FMN_KT [DecidableEq γ] (hA : A.Nodup) (hne : A ≠ []) (f : CKT α) (hf : CKT.init A none = .ok f) (height : ℕ)
    (ord : ℕ → List (CKT α) → List (CKT α)) (ho : ∀ t l, (ord t l).Perm l) (xs : List (Obs α))
    (hx : ∀ o ∈ xs, o.sym ∈ A ∧ o.weight = 1) (hl : xs.length ≤ 2 ^ height) (src : γ → α → ℝ) (hq : ∀ g, IsDist A (src g)) (θ : ℕ → γ) :
    ∃ s0 r s, CFMN.init (LogStore.store _) CKT.probSeq (ord 0) f = .ok s0 ∧
      (CFMN.probSeq (LogStore.store _) CKT.probSeq ord ord height).toPredictor.run s0 xs = .ok (r, s) ∧
      changingProb (fun g o => src g o.sym) θ 0 xs ≤ 2 ^ (2 * ((changeTimes θ 0 xs.length).card * height) + 1) *
        (((Nat.log 2 (xs.length + 1) + 1 : ℕ) : ℝ) * catPrice A.length xs.length) ^ ((changeTimes θ 0 xs.length).card * height + 1) *
        Real.exp r := by
  have hB := C65_ctw_KT_base A hA hne
  have hI := CtwRedundancy.ckt_good hA hne hf
  obtain ⟨s0, r, s, h0, hr, -⟩ :=
    C65_ctw_FMN_store_size CKT.probSeq ord height ho _ A _ hB f hI xs (CtwRedundancy.weights hx) hl
  have hset : CKT.probSeq.setLP f 0 = f := by
    rw [CKT.init_default hA hne, Except.ok.injEq] at hf
    subst hf
    rfl
  refine ⟨s0, r, s, h0, hr, C167_ctw_FMN CKT.probSeq f height _ _ θ ord ho _ A _ hB hI xs (CtwRedundancy.weights hx)
    (Categorical.one_le_catPrice _ _) ?_ (fun g o ho => (hq g).1 _ (hx o ho).1) s0 s r h0 hr hl⟩
  rw [hset]
  exact CtwRedundancy.kt_competes hA hne (KT.init_default hA hne) hq hx fun ys hy =>
    CtwRedundancy.ckt_seqProb hA hne hf (KT.init_default hA hne) fun o ho => by rw [hy o ho]; exact zero_le_one

/-- Four zeros and four ones, under a source that gives the symbol 0 first and the symbol 1 from time 4 on: the one change is seen. -/
example : ∃ f r s, CKT.init [0, 1] none = .ok f ∧
    (CPTW.probSeq CKT.probSeq f 3).toPredictor.run (CPTW.init f) (([0, 0, 0, 0, 1, 1, 1, 1] : List ℕ).map LPTW.obs) = .ok (r, s) ∧
    1 ≤ 128 * catPrice 2 8 ^ 4 * Real.exp r := by
  obtain ⟨r, s, hr, hb⟩ := C167_ctw_PTW_KT (γ := ℕ) [0, 1] (by decide) (by decide) _ (CKT.init_default (by decide) (by decide)) 3
    (([0, 0, 0, 0, 1, 1, 1, 1] : List ℕ).map LPTW.obs) (by
      intro o ho
      obtain ⟨a, ha, rfl⟩ := List.mem_map.mp ho
      refine ⟨?_, rfl⟩
      simp only [List.mem_cons, List.not_mem_nil, or_false] at ha
      simp only [LPTW.obs, List.mem_cons, List.not_mem_nil, or_false]
      omega) (by simp) (fun g a => if a = min g 1 then 1 else 0) (by
      intro g
      refine ⟨fun a _ => by dsimp only; split_ifs <;> norm_num, ?_⟩
      rcases Nat.eq_zero_or_pos g with rfl | h
      · simp
      · simp [show min g 1 = 1 by omega]) (fun t => t / 4)
  refine ⟨_, r, s, CKT.init_default (by decide) (by decide), hr, ?_⟩
  have hc : (changeTimes (fun t => t / 4) 0 8).card = 1 := by decide
  simp only [List.length_map, List.length_cons, List.length_nil] at hb
  norm_num only [hc] at hb
  refine le_trans (le_of_eq ?_) hb
  simp [changingProb, LPTW.obs]

end KT

end Verif
