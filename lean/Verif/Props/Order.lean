import Verif.Spec.Order
import Verif.Props.Reluctance
import Verif.Props.Convergence

/-!
# C150: the order of what was seen.  C151: mixtures of one part
-/

namespace Verif

open Predictor Redundancy

section General

variable {σ τ α : Type} {P : Predictor σ α} {Q : Predictor τ α} {A : List α} {W : ℝ → Prop}

theorem Predictor.SameAnswers.of_seqProb {s : σ} {t : τ} (hs : ∀ xs, GoodObs A W xs → ∃ r s', P.run s xs = .ok (r, s'))
    (ht : ∀ xs, GoodObs A W xs → ∃ r t', Q.run t xs = .ok (r, t')) (he : ∀ xs, GoodObs A W xs → P.seqProb s xs = Q.seqProb t xs) :
    P.SameAnswers s Q t A W := by
  intro xs o hx
  obtain ⟨r1, s1, h1⟩ := hs _ hx
  obtain ⟨r2, t1, h2⟩ := ht _ hx
  obtain ⟨r, s', q0, a1, a3, rfl⟩ := run_append_ok.mp h1
  obtain ⟨q, s'', q1, a2, a4, rfl⟩ := run_cons_ok.mp a3
  obtain ⟨r', t', q0', b1, b3, rfl⟩ := run_append_ok.mp h2
  obtain ⟨q', t'', q1', b2, b4, rfl⟩ := run_cons_ok.mp b3
  simp only [Predictor.run, pure_eq_ok, Except.ok.injEq, Prod.mk.injEq] at a4 b4
  obtain ⟨rfl, rfl⟩ := a4
  obtain ⟨rfl, rfl⟩ := b4
  have e1 := he xs fun x h => hx x (by simp [h])
  have e2 := he _ hx
  rw [seqProb_of_run a1, seqProb_of_run b1] at e1
  rw [seqProb_of_run h1, seqProb_of_run h2] at e2
  have f1 := Real.exp_injective e1
  have f2 := Real.exp_injective e2
  subst f1
  have : q = q' := by linarith
  subst this
  exact ⟨_, _, _, _, _, _, a1, a2, b1, b2⟩

theorem Predictor.OrderFree.of_seqProb {s : σ} (hs : ∀ xs, GoodObs A W xs → ∃ r s', P.run s xs = .ok (r, s'))
    (he : ∀ xs ys : List (Obs α), xs.Perm ys → GoodObs A W xs → P.seqProb s xs = P.seqProb s ys) : P.OrderFree s A W := by
  intro xs ys hp hx
  have hy : GoodObs A W ys := fun o ho => hx o (hp.mem_iff.mpr ho)
  obtain ⟨r, s1, h1⟩ := hs xs hx
  obtain ⟨r', s2, h2⟩ := hs ys hy
  have e := he xs ys hp hx
  rw [seqProb_of_run h1, seqProb_of_run h2] at e
  have f := Real.exp_injective e
  subst f
  refine ⟨r, s1, s2, h1, h2, ?_⟩
  have split : ∀ {us : List (Obs α)} {r s'}, GoodObs A W us → P.run s us = .ok (r, s') → ∀ zs, GoodObs A W zs →
      ∃ q t, P.run s' zs = .ok (q, t) ∧ P.seqProb s (us ++ zs) = Real.exp r * P.seqProb s' zs := by
    intro us r s' hu hr zs hz
    obtain ⟨r2, t, h⟩ := hs (us ++ zs) fun o ho => (List.mem_append.mp ho).elim (hu o) (hz o)
    obtain ⟨r1, s1, q, a, b, rfl⟩ := run_append_ok.mp h
    rw [hr, Except.ok.injEq, Prod.mk.injEq] at a
    obtain ⟨rfl, rfl⟩ := a
    exact ⟨q, t, b, by rw [seqProb_of_run h, seqProb_of_run b, Real.exp_add]⟩
  refine SameAnswers.of_seqProb (fun zs hz => ?_) (fun zs hz => ?_) fun zs hz => ?_
  · obtain ⟨q, t, h, -⟩ := split hx h1 zs hz
    exact ⟨q, t, h⟩
  · obtain ⟨q, t, h, -⟩ := split hy h2 zs hz
    exact ⟨q, t, h⟩
  · obtain ⟨-, -, -, e1⟩ := split hx h1 zs hz
    obtain ⟨-, -, -, e2⟩ := split hy h2 zs hz
    have := he (xs ++ zs) (ys ++ zs) (hp.append_right zs) fun o ho => (List.mem_append.mp ho).elim (hx o) (hz o)
    rw [e1, e2] at this
    exact mul_left_cancel₀ (Real.exp_pos _).ne' this

theorem Predictor.OrderFree.seqProb {s : σ} (h : P.OrderFree s A W) {xs ys : List (Obs α)} (hp : xs.Perm ys) (hx : GoodObs A W xs) : P.seqProb s xs = P.seqProb s ys := by
  obtain ⟨r, s', s'', h1, h2, -⟩ := h xs ys hp hx
  rw [seqProb_of_run h1, seqProb_of_run h2]

theorem Predictor.OrderFree.run {s : σ} (h : P.OrderFree s A W) {xs : List (Obs α)} (hx : GoodObs A W xs) : ∃ r s', P.run s xs = .ok (r, s') := by
  obtain ⟨r, s', _, h1, -⟩ := h xs xs (List.Perm.refl _) hx
  exact ⟨r, s', h1⟩

end General

section Models

variable {α : Type}

/-- **C150 (KT).** For updates of the same weight. -/
theorem C150_KT [DecidableEq α] (A : List α) (hA : A.Nodup) (hne : A ≠ []) (counts : Option (PyDict α ℝ)) (hc : CountsOk A counts) (s0 : KT α)
    (h0 : KT.init A counts = .ok s0) (w : ℝ) (hw : 0 ≤ w) : KT.predictor.OrderFree s0 A (fun v => v = w) := by
  have ex : ∀ xs ys : List (Obs α), xs.Perm ys → GoodObs A (fun v => v = w) xs → ∃ r s, KT.predictor.run s0 xs = .ok (r, s) ∧ KT.predictor.run s0 ys = .ok (r, s) :=
    fun xs ys hp hx => C03_KT_exchangeable A hA hne counts hc s0 h0 w hw xs ys hx (fun o ho => (hx o (hp.mem_iff.mpr ho)).2) (hp.map Obs.sym)
  refine OrderFree.of_seqProb (fun xs hx => ?_) (fun xs ys hp hx => ?_)
  · obtain ⟨r, s, h, -⟩ := ex xs xs (List.Perm.refl _) hx
    exact ⟨r, s, h⟩
  · obtain ⟨r, s, h, h'⟩ := ex xs ys hp hx
    rw [seqProb_of_run h, seqProb_of_run h']

/-- **C150 (KTBinary).** -/
theorem C150_KTBinary (w : ℝ) (hw : 0 ≤ w) : KTBinary.predictor.OrderFree (KTBinary.init none) [false, true] (fun v => v = w) := by
  have hk := C150_KT [false, true] (by decide) (by decide) none trivial _ C04_KTBinary_eq_KT.1 w hw
  have hrun : ∀ xs, GoodObs [false, true] (fun v => v = w) xs → ∃ r s, KTBinary.predictor.run (KTBinary.init none) xs = .ok (r, s) := by
    intro xs hx
    obtain ⟨r, s, h, -⟩ := KTBinary.lawful.updateLawful.run_ok (s := KTBinary.init none) (by norm_num [KTBinary.init]) (xs := xs)
      (fun o ho => ⟨(hx o ho).1, by rw [(hx o ho).2]; exact hw⟩)
    exact ⟨r, s, h⟩
  have he : ∀ xs, GoodObs [false, true] (fun v => v = w) xs → KTBinary.predictor.seqProb (KTBinary.init none) xs = KT.predictor.seqProb (KTBinary.init none).toKT xs := by
    intro xs hx
    obtain ⟨r, s, h⟩ := hrun xs hx
    have h' := C04_KTBinary_runs (KTBinary.init none) xs
    rw [h] at h'
    rw [seqProb_of_run h, seqProb_of_run h']
  refine OrderFree.of_seqProb hrun fun xs ys hp hx => ?_
  rw [he xs hx, he ys fun o ho => hx o (hp.mem_iff.mpr ho), hk.seqProb hp hx]

variable {σ : Type} (P : Predictor σ α) (A : List α) (W : ℝ → Prop)

/-- **C150 (Averager).** The order does not matter to an average if it does not matter to its models. -/
theorem C150_Averager (ms : List σ) (h : ∀ m ∈ ms, P.OrderFree m A W) (s0 : Averager σ) (h0 : Averager.init ms = .ok s0) :
    (Averager.predictor P).OrderFree s0 A W := by
  have hne : ms ≠ [] := (Averager.init_ok.mp h0).1
  have hrun : ∀ xs, GoodObs A W xs → ∃ r s, (Averager.predictor P).run s0 xs = .ok (r, s) ∧ Real.exp r = (ms.map fun m => P.seqProb m xs).sum / ms.length := by
    intro xs hx
    obtain ⟨_, a1, a3, a2⟩ := C08_Averager_mixture P ms hne xs
    rw [h0, Except.ok.injEq] at a1
    subst a1
    obtain ⟨r, s, hr⟩ := a3.mpr fun m hm => (h m hm).run hx
    exact ⟨r, s, hr, (a2 r s hr).1⟩
  refine OrderFree.of_seqProb (fun xs hx => ?_) (fun xs ys hp hx => ?_)
  · obtain ⟨r, s, hr, -⟩ := hrun xs hx
    exact ⟨r, s, hr⟩
  · obtain ⟨r, s, hr, e⟩ := hrun xs hx
    obtain ⟨r', s', hr', e'⟩ := hrun ys fun o ho => hx o (hp.mem_iff.mpr ho)
    rw [seqProb_of_run hr, seqProb_of_run hr', e, e', List.map_congr_left fun m hm => (h m hm).seqProb hp hx]

theorem ctwProb_perm {κ β : Type} [DecidableEq κ] {base : List β → ℝ} {V : β → Prop} (hb : ∀ xs ys : List β, xs.Perm ys → (∀ x ∈ xs, V x) → base xs = base ys) (d : ℕ) :
    ∀ S T : List (List κ × β), S.Perm T → (∀ p ∈ S, V p.2) → ctwProb base d S = ctwProb base d T := by
  have hm : ∀ S T : List (List κ × β), S.Perm T → (∀ p ∈ S, V p.2) → base (S.map Prod.snd) = base (T.map Prod.snd) := by
    intro S T h hV
    refine hb _ _ (h.map _) fun x hx => ?_
    obtain ⟨p, hp, rfl⟩ := List.mem_map.mp hx
    exact hV p hp
  induction d with
  | zero => exact hm
  | succ d ih =>
    intro S T h hV
    rw [ctwProb, ctwProb, hm S T h hV]
    have hh : heads S = heads T := List.toFinset_eq_of_perm _ _ (h.filterMap _)
    rw [hh]
    congr 2
    refine Finset.prod_congr rfl fun c _ => ih _ _ (h.filterMap _) fun p hp => ?_
    obtain ⟨q, hq, e⟩ := List.mem_filterMap.mp hp
    split at e
    · cases e
    · split_ifs at e
      simp only [Option.some.injEq] at e
      rw [← e]
      exact hV q hq

/-- **C150 (CTW).** Context trees depend on the pairs of histories and symbols that were seen, but not on their order. -/
theorem C150_CTW {κ : Type} [DecidableEq κ] (I : σ → Prop) (hP : P.UpdateLawful I A W) (fresh : σ) (hf : I fresh) (ctx : List α → List κ) (d : ℕ)
    (hc : ∀ h, (ctx h).length = d) (h : P.OrderFree fresh A W) : (CTW.predictor P fresh ctx).OrderFree (CTW.init fresh) A W := by
  have hrun := fun xs hx => C13_CTW_run_succeeds P fresh ctx I A W hP hf d hc xs hx
  refine OrderFree.of_seqProb hrun fun xs ys hp hx => ?_
  obtain ⟨r, n, hr⟩ := hrun xs hx
  obtain ⟨r', n', hr'⟩ := hrun ys fun o ho => hx o (hp.mem_iff.mpr ho)
  rw [seqProb_of_run hr, seqProb_of_run hr', C13_CTW_closed_form P fresh ctx d xs (fun o _ => hc _) r n hr, C13_CTW_closed_form P fresh ctx d ys (fun o _ => hc _) r' n' hr']
  refine ctwProb_perm (V := fun x : Obs α => x.sym ∈ A ∧ W x.weight) (fun xs ys hp hx => h.seqProb hp hx) d _ _ (hp.map _) fun p hp => ?_
  obtain ⟨o, ho, rfl⟩ := List.mem_map.mp hp
  exact hx o ho

/-- The symbols of every minimum partition are the same in both sequences, in whatever order. -/
def SameBlocks {β : Type} (m : ℕ) (xs ys : List β) : Prop := ∀ i, ((xs.drop (i * 2 ^ m)).take (2 ^ m)).Perm ((ys.drop (i * 2 ^ m)).take (2 ^ m))

theorem SameBlocks.drop {β : Type} {m : ℕ} {xs ys : List β} (h : SameBlocks m xs ys) (k : ℕ) : SameBlocks m (xs.drop (k * 2 ^ m)) (ys.drop (k * 2 ^ m)) := by
  intro i
  have := h (k + i)
  rwa [add_mul, ← List.drop_drop, ← List.drop_drop] at this

theorem SameBlocks.take {β : Type} {m : ℕ} {xs ys : List β} (h : SameBlocks m xs ys) (k : ℕ) : SameBlocks m (xs.take (k * 2 ^ m)) (ys.take (k * 2 ^ m)) := by
  intro i
  rcases lt_or_ge i k with hi | hi
  · have e : min (2 ^ m) (k * 2 ^ m - i * 2 ^ m) = 2 ^ m := by
      rw [← Nat.sub_mul]
      exact min_eq_left (Nat.le_mul_of_pos_left _ (by omega))
    rw [List.drop_take, List.drop_take, List.take_take, List.take_take, e]
    exact h i
  · have : k * 2 ^ m ≤ i * 2 ^ m := Nat.mul_le_mul_right _ hi
    rw [List.drop_eq_nil_of_le (by rw [List.length_take]; omega), List.drop_eq_nil_of_le (by rw [List.length_take]; omega)]

theorem SameBlocks.perm {β : Type} {m : ℕ} (n : ℕ) : ∀ {xs ys : List β}, xs.length ≤ n → SameBlocks m xs ys → xs.Perm ys := by
  have hm : 0 < 2 ^ m := by positivity
  induction n with
  | zero =>
    intro xs ys hn h
    have h0 := h 0
    simp only [Nat.zero_mul, List.drop_zero, List.length_eq_zero_iff.mp (Nat.le_zero.mp hn), List.take_nil] at h0
    rw [List.length_eq_zero_iff.mp (Nat.le_zero.mp hn)]
    rcases ys with _ | ⟨y, ys⟩
    · exact List.Perm.refl _
    · have := h0.length_eq
      simp at this
      omega
  | succ n ih =>
    intro xs ys hn h
    have h0 := h 0
    simp only [Nat.zero_mul, List.drop_zero] at h0
    have h1 := h.drop 1
    rw [Nat.one_mul] at h1
    rw [← List.take_append_drop (2 ^ m) xs, ← List.take_append_drop (2 ^ m) ys]
    refine h0.append (ih ?_ h1)
    rw [List.length_drop]
    omega

theorem ptwProb_blocks {β : Type} {p : ℕ → List β → ℝ} {V : β → Prop} {m : ℕ} (hb : ∀ t (xs ys : List β), xs.Perm ys → (∀ x ∈ xs, V x) → p t xs = p t ys) (k : ℕ) :
    ∀ (t : ℕ) (xs ys : List β), SameBlocks m xs ys → (∀ x ∈ xs, V x) → ptwProb p m k t xs = ptwProb p m k t ys := by
  induction k with
  | zero => exact fun t xs ys h hV => hb t xs ys (h.perm _ le_rfl) hV
  | succ k ih =>
    intro t xs ys h hV
    have e : 2 ^ (m + k) = 2 ^ k * 2 ^ m := by rw [Nat.add_comm, pow_add]
    rw [ptwProb, ptwProb, hb t xs ys (h.perm _ le_rfl) hV, e, ih _ _ _ (h.take _) fun x hx => hV x (List.mem_of_mem_take hx),
      ih _ _ _ (h.drop _) fun x hx => hV x (List.mem_of_mem_drop hx)]

/-- **C150 (PTWFixedLength).** For partition trees the order matters only beyond the minimum partitions. -/
theorem C150_PTWFixedLength (fresh : σ) (h : P.OrderFree fresh A W) (m height : ℕ) (xs ys : List (Obs α)) (hb : SameBlocks m xs ys)
    (hx : ∀ x ∈ xs, x.sym ∈ A ∧ W x.weight) (hl : xs.length ≤ 2 ^ max m height) (r r' : ℝ) (s s' : PTW σ)
    (hr : (PTWFixedLength.predictor P fresh m height).run (PTW.init fresh m) xs = .ok (r, s))
    (hr' : (PTWFixedLength.predictor P fresh m height).run (PTW.init fresh m) ys = .ok (r', s')) : r = r' := by
  apply Real.exp_injective
  rw [C24_PTWFixedLength_closed_form P fresh m height xs hl r s hr,
    C24_PTWFixedLength_closed_form P fresh m height ys (by rw [← (hb.perm _ le_rfl).length_eq]; exact hl) r' s' hr']
  exact ptwProb_blocks (V := fun x : Obs α => x.sym ∈ A ∧ W x.weight) (fun _ xs ys hp hx => h.seqProb hp hx) _ 0 xs ys hb hx

end Models

/-- **C150 (PTW, order).** Beyond that it does: zeros before ones are more probable than zeros and ones in turn. -/
theorem C150_PTWFixedLength_order : ∃ r s r' s',
    (PTWFixedLength.predictor KTBinary.predictor (KTBinary.init none) 0 3).run (PTW.init (KTBinary.init none) 0) ([false, false, true, true].map LPTW.obs) = .ok (r, s) ∧
    (PTWFixedLength.predictor KTBinary.predictor (KTBinary.init none) 0 3).run (PTW.init (KTBinary.init none) 0) ([false, true, false, true].map LPTW.obs) = .ok (r', s') ∧
    Real.exp r = 43 / 1024 ∧ Real.exp r' = 27 / 1024 := by
  have hx : ∀ l : List Bool, ∀ o ∈ l.map LPTW.obs, o.sym ∈ [false, true] ∧ 0 ≤ o.weight := by
    intro l o ho
    obtain ⟨y, -, rfl⟩ := List.mem_map.mp ho
    exact ⟨by cases y <;> simp [LPTW.obs], zero_le_one⟩
  have hI : 0 < (KTBinary.init none).c0 ∧ 0 < (KTBinary.init none).c1 := by norm_num [KTBinary.init]
  obtain ⟨r, s, hr, -⟩ := C24_PTWFixedLength_normalised KTBinary.predictor (KTBinary.init none) _ [false, true] _ KTBinary.lawful.updateLawful hI 0 3
    ([false, false, true, true].map LPTW.obs) (hx _) (by norm_num) [] 1 zero_le_one
  obtain ⟨r', s', hr', -⟩ := C24_PTWFixedLength_normalised KTBinary.predictor (KTBinary.init none) _ [false, true] _ KTBinary.lawful.updateLawful hI 0 3
    ([false, true, false, true].map LPTW.obs) (hx _) (by norm_num) [] 1 zero_le_one
  have hk : ∀ l : List Bool, KTBinary.predictor.seqProb (KTBinary.init none) (l.map LPTW.obs) = ktP (zeros (l.map LPTW.obs)) (ones (l.map LPTW.obs)) := by
    intro l
    refine seqProb_ktP fun o ho => ?_
    obtain ⟨y, -, rfl⟩ := List.mem_map.mp ho
    rfl
  have hn : KTBinary.predictor.seqProb (KTBinary.init none) [] = 1 := by simp [seqProb, Predictor.run, probOf]
  refine ⟨r, s, r', s', hr, hr', ?_, ?_⟩
  · rw [C24_PTWFixedLength_closed_form _ _ 0 3 _ (by norm_num) r s hr]
    norm_num [ptwProb, ← List.map_take, ← List.map_drop, hk, hn, -List.map_cons]
    norm_num [ktP, rise, zeros, ones, LPTW.obs, Finset.prod_range_succ, Nat.factorial]
  · rw [C24_PTWFixedLength_closed_form _ _ 0 3 _ (by norm_num) r' s' hr']
    norm_num [ptwProb, ← List.map_take, ← List.map_drop, hk, hn, -List.map_cons]
    norm_num [ktP, rise, zeros, ones, LPTW.obs, Finset.prod_range_succ, Nat.factorial]

/-- Context trees over KT of all depths meet the hypotheses of C150, and so do averages of them. -/
example (d : ℕ) (hd : 1 ≤ d) (w : ℝ) (hw : 0 ≤ w) : (CTW.predictor KTBinary.predictor (KTBinary.init none) (CTW.mkcontext d false)).OrderFree
    (CTW.init (KTBinary.init none)) [false, true] (fun v => v = w) := by
  refine C150_CTW KTBinary.predictor [false, true] (fun v => v = w) (fun s => 0 < s.c0 ∧ 0 < s.c1) ⟨?_, ?_⟩ _ (by norm_num [KTBinary.init]) _ d
    (fun h => (C18_mkcontext_partial d hd false h).1) (C150_KTBinary w hw)
  · exact fun s a h v hs ha hv => KTBinary.lawful.updateLawful.total s a h v hs ha (by rw [hv]; exact hw)
  · exact fun s h v hs hv => KTBinary.lawful.updateLawful.normalised s h v hs (by rw [hv]; exact hw)

section One

variable {σ α : Type} (P : Predictor σ α) (A : List α) (W : ℝ → Prop)

/-- **C151 (Averager of one).** An average of one model answers as that model. -/
theorem C151_Averager_one (m : σ) (hm : ∀ xs, GoodObs A W xs → ∃ r t, P.run m xs = .ok (r, t)) (s0 : Averager σ) (h0 : Averager.init [m] = .ok s0) :
    (Averager.predictor P).SameAnswers s0 P m A W := by
  have hrun : ∀ xs, GoodObs A W xs → ∃ r s, (Averager.predictor P).run s0 xs = .ok (r, s) ∧ Real.exp r = P.seqProb m xs := by
    intro xs hx
    obtain ⟨_, a1, a3, a2⟩ := C08_Averager_mixture P [m] (by simp) xs
    rw [h0, Except.ok.injEq] at a1
    subst a1
    obtain ⟨r, s, hr⟩ := a3.mpr fun m' hm' => by rw [List.mem_singleton.mp hm']; exact hm xs hx
    exact ⟨r, s, hr, by simpa using (a2 r s hr).1⟩
  refine SameAnswers.of_seqProb (fun xs hx => ?_) hm fun xs hx => ?_
  · obtain ⟨r, s, hr, -⟩ := hrun xs hx
    exact ⟨r, s, hr⟩
  · obtain ⟨r, s, hr, e⟩ := hrun xs hx
    rw [seqProb_of_run hr, e]

/-- **C151 (nested averages).** An average of averages of equally many models answers as the average of all these models. -/
theorem C151_Averager_nested (mss : List (List σ)) (c : ℕ) (hc : ∀ ms ∈ mss, ms.length = c)
    (hm : ∀ ms ∈ mss, ∀ m ∈ ms, ∀ xs, GoodObs A W xs → ∃ r t, P.run m xs = .ok (r, t)) (vs : List (Averager σ))
    (hv : List.Forall₂ (fun ms v => Averager.init ms = .ok v) mss vs) (s0 : Averager (Averager σ)) (h0 : Averager.init vs = .ok s0) (t0 : Averager σ)
    (h0' : Averager.init mss.flatten = .ok t0) :
    (Averager.predictor (Averager.predictor P)).SameAnswers s0 (Averager.predictor P) t0 A W := by
  have mix : ∀ {τ : Type} (Q : Predictor τ α) (ns : List τ) (u : Averager τ), Averager.init ns = .ok u → ∀ xs, (∀ n ∈ ns, ∃ r t, Q.run n xs = .ok (r, t)) →
      ∃ r s, (Averager.predictor Q).run u xs = .ok (r, s) ∧ (Averager.predictor Q).seqProb u xs = (ns.map fun n => Q.seqProb n xs).sum / ns.length := by
    intro τ Q ns u hu xs hn
    obtain ⟨_, a1, a3, a2⟩ := C08_Averager_mixture Q ns (Averager.init_ok.mp hu).1 xs
    rw [hu, Except.ok.injEq] at a1
    subst a1
    obtain ⟨r, s, hr⟩ := a3.mpr hn
    exact ⟨r, s, hr, by rw [seqProb_of_run hr]; exact (a2 r s hr).1⟩
  have hne : vs ≠ [] := (Averager.init_ok.mp h0).1
  have inner : ∀ xs, GoodObs A W xs → (∀ v ∈ vs, ∃ r s, (Averager.predictor P).run v xs = .ok (r, s)) ∧
      (vs.map fun v => (Averager.predictor P).seqProb v xs).sum = (mss.flatten.map fun m => P.seqProb m xs).sum / c := by
    intro xs hx
    clear h0 h0' hne
    induction hv with
    | nil => simp
    | @cons ms v mss vs h1 _ ih =>
      obtain ⟨i1, i2⟩ := ih (fun ms h => hc ms (by simp [h])) fun ms h => hm ms (by simp [h])
      obtain ⟨r, s, hr, e⟩ := mix P ms v h1 xs fun m hmm => hm ms (by simp) m hmm xs hx
      refine ⟨fun v' hv' => ?_, ?_⟩
      · rcases List.mem_cons.mp hv' with rfl | hv'
        · exact ⟨r, s, hr⟩
        · exact i1 v' hv'
      · rw [List.map_cons, List.sum_cons, i2, e, hc ms (by simp), List.flatten_cons, List.map_append, List.sum_append, add_div]
  have hlen : mss.flatten.length = vs.length * c := by
    rw [List.length_flatten, List.map_congr_left hc, hv.length_eq.symm]
    simp
  refine SameAnswers.of_seqProb (fun xs hx => ?_) (fun xs hx => ?_) fun xs hx => ?_
  · obtain ⟨r, s, hr, -⟩ := mix _ vs s0 h0 xs (inner xs hx).1
    exact ⟨r, s, hr⟩
  · obtain ⟨r, s, hr, -⟩ := mix P _ t0 h0' xs fun m h => by
      obtain ⟨ms, h1, h2⟩ := List.mem_flatten.mp h
      exact hm ms h1 m h2 xs hx
    exact ⟨r, s, hr⟩
  · obtain ⟨-, -, -, e1⟩ := mix _ vs s0 h0 xs (inner xs hx).1
    obtain ⟨-, -, -, e2⟩ := mix P _ t0 h0' xs fun m h => by
      obtain ⟨ms, h1, h2⟩ := List.mem_flatten.mp h
      exact hm ms h1 m h2 xs hx
    rw [e1, e2, (inner xs hx).2, hlen, Nat.cast_mul, div_div, mul_comm (c : ℝ)]

theorem ctwProb_one {κ β : Type} [DecidableEq κ] {base : List β → ℝ} (h1 : base [] = 1) : ∀ (cs : List κ) (xs : List β),
    ctwProb base cs.length (xs.map fun x => (cs, x)) = base xs := by
  intro cs
  induction cs with
  | nil => intro xs; simp [ctwProb]
  | cons c cs ih =>
    intro xs
    rcases xs with _ | ⟨x, xs⟩
    · simp [ctwProb, h1, heads]; norm_num
    · have e1 : heads ((x :: xs).map fun x => (c :: cs, x)) = {c} := by
        rw [heads]
        ext d
        simp only [List.mem_toFinset, List.mem_filterMap, List.mem_map, Finset.mem_singleton]
        constructor
        · rintro ⟨_, ⟨y, -, rfl⟩, h⟩
          exact (Option.some.inj h).symm
        · rintro rfl
          exact ⟨_, ⟨x, by simp, rfl⟩, rfl⟩
      have e2 : subCtx c ((x :: xs).map fun x => (c :: cs, x)) = (x :: xs).map fun x => (cs, x) := by
        rw [subCtx, List.filterMap_map]
        simp [Function.comp_def]
      rw [List.length_cons, ctwProb, e1, Finset.prod_singleton, e2, ih]
      simp only [List.map_map, Function.comp_def, List.map_id']
      ring

/-- **C151 (CTW, one context).** While the context is always the same, a context tree reports what its base model does. -/
theorem C151_CTW_one {κ : Type} [DecidableEq κ] (fresh : σ) (ctx : List α → List κ) (cs : List κ) (xs : List (Obs α)) (hx : ∀ o ∈ xs, ctx o.hist = cs)
    (r b : ℝ) (n : CTWNode σ κ) (t : σ) (hr : (CTW.predictor P fresh ctx).run (CTW.init fresh) xs = .ok (r, n)) (hb : P.run fresh xs = .ok (b, t)) : r = b := by
  apply Real.exp_injective
  rw [C13_CTW_closed_form P fresh ctx cs.reverse.length xs (fun o ho => by rw [hx o ho, List.length_reverse]) r n hr, ← seqProb_of_run hb]
  have : withCtx ctx xs = xs.map fun x => (cs.reverse, x) := List.map_congr_left fun o ho => by rw [hx o ho]
  rw [this]
  exact ctwProb_one (by simp [seqProb, Predictor.run, probOf]) _ _

/-- **C151 (PTWFixedLength, one partition).** Up to the minimum partition length, a partition tree that is not longer than this reports what its base model does. -/
theorem C151_PTWFixedLength_one (fresh : σ) (m height : ℕ) (hh : height ≤ m) (xs : List (Obs α)) (hl : xs.length ≤ 2 ^ m) (r b : ℝ) (s : PTW σ) (t : σ)
    (hr : (PTWFixedLength.predictor P fresh m height).run (PTW.init fresh m) xs = .ok (r, s)) (hb : P.run fresh xs = .ok (b, t)) : r = b := by
  apply Real.exp_injective
  rw [C24_PTWFixedLength_closed_form P fresh m height xs (by rwa [max_eq_left hh]) r s hr, Nat.sub_eq_zero_of_le hh, ptwProb, seqProb_of_run hb]

/-- **C151 (PTW, one partition).** `PTW` reports what its base model does until the first minimum partition is complete. -/
theorem C151_PTW_one (fresh : σ) (m : ℕ) (xs : List (Obs α)) (hl : xs.length ≤ 2 ^ m) (r b : ℝ) (s : PTW σ) (t : σ)
    (hr : (PTW.predictor P fresh m).run (PTW.init fresh m) xs = .ok (r, s)) (hb : P.run fresh xs = .ok (b, t)) : r = b := by
  induction xs using List.reverseRecOn generalizing r b s t with
  | nil =>
    simp only [Predictor.run, pure_eq_ok, Except.ok.injEq, Prod.mk.injEq] at hr hb
    rw [← hr.1, ← hb.1]
  | append_singleton xs o ih =>
    rw [List.length_append, List.length_singleton] at hl
    obtain ⟨r1, s1, q1, a1, a2, rfl⟩ := run_append_ok.mp hr
    obtain ⟨q, s2, q2, a3, a4, rfl⟩ := run_cons_ok.mp a2
    obtain ⟨b1, t1, p1, c1, c2, rfl⟩ := run_append_ok.mp hb
    obtain ⟨p, t2, p2, c3, c4, rfl⟩ := run_cons_ok.mp c2
    simp only [Predictor.run, pure_eq_ok, Except.ok.injEq, Prod.mk.injEq] at a4 c4
    obtain ⟨rfl, rfl⟩ := a4
    obtain ⟨rfl, rfl⟩ := c4
    have e := ih (by omega) r1 b1 s1 t1 a1 c1
    subst e
    have e := C25_PTW_ratio P fresh m xs o r1 q s1 s2 a1 a3
    rw [show levelsFor m (xs.length + 1) = 0 from Nat.le_zero.mp (levelsFor_min (by simpa using hl)), ptwProb, ptwProb, seqProb_of_run c1, seqProb_of_run hb,
      Real.exp_add, mul_div_cancel_left₀ _ (Real.exp_pos _).ne'] at e
    rw [Real.exp_injective e, add_zero]

end One

/-- Two averages of two models each, and the average of all four. -/
example : ∃ s0 t0, Averager.init ([([1/3, 1/2] : List ℝ), [1/5, 1/7]].map fun ms => (⟨ms.map fun m => (m, Real.log (1 / (2 : ℝ))), 0⟩ : Averager ℝ)) = .ok s0 ∧
    Averager.init ([1/3, 1/2, 1/5, 1/7] : List ℝ) = .ok t0 ∧
    (Averager.predictor (Averager.predictor coins)).SameAnswers s0 (Averager.predictor coins) t0 [false, true] (fun w => w = 1) := by
  refine ⟨_, _, Averager.init_ok.mpr ⟨by simp, rfl⟩, Averager.init_ok.mpr ⟨by simp, rfl⟩, ?_⟩
  refine C151_Averager_nested coins _ _ [[1/3, 1/2], [1/5, 1/7]] 2 (by simp) ?_ _ ?_ _ (Averager.init_ok.mpr ⟨by simp, rfl⟩) _ (Averager.init_ok.mpr ⟨by simp, rfl⟩)
  · intro ms hms m hm xs hx
    obtain ⟨r, t, h, -⟩ := coins_lawful.run_ok (s := m) (xs := xs) (by
      simp only [List.mem_cons, List.not_mem_nil, or_false] at hms
      rcases hms with rfl | rfl <;> simp at hm <;> rcases hm with rfl | rfl <;> norm_num) (fun o ho => ⟨(hx o ho).1, trivial⟩)
    exact ⟨r, t, h⟩
  · exact .cons (Averager.init_ok.mpr ⟨by simp, by simp⟩) (.cons (Averager.init_ok.mpr ⟨by simp, by simp⟩) .nil)

end Verif
