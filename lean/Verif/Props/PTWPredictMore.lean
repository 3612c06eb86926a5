import Verif.Proofs.PTWPure
import Verif.Proofs.FMN
import Verif.Props.PTW
import Verif.Props.FMN
import Verif.Props.Copy

/-! C17 and C27 for the other classes: predictions of `PTWFixedLength`, `FMN` and `Factored`. -/

namespace Verif

open Predictor PTWNode PTWData

variable {S σ α : Type} {P : Predictor σ α}

/-! ## C17 -/

/-- Whether a call is an `update`. -/
def Predictor.Call.isUpdate : Call α → Bool
  | .update .. => true
  | .predict .. => false

/-- **C17 (interleaving).** If predictions have no observable effect, then in any sequence of calls that all succeed the
updates return what they return when the predictions between them are left out. -/
theorem C17_interleaved (hP : P.PurePredict) (s : σ) (cs : List (Call α)) (hok : ∀ o ∈ P.outputs s cs, ∃ r, o = .ok r) :
    ((cs.zip (P.outputs s cs)).filter fun p => p.1.isUpdate).map Prod.snd = P.outputs s (cs.filter Call.isUpdate) := by
  induction cs generalizing s with
  | nil => rfl
  | cons c cs ih =>
    simp only [outputs] at hok ⊢
    cases hc : P.step s c with
    | error e =>
      rw [hc] at hok
      obtain ⟨r, hr⟩ := hok (.error e) (by simp)
      cases hr
    | ok p =>
      obtain ⟨r, s'⟩ := p
      rw [hc] at hok
      simp only [List.mem_cons, forall_eq_or_imp] at hok
      have := ih s' hok.2
      cases c with
      | update a h w =>
        have hu : (Call.update a h w).isUpdate = true := rfl
        rw [List.filter_cons_of_pos hu]
        simp only [List.zip_cons_cons, hu, List.filter_cons_of_pos, List.map_cons, this, outputs, hc]
      | predict a h =>
        have hu : ¬ (Call.predict a h).isUpdate = true := Bool.false_ne_true
        rw [List.filter_cons_of_neg hu]
        simp only [List.zip_cons_cons]
        rw [List.filter_cons_of_neg (by exact hu), this]
        exact ((hP s a h r s' hc).outputs_eq _).symm

/-- **C17 for partition trees and factorizations.** After a `log_predict` on any `PTW`, `PTWFixedLength` or `Factored` model,
every later sequence of updates and predictions returns what it would have returned without it, provided the base models' own
predictions have no observable effect. -/
theorem C17_PTW_predict_pure (hP : P.PurePredict) (fresh : σ) (m height : ℕ) (a : α) (h : List α) (r : ℝ) (cs : List (Call α)) :
    (∀ s t, (PTW.predictor P fresh m).logPredict s a h = .ok (r, t) →
      (PTW.predictor P fresh m).outputs t cs = (PTW.predictor P fresh m).outputs s cs) ∧
    (∀ s t, (PTWFixedLength.predictor P fresh m height).logPredict s a h = .ok (r, t) →
      (PTWFixedLength.predictor P fresh m height).outputs t cs = (PTWFixedLength.predictor P fresh m height).outputs s cs) ∧
    (∀ s t, (Factored.predictor P).logPredict s a h = .ok (r, t) →
      (Factored.predictor P).outputs t cs = (Factored.predictor P).outputs s cs) :=
  ⟨fun s t hp => ((PTW.purePredict hP fresh m s a h r t hp).outputs_eq cs).symm,
    fun s t hp => ((PTWFixedLength.purePredict hP fresh m height s a h r t hp).outputs_eq cs).symm,
    fun s t hp => ((Factored.purePredict hP s a h r t hp).outputs_eq cs).symm⟩

/-- **C17 for `FMN`.** The same for `FMN` with either model store, in every state, provided in addition that copies of base
models are faithful. -/
theorem C17_FMN_predict_pure (hP : P.PurePredict) (hC : P.FaithfulCopy fun _ => True) (m : ℕ) (a : α) (h : List α) (r : ℝ)
    (cs : List (Call α)) :
    (∀ s t, (FMN.predictor (LogStore.store σ) P m).logPredict s a h = .ok (r, t) →
      (FMN.predictor (LogStore.store σ) P m).outputs t cs = (FMN.predictor (LogStore.store σ) P m).outputs s cs) ∧
    (∀ s t, (FMN.predictor (LogStoreUniform.store σ) P m).logPredict s a h = .ok (r, t) →
      (FMN.predictor (LogStoreUniform.store σ) P m).outputs t cs =
        (FMN.predictor (LogStoreUniform.store σ) P m).outputs s cs) :=
  ⟨fun s t hp => ((FMN.purePredict hP hC (LogStore.respects (Indist.refl P)) m s a h r t hp).outputs_eq cs).symm,
    fun s t hp => ((FMN.purePredict hP hC (LogStoreUniform.respects (Indist.refl P)) m s a h r t hp).outputs_eq cs).symm⟩

/-- Example: `FMN` over context trees, whose predictions do create nodes, answers alike after a prediction. -/
example (s t : FMN (LogStore (CTWNode KTBinary Bool)) (CTWNode KTBinary Bool)) (r : ℝ) (cs : List (Call Bool)) :
    let P := CTW.predictor KTBinary.predictor (KTBinary.init none) (CTW.mkcontext 3 false)
    (FMN.predictor (LogStore.store _) P 2).logPredict s true [false] = .ok (r, t) →
      (FMN.predictor (LogStore.store _) P 2).outputs t cs = (FMN.predictor (LogStore.store _) P 2).outputs s cs :=
  (C17_FMN_predict_pure (CTWNode.purePredict KTBinary.pure _) (C50_CTW (C50_estimators (α := Bool)).2.1 _ _) 2 true [false] r
    cs).1 s t

/-! ## C27 -/

private theorem all_coh {I : σ → Prop} {A : List α} {W : ℝ → Prop} (hP : P.Lawful I A W) {a : α} (ha : a ∈ A)
    (h : List α) {w : ℝ} (hw : W w) {n : PTWNode σ} (hn : All I n) : All (CohAt P a h w) n := by
  induction n with
  | leaf d => exact fun r s' hu => hP.coherent d.base a h w hn ha hw r s' hu
  | inner d r ih => exact ⟨fun r s' hu => hP.coherent d.base a h w hn.1 ha hw r s' hu, ih hn.2⟩

/-- With two or more symbols no probability reaches one. -/
private theorem prob_lt_one {I : σ → Prop} {A : List α} {W : ℝ → Prop} (hP : P.UpdateLawful I A W) {s : σ} (hs : I s)
    (hA : 2 ≤ A.length) {a : α} (ha : a ∈ A) (h : List α) {w : ℝ} (hw : W w) : probOf (P.update s a h w) < 1 := by
  have hsum := hP.sum_probOf hs hw h
  have hpos : ∀ a ∈ A, 0 < probOf (P.update s a h w) := by
    intro a ha
    obtain ⟨q0, s1, h2, _⟩ := hP.total s a h w hs ha hw
    rw [h2, probOf_ok]
    exact Real.exp_pos _
  obtain ⟨u, v, rfl⟩ := List.append_of_mem ha
  have hnn : ∀ l : List α, (∀ x ∈ l, x ∈ u ++ a :: v) → 0 ≤ (l.map fun a => probOf (P.update s a h w)).sum := by
    intro l hl
    apply List.sum_nonneg
    intro x hx
    simp only [List.mem_map] at hx
    obtain ⟨b, hb, rfl⟩ := hx
    exact (hpos b (hl b hb)).le
  rw [← hsum, List.map_append, List.map_cons, List.sum_append, List.sum_cons]
  have hu := hnn u (by simp +contextual)
  have hv := hnn v (by simp +contextual)
  cases u with
  | cons b u =>
    have h1 := hpos b (by simp)
    have h2 := hnn u (by simp +contextual)
    rw [List.map_cons, List.sum_cons]
    linarith
  | nil =>
    cases v with
    | nil => simp at hA
    | cons b v =>
      have h1 := hpos b (by simp)
      have h2 := hnn v (by simp +contextual)
      rw [List.map_cons (l := v), List.sum_cons (l := List.map _ v)]
      linarith

private theorem sum_lt {A : List α} (hA : 2 ≤ A.length) {f g : α → ℝ} (h : ∀ a ∈ A, f a < g a) :
    (A.map f).sum < (A.map g).sum := by
  apply List.sum_lt_sum
  · exact fun a ha => (h a ha).le
  · cases A with
    | nil => simp at hA
    | cons a A => exact ⟨a, by simp, h a (by simp)⟩

section Fixed

variable {fresh : σ}

private theorem fixed_state {I : σ → Prop} {A : List α} {W : ℝ → Prop} (hP : P.Lawful I A W) (hf : I fresh)
    {m height : ℕ} {xs : List (Obs α)} (hx : ∀ o ∈ xs, o.sym ∈ A ∧ W o.weight) {r : ℝ} {s : PTW σ}
    (hr : (PTWFixedLength.predictor P fresh m height).run (PTW.init fresh m) xs = .ok (r, s)) :
    Rep P (fun _ => fresh) m 0 s.tree xs ∧ All I s.tree := by
  have key : ∀ (ys xs : List (Obs α)) (s0 : PTW σ) (r : ℝ), (∀ o ∈ ys, o.sym ∈ A ∧ W o.weight) →
      Rep P (fun _ => fresh) m 0 s0.tree xs → All I s0.tree →
      (PTWFixedLength.predictor P fresh m height).run s0 ys = .ok (r, s) →
      Rep P (fun _ => fresh) m 0 s.tree (xs ++ ys) ∧ All I s.tree := by
    intro ys
    induction ys with
    | nil =>
      intro xs s0 r _ h1 h2 h3
      simp only [Predictor.run, pure_eq_ok, Except.ok.injEq, Prod.mk.injEq] at h3
      obtain ⟨_, rfl⟩ := h3
      exact ⟨by rwa [List.append_nil], h2⟩
    | cons o ys ih =>
      intro xs s0 r hg h1 h2 h3
      rw [run_cons_ok] at h3
      obtain ⟨q, s1, r', g1, g2, _⟩ := h3
      simp only [PTWFixedLength.predictor, PTWFixedLength.update, bind_eq_ok, pure_eq_ok, Except.ok.injEq,
        Prod.mk.injEq] at g1
      obtain ⟨n, hn, _, rfl⟩ := g1
      have ho := hg o (by simp)
      obtain ⟨n', k1, k2⟩ := h2.update (m := m) hP.updateLawful.total hf ho.1 o.hist ho.2
      rw [hn, Except.ok.injEq] at k1
      subst k1
      have := ih (xs ++ [o]) _ r' (fun x hx => hg x (by simp [hx])) (h1.update (o := o) hn) k2 g2
      rwa [List.append_assoc, List.singleton_append] at this
  exact key xs [] (PTW.init fresh m) r hx (rep_new 0) hf hr

/-- **C27 for `PTWFixedLength`, partial** (the current minimum-length block is unfinished, or nothing has been observed).
`log_predict` returns what `update` would, also beyond the declared length.  Missing: the other states, where it is false
(`C27_fixed_overestimates`). -/
theorem C27_fixed_predict_eq_update_partial (I : σ → Prop) (A : List α) (W : ℝ → Prop) (hP : P.Lawful I A W) (hf : I fresh)
    (m height : ℕ) (xs : List (Obs α)) (hx : ∀ o ∈ xs, o.sym ∈ A ∧ W o.weight) (hb : xs = [] ∨ ¬ 2 ^ m ∣ xs.length)
    (r : ℝ) (s : PTW σ) (hr : (PTWFixedLength.predictor P fresh m height).run (PTW.init fresh m) xs = .ok (r, s))
    (a : α) (ha : a ∈ A) (h : List α) (w : ℝ) (hw : W w) :
    ∃ q s' t, (PTWFixedLength.predictor P fresh m height).update s a h w = .ok (q, s') ∧
      (PTWFixedLength.predictor P fresh m height).logPredict s a h = .ok (q, t) := by
  obtain ⟨hi, hs⟩ := fixed_state hP hf hx hr
  obtain ⟨n, hn, _⟩ := hs.update (m := m) hP.updateLawful.total hf ha h hw
  obtain ⟨t, ht⟩ := logPredict_open (all_coh hP ha h hw hs) (hi.open_iff.mpr hb) hn
  exact ⟨correct n.data.baseLP (height - n.data.height) n.data.lp - s.logProb,
    ⟨n, correct n.data.baseLP (height - n.data.height) n.data.lp, s.adj⟩, ⟨t, s.logProb, s.adj⟩,
    by simp only [PTWFixedLength.predictor, PTWFixedLength.update, hn, ok_bind, pure_eq_ok],
    by simp only [PTWFixedLength.predictor, PTWFixedLength.logPredict, ht, ok_bind, pure_eq_ok]⟩

/-- **C27, `PTWFixedLength` at block boundaries.** After any positive number of symbols divisible by the minimum block
length, `log_predict` returns strictly more than `update` would, for every symbol to which a fresh base model gives
probability below one. -/
theorem C27_fixed_overestimates (I : σ → Prop) (A : List α) (W : ℝ → Prop) (hP : P.Lawful I A W) (hf : I fresh)
    (m height : ℕ) (xs : List (Obs α)) (hx : ∀ o ∈ xs, o.sym ∈ A ∧ W o.weight) (hne : xs ≠ []) (hb : 2 ^ m ∣ xs.length)
    (r : ℝ) (s : PTW σ) (hr : (PTWFixedLength.predictor P fresh m height).run (PTW.init fresh m) xs = .ok (r, s))
    (a : α) (ha : a ∈ A) (h : List α) (w : ℝ) (hw : W w) (hlt : probOf (P.update fresh a h w) < 1) :
    ∃ q q' s' t, (PTWFixedLength.predictor P fresh m height).update s a h w = .ok (q, s') ∧
      (PTWFixedLength.predictor P fresh m height).logPredict s a h = .ok (q', t) ∧ q < q' := by
  obtain ⟨hi, hs⟩ := fixed_state hP hf hx hr
  obtain ⟨n, hn, _⟩ := hs.update (m := m) hP.updateLawful.total hf ha h hw
  obtain ⟨q0, s1, h2, _⟩ := hP.update_ok fresh a h w hf ha hw
  have hneg : q0 < 0 := by
    rw [h2, probOf_ok] at hlt
    exact Real.exp_lt_one_iff.mp hlt
  have hcl : ¬ Open s.tree := by
    rw [hi.open_iff]
    simp [hne, hb]
  obtain ⟨l, t, ht, hl⟩ := logPredict_closed (all_coh hP ha h hw hs) hcl h2 hneg hn
  exact ⟨correct n.data.baseLP (height - n.data.height) n.data.lp - s.logProb,
    correct n.data.baseLP (height - n.data.height) l - s.logProb,
    ⟨n, correct n.data.baseLP (height - n.data.height) n.data.lp, s.adj⟩, ⟨t, s.logProb, s.adj⟩,
    by simp only [PTWFixedLength.predictor, PTWFixedLength.update, hn, ok_bind, pure_eq_ok],
    by simp only [PTWFixedLength.predictor, PTWFixedLength.logPredict, ht, ok_bind, pure_eq_ok],
    by linarith [correct_lt (b := n.data.baseLP) hl (height - n.data.height)]⟩

/-- **C27, consequence for `PTWFixedLength`.** At every block boundary within the declared length the predictions over an
alphabet of at least two symbols sum to more than one. -/
theorem C27_fixed_exceed_one (I : σ → Prop) (A : List α) (W : ℝ → Prop) (hP : P.Lawful I A W) (hf : I fresh)
    (hA : 2 ≤ A.length) (m height : ℕ) (xs : List (Obs α)) (hx : ∀ o ∈ xs, o.sym ∈ A ∧ W o.weight) (hne : xs ≠ [])
    (hb : 2 ^ m ∣ xs.length) (hl : xs.length < 2 ^ max m height) (r : ℝ) (s : PTW σ)
    (hr : (PTWFixedLength.predictor P fresh m height).run (PTW.init fresh m) xs = .ok (r, s)) (h : List α) (w : ℝ) (hw : W w) :
    1 < (A.map fun a => probOf ((PTWFixedLength.predictor P fresh m height).logPredict s a h)).sum := by
  obtain ⟨r', s', h1, hsum⟩ := C24_PTWFixedLength_normalised P fresh I A W hP.updateLawful hf m height xs hx hl h w hw
  rw [hr] at h1
  simp only [Except.ok.injEq, Prod.mk.injEq] at h1
  obtain ⟨rfl, rfl⟩ := h1
  rw [← hsum]
  apply sum_lt hA
  intro a ha
  obtain ⟨q, q', s', t, g1, g2, g3⟩ := C27_fixed_overestimates I A W hP hf m height xs hx hne hb r s hr a ha h w hw
    (prob_lt_one hP.updateLawful hf hA ha h hw)
  rw [g1, g2, probOf_ok, probOf_ok]
  exact Real.exp_lt_exp.mpr g3

end Fixed

section Mixing

variable {St : Store S σ} {add : S → σ → S} {Keep : S → σ → Prop}

private theorem fmn_state (hSt : St.Lawful add Keep) {I : σ → Prop} {A : List α} {W : ℝ → Prop} (hP : P.Lawful I A W)
    (hC : P.Copyable I) {f : σ} (hf : I f) {m : ℕ} {xs : List (Obs α)} (hx : ∀ o ∈ xs, o.sym ∈ A ∧ W o.weight) {r : ℝ}
    {s0 s : FMN S σ} (h0 : FMN.init St P f m = .ok s0) (hr : (FMN.predictor St P m).run s0 xs = .ok (r, s))
    {a : α} (ha : a ∈ A) (h : List α) {w : ℝ} (hw : W w) :
    ∃ v n st, Averager.Over I v ∧ All (Averager.Over I) s.ptw.tree ∧ (Open s.ptw.tree ↔ xs = [] ∨ ¬ 2 ^ m ∣ xs.length) ∧
      s.ptw.tree.update (Averager.predictor P) (.ok v) m a h w = .ok n ∧
      (FMN.predictor St P m).update s a h w = .ok (n.data.lp + s.ptw.adjusted - s.ptw.logProb, st) := by
  obtain ⟨s0', r', s', fr, ms, h1, h2, h3⟩ := FMN.hist_run (m := m) hP.updateLawful hC hSt hf (xs := xs) hx
  rw [h0, Except.ok.injEq] at h1
  subst h1
  have h4 := h3.run
  rw [hr] at h4
  simp only [Except.ok.injEq, Prod.mk.injEq] at h4
  obtain ⟨rfl, rfl⟩ := h4
  obtain ⟨v, hv, hv', _⟩ := h2.factory hP.updateLawful hC hSt
  obtain ⟨q, p, b, k1, _, k3, _⟩ := FMN.update_ok (m := m) hP.updateLawful hC hSt h2 hv ha h hw
  simp only [PTW.update, bind_eq_ok, pure_eq_ok, Except.ok.injEq, Prod.mk.injEq] at k1
  obtain ⟨n, hn, rfl, rfl⟩ := k1
  exact ⟨v, n, _, hv', h2.tree, h3.ptw.rep.open_iff, hn, k3⟩

/-- **C27 for `FMN`, partial** (the current minimum-length block is unfinished, or nothing has been observed).  The inherited
`log_predict` returns what `update` would.  Missing: the other states, where it is false (`C27_FMN_overestimates`). -/
theorem C27_FMN_predict_eq_update_partial (hSt : St.Lawful add Keep) (I : σ → Prop) (A : List α) (W : ℝ → Prop)
    (hP : P.Lawful I A W) (hC : P.Copyable I) (f : σ) (hf : I f) (m : ℕ) (xs : List (Obs α))
    (hx : ∀ o ∈ xs, o.sym ∈ A ∧ W o.weight) (hb : xs = [] ∨ ¬ 2 ^ m ∣ xs.length) (r : ℝ) (s0 s : FMN S σ)
    (h0 : FMN.init St P f m = .ok s0) (hr : (FMN.predictor St P m).run s0 xs = .ok (r, s))
    (a : α) (ha : a ∈ A) (h : List α) (w : ℝ) (hw : W w) :
    ∃ q s' t, (FMN.predictor St P m).update s a h w = .ok (q, s') ∧
      (FMN.predictor St P m).logPredict s a h = .ok (q, t) := by
  obtain ⟨v, n, st, _, h2, h3, h4, h5⟩ := fmn_state hSt hP hC hf hx h0 hr ha h hw
  obtain ⟨t, ht⟩ := logPredict_open (all_coh (Averager.lawful hP) ha h hw h2) (h3.mpr hb) h4
  exact ⟨_, st, ⟨⟨t, s.ptw.logProb, s.ptw.adj⟩, s.store, s.t⟩, h5,
    by simp only [FMN.predictor, FMN.logPredict, PTW.logPredict, ht, ok_bind, pure_eq_ok]⟩

/-- **C27, `FMN` at block boundaries.** After any positive number of symbols divisible by the minimum block length, and for
two or more symbols, `log_predict` returns strictly more than `update` would for every symbol. -/
theorem C27_FMN_overestimates (hSt : St.Lawful add Keep) (I : σ → Prop) (A : List α) (W : ℝ → Prop)
    (hP : P.Lawful I A W) (hC : P.Copyable I) (f : σ) (hf : I f) (hA : 2 ≤ A.length) (m : ℕ) (xs : List (Obs α))
    (hx : ∀ o ∈ xs, o.sym ∈ A ∧ W o.weight) (hne : xs ≠ []) (hb : 2 ^ m ∣ xs.length) (r : ℝ) (s0 s : FMN S σ)
    (h0 : FMN.init St P f m = .ok s0) (hr : (FMN.predictor St P m).run s0 xs = .ok (r, s))
    (a : α) (ha : a ∈ A) (h : List α) (w : ℝ) (hw : W w) :
    ∃ q q' s' t, (FMN.predictor St P m).update s a h w = .ok (q, s') ∧
      (FMN.predictor St P m).logPredict s a h = .ok (q', t) ∧ q < q' := by
  obtain ⟨v, n, st, h1, h2, h3, h4, h5⟩ := fmn_state hSt hP hC hf hx h0 hr ha h hw
  have hlt := prob_lt_one (Averager.updateLawful hP.updateLawful) h1 hA ha h hw
  obtain ⟨q0, s1, g2, _⟩ := (Averager.lawful hP).update_ok v a h w h1 ha hw
  have hneg : q0 < 0 := by
    rw [g2, probOf_ok] at hlt
    exact Real.exp_lt_one_iff.mp hlt
  have hcl : ¬ Open s.ptw.tree := by
    rw [h3]
    simp [hne, hb]
  obtain ⟨l, t, ht, hl⟩ := logPredict_closed (all_coh (Averager.lawful hP) ha h hw h2) hcl g2 hneg h4
  exact ⟨_, l + s.ptw.adjusted - s.ptw.logProb, st, ⟨⟨t, s.ptw.logProb, s.ptw.adj⟩, s.store, s.t⟩, h5,
    by simp only [FMN.predictor, FMN.logPredict, PTW.logPredict, ht, ok_bind, pure_eq_ok], by linarith⟩

/-- **C27, consequence for `FMN`.** At every block boundary the predictions over an alphabet of at least two symbols sum to more
than one. -/
theorem C27_FMN_exceed_one (hSt : St.Lawful add Keep) (I : σ → Prop) (A : List α) (W : ℝ → Prop)
    (hP : P.Lawful I A W) (hC : P.Copyable I) (f : σ) (hf : I f) (hA : 2 ≤ A.length) (m : ℕ) (xs : List (Obs α))
    (hx : ∀ o ∈ xs, o.sym ∈ A ∧ W o.weight) (hne : xs ≠ []) (hb : 2 ^ m ∣ xs.length) (r : ℝ) (s0 s : FMN S σ)
    (h0 : FMN.init St P f m = .ok s0) (hr : (FMN.predictor St P m).run s0 xs = .ok (r, s)) (h : List α) (w : ℝ) (hw : W w) :
    1 < (A.map fun a => probOf ((FMN.predictor St P m).logPredict s a h)).sum := by
  obtain ⟨s0', r', s', g1, g2, hsum⟩ := C34_FMN_normalised St add Keep P hSt I A W hP.updateLawful hC f hf m xs hx h w hw
  rw [h0, Except.ok.injEq] at g1
  subst g1
  rw [hr] at g2
  simp only [Except.ok.injEq, Prod.mk.injEq] at g2
  obtain ⟨rfl, rfl⟩ := g2
  rw [← hsum]
  apply sum_lt hA
  intro a ha
  obtain ⟨q, q', s', t, g1, g2, g3⟩ :=
    C27_FMN_overestimates hSt I A W hP hC f hf hA m xs hx hne hb r s0 s h0 hr a ha h w hw
  rw [g1, g2, probOf_ok, probOf_ok]
  exact Real.exp_lt_exp.mpr g3

end Mixing

/-- Example: the default `FMN`, with blocks of 1024 symbols, over `KTBinary` meets the hypotheses. -/
example (xs : List (Obs Bool)) (hx : ∀ o ∈ xs, 0 ≤ o.weight) (hl : xs.length = 1024) (r : ℝ)
    (s0 s : FMN (LogStore KTBinary) KTBinary)
    (h0 : FMN.init (LogStore.store KTBinary) KTBinary.predictor (KTBinary.init none) 10 = .ok s0)
    (hr : (FMN.predictor (LogStore.store KTBinary) KTBinary.predictor 10).run s0 xs = .ok (r, s)) :
    1 < (([false, true] : List Bool).map fun a =>
      probOf ((FMN.predictor (LogStore.store KTBinary) KTBinary.predictor 10).logPredict s a [])).sum :=
  C27_FMN_exceed_one (LogStore.lawful _) _ _ _ KTBinary.lawful (fun s hs => ⟨s, rfl, hs, fun _ => rfl⟩) _
    (by norm_num [KTBinary.init]) (by simp) 10 xs (fun o ho => ⟨by cases o.sym <;> simp, hx o ho⟩)
    (by rintro rfl; simp at hl) (by norm_num [hl]) r s0 s h0 hr [] 1 zero_le_one

end Verif
