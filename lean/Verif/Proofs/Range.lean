import Verif.Spec.Range
import Verif.Proofs.FMN
import Verif.Proofs.Reinforce

/-! Bounds on the probability of the next symbol. -/

namespace Verif

open Predictor PTWNode

/-- `y` is between `lo` and `hi` times `x`. -/
structure Rg (lo hi x y : ℝ) : Prop where
  nonneg : 0 ≤ x
  low : lo * x ≤ y
  high : y ≤ hi * x

namespace Rg

variable {lo hi x y x' y' c : ℝ}

theorem scale (hc : 0 ≤ c) (h : Rg lo hi x y) : Rg lo hi (c * x) (c * y) := by
  refine ⟨mul_nonneg hc h.nonneg, ?_, ?_⟩
  · calc lo * (c * x) = c * (lo * x) := by ring
      _ ≤ c * y := mul_le_mul_of_nonneg_left h.low hc
  · calc c * y ≤ c * (hi * x) := mul_le_mul_of_nonneg_left h.high hc
      _ = hi * (c * x) := by ring

theorem add (h : Rg lo hi x y) (h' : Rg lo hi x' y') : Rg lo hi (x + x') (y + y') :=
  ⟨add_nonneg h.nonneg h'.nonneg, by rw [mul_add]; exact add_le_add h.low h'.low, by rw [mul_add]; exact add_le_add h.high h'.high⟩

theorem mono {lo' hi' : ℝ} (h : Rg lo hi x y) (h1 : lo' ≤ lo) (h2 : hi ≤ hi') : Rg lo' hi' x y :=
  ⟨h.nonneg, (mul_le_mul_of_nonneg_right h1 h.nonneg).trans h.low, h.high.trans (mul_le_mul_of_nonneg_right h2 h.nonneg)⟩

theorem sum {ι : Type} (l : List ι) {f g : ι → ℝ} (h : ∀ i ∈ l, Rg lo hi (f i) (g i)) : Rg lo hi (l.map f).sum (l.map g).sum := by
  induction l with
  | nil => exact ⟨le_rfl, by simp, by simp⟩
  | cons i l ih =>
    simp only [List.map_cons, List.sum_cons]
    exact (h i (by simp)).add (ih fun j hj => h j (by simp [hj]))

theorem div (h : Rg lo hi x y) (hx : 0 < x) : lo ≤ y / x ∧ y / x ≤ hi :=
  ⟨(le_div_iff₀ hx).mpr h.low, (div_le_iff₀ hx).mpr h.high⟩

theorem ctw {κ β : Type} [DecidableEq κ] {base : List β → ℝ} (h1 : base [] = 1) (h0 : ∀ l, 0 ≤ base l) {V : β → Prop} {o : β} {n : ℕ}
    (hb : ∀ l, (∀ x ∈ l, V x) → l.length ≤ n → Rg lo hi (base l) (base (l ++ [o]))) :
    ∀ (d : ℕ) (S : List (List κ × β)) (cs : List κ), (∀ p ∈ S, V p.2) → S.length ≤ n → cs.length = d →
      Rg lo hi (ctwProb base d S) (ctwProb base d (S ++ [(cs, o)])) := by
  intro d
  induction d with
  | zero =>
    intro S cs hS hn _
    simp only [ctwProb, List.map_append, List.map_cons, List.map_nil]
    exact hb _ (fun x hx => by
      obtain ⟨p, hp, rfl⟩ := List.mem_map.mp hx
      exact hS p hp) (by simpa using hn)
  | succ d ih =>
    intro S cs hS hn hcs
    obtain ⟨c, cs, rfl⟩ := List.exists_cons_of_length_eq_add_one hcs
    have hbase := hb (S.map Prod.snd) (fun x hx => by
      obtain ⟨p, hp, rfl⟩ := List.mem_map.mp hx
      exact hS p hp) (by simpa using hn)
    have hsub : ∀ p ∈ subCtx c S, V p.2 := by
      intro p hp
      obtain ⟨q, hq, hqp⟩ := List.mem_filterMap.mp hp
      obtain ⟨l, b⟩ := q
      cases l with
      | nil => simp at hqp
      | cons e es =>
        simp only at hqp
        split_ifs at hqp
        simp only [Option.some.injEq] at hqp
        subst hqp
        exact hS (e :: es, b) hq
    have hlen : (subCtx c S).length ≤ n := (List.length_filterMap_le _ _).trans hn
    have hc := ih (subCtx c S) cs hsub hlen (by simpa using hcs)
    have hmem : c ∈ insert c (heads S) := Finset.mem_insert_self _ _
    simp only [ctwProb, List.map_append, List.map_cons, List.map_nil]
    refine (hbase.scale (by norm_num)).add (Rg.scale (by norm_num) ?_)
    rw [heads_append, prod_heads_subset h1 d S (Finset.subset_insert c (heads S)), ← Finset.prod_erase_mul _ _ hmem,
      ← Finset.prod_erase_mul _ _ hmem, subCtx_append_self]
    have : ∏ x ∈ (insert c (heads S)).erase c, ctwProb base d (subCtx x (S ++ [(c :: cs, o)])) =
        ∏ x ∈ (insert c (heads S)).erase c, ctwProb base d (subCtx x S) :=
      Finset.prod_congr rfl fun x hx => by rw [subCtx_append_other (Finset.ne_of_mem_erase hx)]
    rw [this]
    exact hc.scale (Finset.prod_nonneg fun x _ => ctwProb_nonneg h0 d _)

theorem ptw {β : Type} {p : ℕ → List β → ℝ} (h1 : ∀ t, p t [] = 1) (h0 : ∀ t l, 0 ≤ p t l) {o : β} (m : ℕ) :
    ∀ (k t : ℕ) (xs : List β), xs.length < 2 ^ (m + k) →
      (∀ j ≤ xs.length, Rg lo hi (p (t + j) (xs.drop j)) (p (t + j) (xs.drop j ++ [o]))) →
      Rg lo hi (ptwProb p m k t xs) (ptwProb p m k t (xs ++ [o])) := by
  intro k
  have hnn : ∀ (k t : ℕ) (xs : List β), 0 ≤ ptwProb p m k t xs := by
    intro k
    induction k with
    | zero => exact h0
    | succ k ih =>
      intro t xs
      have a1 := h0 t xs
      have a2 := ih t (xs.take (2 ^ (m + k)))
      have a3 := ih (t + 2 ^ (m + k)) (xs.drop (2 ^ (m + k)))
      simp only [ptwProb]
      positivity
  induction k with
  | zero =>
    intro t xs _ hp
    have := hp 0 (by omega)
    simpa [ptwProb] using this
  | succ k ih =>
    intro t xs hl hp
    have hbase := hp 0 (by omega)
    rw [add_zero, List.drop_zero] at hbase
    simp only [ptwProb]
    refine (hbase.scale (by norm_num)).add (Rg.scale (by norm_num) ?_)
    by_cases hc : 2 ^ (m + k) ≤ xs.length
    · rw [List.take_append_of_le_length hc, List.drop_append_of_le_length hc]
      refine (ih _ _ ?_ ?_).scale (hnn _ _ _)
      · rw [List.length_drop]
        have : 2 ^ (m + (k + 1)) = 2 ^ (m + k) + 2 ^ (m + k) := by rw [← add_assoc, pow_succ]; ring
        omega
      · intro j hj
        rw [List.length_drop] at hj
        have := hp (2 ^ (m + k) + j) (by omega)
        rwa [← add_assoc, ← List.drop_drop] at this
    · rw [List.take_of_length_le (by omega), List.drop_eq_nil_of_le (by omega), List.take_of_length_le (by simp; omega),
        List.drop_eq_nil_of_le (by simp; omega), ptwProb_nil h1, mul_one, mul_one]
      exact ih t xs (by omega) hp

end Rg

namespace Predictor

variable {σ α : Type} {P : Predictor σ α} {A : List α} {W : ℝ → Prop} {lo hi : ℕ → ℝ} {s : σ}

theorem seqProb_empty (P : Predictor σ α) (s : σ) : P.seqProb s [] = 1 := by simp [seqProb, Predictor.run, probOf]

theorem Ranges.rg (h : P.Ranges s A W lo hi) {xs : List (Obs α)} {o : Obs α} (hx : GoodObs A W (xs ++ [o])) :
    Rg (lo xs.length) (hi xs.length) (P.seqProb s xs) (P.seqProb s (xs ++ [o])) ∧ 0 < P.seqProb s xs := by
  obtain ⟨r, t, q, t', h1, h2, h3, h4⟩ := h xs o hx
  rw [seqProb_of_run h1, seqProb_of_run (CTWNode.run_snoc_ok h1 h2), Real.exp_add]
  have := Real.exp_pos r
  exact ⟨⟨this.le, by rw [mul_comm]; exact mul_le_mul_of_nonneg_left h3 this.le,
    by rw [mul_comm (hi _)]; exact mul_le_mul_of_nonneg_left h4 this.le⟩, this⟩

/-- The converse: if the runs succeed, the sequence probabilities decide. -/
theorem Ranges.of_rg (hrun : ∀ xs, GoodObs A W xs → ∃ r t, P.run s xs = .ok (r, t))
    (h : ∀ xs o, GoodObs A W (xs ++ [o]) → Rg (lo xs.length) (hi xs.length) (P.seqProb s xs) (P.seqProb s (xs ++ [o]))) :
    P.Ranges s A W lo hi := by
  intro xs o hx
  obtain ⟨r, t', hr⟩ := hrun (xs ++ [o]) hx
  obtain ⟨r1, t, r2, h1, h2, rfl⟩ := run_append_ok.mp hr
  obtain ⟨q, t1, r3, h3, h4, rfl⟩ := run_cons_ok.mp h2
  simp only [Predictor.run, pure_eq_ok, Except.ok.injEq, Prod.mk.injEq] at h4
  obtain ⟨rfl, rfl⟩ := h4
  have hg := h xs o hx
  rw [seqProb_of_run h1, seqProb_of_run hr, add_zero, Real.exp_add, mul_comm (Real.exp r1)] at hg
  have hp := Real.exp_pos r1
  exact ⟨r1, t, q, t1, h1, h3, le_of_mul_le_mul_right hg.low hp, le_of_mul_le_mul_right hg.high hp⟩

theorem seqProb_append_of_run {r : ℝ} {t : σ} {xs : List (Obs α)} (h : P.run s xs = .ok (r, t)) (zs : List (Obs α)) :
    P.seqProb s (xs ++ zs) = Real.exp r * P.seqProb t zs := by
  cases hz : P.run t zs with
  | ok v =>
    obtain ⟨q, u⟩ := v
    rw [seqProb_of_run hz, seqProb_of_run (run_append_ok.mpr ⟨r, t, q, h, hz, rfl⟩), Real.exp_add]
  | error e =>
    have h0 : P.seqProb t zs = 0 := by simp [seqProb, hz, probOf]
    rw [h0, mul_zero]
    cases hh : P.run s (xs ++ zs) with
    | error e' => simp [seqProb, hh, probOf]
    | ok v =>
      obtain ⟨r1, t1, r2, g1, g2, _⟩ := run_append_ok.mp hh
      rw [h] at g1
      simp only [Except.ok.injEq, Prod.mk.injEq] at g1
      rw [← g1.2, hz] at g2
      cases g2

/-- `s` predicts as `f` does after at most `n` updates. -/
def Trained (P : Predictor σ α) (A : List α) (W : ℝ → Prop) (f : σ) (n : ℕ) (s : σ) : Prop :=
  ∃ xs, GoodObs A W xs ∧ xs.length ≤ n ∧ 0 < P.seqProb f xs ∧ ∀ zs, P.seqProb f (xs ++ zs) = P.seqProb f xs * P.seqProb s zs

variable {f : σ} {n : ℕ}

theorem Trained.refl (P : Predictor σ α) (A : List α) (W : ℝ → Prop) (f : σ) (n : ℕ) : Trained P A W f n f :=
  ⟨[], by simp [GoodObs], by simp, by rw [seqProb_empty]; norm_num, fun zs => by rw [seqProb_empty, one_mul, List.nil_append]⟩

theorem Trained.mono (h : Trained P A W f n s) {k : ℕ} (hk : n ≤ k) : Trained P A W f k s := by
  obtain ⟨xs, h1, h2, h3⟩ := h
  exact ⟨xs, h1, h2.trans hk, h3⟩

theorem Trained.update (h : Trained P A W f n s) {o : Obs α} (ho : o.sym ∈ A ∧ W o.weight) {r : ℝ} {t : σ}
    (hu : P.update s o.sym o.hist o.weight = .ok (r, t)) : Trained P A W f (n + 1) t := by
  obtain ⟨xs, h1, h2, h3, h4⟩ := h
  have hrun : P.run s [o] = .ok (r, t) := run_cons_ok.mpr ⟨r, t, 0, hu, rfl, by simp⟩
  refine ⟨xs ++ [o], h1.snoc ho, by simpa using h2, ?_, fun zs => ?_⟩
  · rw [h4, seqProb_of_run hrun]
    exact mul_pos h3 (Real.exp_pos r)
  · rw [List.append_assoc, h4, h4, seqProb_append_of_run hrun, seqProb_of_run hrun, mul_assoc]

theorem Ranges.trained (h : P.Ranges f A W lo hi) (hlo : Antitone lo) (hhi : Monotone hi) (ht : Trained P A W f n s) {ys : List (Obs α)} {o : Obs α}
    (hy : GoodObs A W (ys ++ [o])) : Rg (lo (n + ys.length)) (hi (n + ys.length)) (P.seqProb s ys) (P.seqProb s (ys ++ [o])) := by
  obtain ⟨xs, h1, h2, h3, h4⟩ := ht
  have hg := (h.rg (xs := xs ++ ys) (o := o) (by
    intro x hx
    rw [List.append_assoc, List.mem_append] at hx
    exact hx.elim (h1 x) (hy x))).1
  rw [List.append_assoc, h4, h4, List.length_append] at hg
  have := hg.scale (inv_nonneg.mpr h3.le)
  rw [inv_mul_cancel_left₀ h3.ne', inv_mul_cancel_left₀ h3.ne'] at this
  exact this.mono (hlo (by omega)) (hhi (by omega))

end Predictor

theorem PTWNode.All.step {σ α : Type} {Q : Predictor σ α} {K K' : σ → Prop} {f : σ} {m : ℕ} {a : α} {h : List α} {w : ℝ} (hf : K f)
    (hstep : ∀ s r s', K s → Q.update s a h w = .ok (r, s') → K' s') {n n' : PTWNode σ} (hn : All K n)
    (hu : n.update Q (.ok f) m a h w = .ok n') : All K' n' := by
  have hbase : ∀ (d d' : PTWData σ), K d.base → d.baseStep Q a h w = .ok d' → K' d'.base := by
    intro d d' hd hb
    simp only [PTWData.baseStep, bind_eq_ok, pure_eq_ok, Except.ok.injEq] at hb
    obtain ⟨⟨r, b⟩, h1, rfl⟩ := hb
    exact hstep _ _ _ hd h1
  have hleaf : ∀ (d : PTWData σ) n', K d.base → leafUpdate Q d a h w = .ok n' → All K' n' := by
    intro d n' hd hb
    simp only [leafUpdate, bind_eq_ok, pure_eq_ok, Except.ok.injEq] at hb
    obtain ⟨d1, h1, rfl⟩ := hb
    exact (hbase d d1 hd h1 :)
  have hprom : ∀ (d : PTWData σ) n', K d.base → promoted Q (.ok f) m d a h w = .ok n' → All K' n' := by
    intro d n' hd hb
    simp only [promoted, bind_eq_ok, pure_eq_ok, Except.ok.injEq, ok_bind] at hb
    obtain ⟨d1, h1, r, h2, rfl⟩ := hb
    exact ⟨(hbase { d with leftLP := d.lp, height := d.height + 1 } d1 hd h1 :), hleaf (PTWData.new f m) r hf h2⟩
  induction n generalizing n' with
  | leaf d =>
    simp only [PTWNode.update] at hu
    split_ifs at hu
    · exact hprom _ _ hn hu
    · exact hleaf _ _ hn hu
  | inner d r ih =>
    simp only [PTWNode.update] at hu
    split_ifs at hu
    · exact hprom _ _ hn.1 hu
    · simp only [bind_eq_ok, pure_eq_ok, Except.ok.injEq] at hu
      obtain ⟨d1, h1, r', h2, rfl⟩ := hu
      exact ⟨(hbase d d1 hn.1 h1 :), ih hn.2 h2⟩

theorem Averager.Over.step {σ α : Type} {P : Predictor σ α} {J J' : σ → Prop} {a : α} {h : List α} {w : ℝ}
    (hstep : ∀ s r s', J s → P.update s a h w = .ok (r, s') → J' s') {v v' : Averager σ} {r : ℝ} (hv : Averager.Over J v)
    (hu : (Averager.predictor P).update v a h w = .ok (r, v')) : Averager.Over J' v' := by
  refine ⟨hv.inv.update hu, ?_⟩
  obtain ⟨f1, _, _⟩ := (Averager.update_ok hv.inv.ne).mp hu
  intro q hq
  obtain ⟨i, hi, rfl⟩ := List.mem_iff_getElem.mp hq
  have hl := f1.length_eq
  have hget := (List.forall₂_iff_get.mp f1).2 i (by omega) (by omega)
  simp only [List.get_eq_getElem] at hget
  exact hstep _ _ _ (hv.all _ (List.getElem_mem _)) hget

namespace FMN

variable {S σ α : Type} {P : Predictor σ α} {I : σ → Prop} {A : List α} {W : ℝ → Prop} {St : Store S σ} {add : S → σ → S}
  {Keep : S → σ → Prop} {m : ℕ} {f : σ}

/-- All models of the tree and of the store predict as the first one does after at most `n` updates. -/
structure AllTrained (St : Store S σ) (P : Predictor σ α) (A : List α) (W : ℝ → Prop) (I : σ → Prop) (f : σ) (n : ℕ) (s : FMN S σ) : Prop where
  tree : All (Averager.Over fun x => I x ∧ Trained P A W f n x) s.ptw.tree
  all : ∀ x ∈ St.items s.store, I x ∧ Trained P A W f n x

theorem copyable_trained (hC : P.Copyable I) (n : ℕ) : P.Copyable fun x => I x ∧ Trained P A W f n x := by
  rintro s ⟨h1, xs, h2, h3, h4, h5⟩
  obtain ⟨s', g1, g2, g3⟩ := hC s h1
  exact ⟨s', g1, ⟨g2, xs, h2, h3, h4, fun zs => by rw [h5, g3]⟩, g3⟩

theorem modelFactory_over {J : σ → Prop} (hC : P.Copyable J) {ms : List σ} (h : ∀ x ∈ ms, J x) {v : Averager σ}
    (hv : modelFactory P ms = .ok v) : Averager.Over J v := by
  obtain ⟨ys, h1, h2⟩ := copies_ok hC h
  simp only [modelFactory, h1, ok_bind] at hv
  exact Averager.over_init (forall₂_inv h2) hv

theorem allTrained_run (hP : P.UpdateLawful I A W) (hC : P.Copyable I) (hSt : St.Lawful add Keep) (hf : I f) {s0 : FMN S σ}
    (h0 : init St P f m = .ok s0) (xs : List (Obs α)) (hx : GoodObs A W xs) (r : ℝ) (s : FMN S σ)
    (hr : (predictor St P m).run s0 xs = .ok (r, s)) : AllTrained St P A W I f xs.length s := by
  induction xs using List.reverseRecOn generalizing r s with
  | nil =>
    simp only [Predictor.run, pure_eq_ok, Except.ok.injEq, Prod.mk.injEq] at hr
    obtain ⟨_, rfl⟩ := hr
    obtain ⟨v, h1, _, h3, h4⟩ := init_ok (m := m) hP hC hSt hf
    rw [h0] at h3
    simp only [Except.ok.injEq] at h3
    subst h3
    refine ⟨modelFactory_over (copyable_trained hC _) (by simpa using ⟨hf, Trained.refl P A W f 0⟩) h1, ?_⟩
    intro x hx'
    rw [(hSt.first f).2, List.mem_singleton] at hx'
    subst hx'
    exact ⟨hf, Trained.refl P A W _ _⟩
  | append_singleton xs o ih =>
    obtain ⟨r1, s1, r2, h1, h2, rfl⟩ := run_append_ok.mp hr
    obtain ⟨q, s2, r3, h3, h4, rfl⟩ := run_cons_ok.mp h2
    simp only [Predictor.run, pure_eq_ok, Except.ok.injEq, Prod.mk.injEq] at h4
    obtain ⟨_, rfl⟩ := h4
    have hx' : GoodObs A W xs := fun x hx' => hx x (by simp [hx'])
    have ho := hx o (by simp)
    have hA := ih hx' r1 s1 h1
    obtain ⟨s0', _, s1', fr, ms, e0, hG, hH⟩ := hist_run (m := m) hP hC hSt hf (xs := xs) hx'
    rw [h0] at e0
    simp only [Except.ok.injEq] at e0
    subst e0
    have hrun := hH.run
    rw [h1] at hrun
    simp only [Except.ok.injEq, Prod.mk.injEq] at hrun
    obtain ⟨_, rfl⟩ := hrun
    obtain ⟨v, g1, _, _⟩ := hG.factory hP hC hSt
    obtain ⟨q', p, b, k1, k2, k3, _⟩ := update_ok (m := m) hP hC hSt hG g1 ho.1 o.hist ho.2
    change update St P m s1 o.sym o.hist o.weight = _ at h3
    rw [k3] at h3
    simp only [Except.ok.injEq, Prod.mk.injEq] at h3
    obtain ⟨_, rfl⟩ := h3
    rw [List.length_append, List.length_singleton]
    have hstep : ∀ s r s', (I s ∧ Trained P A W f xs.length s) → P.update s o.sym o.hist o.weight = .ok (r, s') →
        I s' ∧ Trained P A W f (xs.length + 1) s' := by
      intro s r s' hs hu
      obtain ⟨r', s'', c1, c2⟩ := hP.total s o.sym o.hist o.weight hs.1 ho.1 ho.2
      rw [hu] at c1
      simp only [Except.ok.injEq, Prod.mk.injEq] at c1
      exact ⟨c1.2 ▸ c2, hs.2.update ho hu⟩
    have htree : All (Averager.Over fun x => I x ∧ Trained P A W f (xs.length + 1) x) p.tree := by
      simp only [PTW.update, bind_eq_ok, pure_eq_ok, Except.ok.injEq, Prod.mk.injEq] at k1
      obtain ⟨n, hn, _, rfl⟩ := k1
      exact All.step (modelFactory_over (copyable_trained hC _) hA.all g1) (fun v r v' hv hu => hv.step hstep hu) hA.tree hn
    refine ⟨htree, ?_⟩
    have hold : ∀ x ∈ St.items s1.store, I x ∧ Trained P A W f (xs.length + 1) x := fun x hx =>
      ⟨(hA.all x hx).1, (hA.all x hx).2.mono (by omega)⟩
    obtain ⟨b', c1, c2⟩ := best_ok (copyable_trained hC _) htree
    rw [k2] at c1
    simp only [Except.ok.injEq] at c1
    subst c1
    intro x hx
    simp only at hx
    split_ifs at hx
    · rcases hSt.sub _ _ _ hx with hx | rfl
      · exact hold x hx
      · exact c2
    · exact hold x hx

end FMN

end Verif
